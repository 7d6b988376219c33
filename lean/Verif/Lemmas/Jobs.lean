import Verif.Lemmas.Workers
import Verif.Props.Storage

/-! Lemmas on the tasks of an insertion: the region of the file system that each one uses. -/

namespace Verif

open Spec Storage Work

variable {C R : Type}

theorem removal_covers {m : Machine C} {d : Path} {fs : FS C} (h : Removes m d fs) :
    Covers (m.removal d fs) d fs where
  below := by
    intro p hp
    obtain ⟨rel, _, rfl⟩ := List.mem_map.1 hp
    exact List.prefix_append _ _
  all := by
    rintro p ⟨rel, rfl⟩ hs
    exact List.mem_map.2 ⟨rel, h rel hs, rfl⟩

theorem below_within {r : List Path} {d : Path} (hd : d ∈ r) {s : Step C} (h : Below d s) :
    Within r s := by
  cases s with
  | mkdirs p => exact ⟨d, hd, h⟩
  | write p c => exact ⟨d, hd, h⟩
  | remove p => exact ⟨d, hd, h⟩
  | move a b => exact ⟨⟨d, hd, h.1⟩, ⟨d, hd, h.2⟩⟩

theorem sub_agree {r : List Path} {d : Path} (hd : d ∈ r) {a b : FS C} (h : Agree r a b) :
    sub a d = sub b d := by
  funext rel
  exact h _ ⟨d, hd, List.prefix_append _ _⟩

theorem at_agree {r : List Path} {d : Path} (hd : d ∈ r) {a b : FS C} (h : Agree r a b)
    (rel : Path) : a (d ++ rel) = b (d ++ rel) := congrFun (sub_agree hd h) rel

theorem exists_agree {r : List Path} {d : Path} (hd : d ∈ r) {a b : FS C} (h : Agree r a b) :
    partitionExists d a = partitionExists d b := by
  unfold partitionExists
  rw [at_agree hd h]

theorem removal_agree {r : List Path} {d : Path} (hd : d ∈ r) {a b : FS C} (h : Agree r a b)
    (m : Machine C) : m.removal d a = m.removal d b := by
  unfold Machine.removal
  rw [sub_agree hd h]

theorem removal_below (m : Machine C) (d : Path) (fs : FS C) : ∀ p ∈ m.removal d fs, d <+: p := by
  intro p hp
  obtain ⟨rel, _, rfl⟩ := List.mem_map.1 hp
  exact List.prefix_append _ _

theorem dest_mem (m : Machine C) (root parts : Path) : root ++ parts ∈ region m root parts := by
  simp [region]

theorem temp_mem (m : Machine C) (root parts : Path) :
    tempDir m.hash (root ++ parts) ∈ region m root parts := by
  simp [region]

/-- A task uses its own region only. -/
theorem job_confined {m : Machine C} {root : Path} {fs : FS C} {t : Job C}
    (h : Runnable m root fs t) : Confined (region m root t.parts) (t.program m root) fs where
  within := by
    intro s hs
    have hd := dest_mem m root t.parts
    have ht := temp_mem m root t.parts
    unfold Job.program at hs
    simp only at hs
    split at hs
    · split at hs
      · exact absurd hs (by simp)
      · rename_i g hg
        simp only [replaceSteps, List.mem_append, List.mem_singleton] at hs
        rcases hs with ((hs | hs) | hs) | rfl
        · exact below_within ht (removeSteps_below (removal_below m _ fs) s hs)
        · exact below_within ht (groupSteps_below _ _ (h.merged g hg) s hs)
        · exact below_within hd (removeSteps_below (removal_below m _ fs) s hs)
        · exact ⟨⟨_, ht, List.prefix_refl _⟩, ⟨_, hd, List.prefix_refl _⟩⟩
    · split at hs
      · exact below_within hd (removeSteps_below (removal_below m _ fs) s hs)
      · exact below_within hd (groupSteps_below _ _ h.inserted s hs)
  reads := by
    intro fs' ha
    have hd := dest_mem m root t.parts
    have ht := temp_mem m root t.parts
    unfold Job.program
    simp only [exists_agree hd ha, sub_agree hd ha, removal_agree hd ha, removal_agree ht ha,
      at_agree hd ha]

theorem regions_apart {m : Machine C} {root : Path} {parts : List Path} (h : Placed m root parts)
    {p q : Path} (hp : p ∈ parts) (hq : q ∈ parts) (hne : p ≠ q) :
    ApartDirs (region m root p) (region m root q) := by
  have key : ∀ a b, a ∈ parts → b ∈ parts → a ≠ b → ¬ a <+: b := by
    intro a b ha hb hab hpre
    exact hab (hpre.eq_of_length (h.depth a ha b hb))
  have tt : ∀ a b, a ∈ parts → b ∈ parts → a ≠ b →
      ¬ tempDir m.hash (root ++ a) <+: tempDir m.hash (root ++ b) := by
    intro a b ha hb hab hpre
    rw [tempDir, tempDir, extractRoot_parts root a (h.keys a ha).2,
      extractRoot_parts root b (h.keys b hb).2, List.prefix_append_right_inj,
      List.cons_prefix_cons] at hpre
    exact hab (h.distinct a ha b hb hpre.1)
  have cross : ∀ a b, a ∈ parts → b ∈ parts →
      ¬ tempDir m.hash (root ++ a) <+: root ++ b ∧ ¬ (root ++ b) <+: tempDir m.hash (root ++ a) :=
    fun a b ha hb => temp_cross m.hash root a b (h.keys a ha).2 (h.keys b hb).2
      (h.keys b hb).1 h.hash
  intro x hx y hy
  simp only [region, List.mem_cons, List.not_mem_nil, or_false] at hx hy
  rcases hx with rfl | rfl <;> rcases hy with rfl | rfl
  · simp only [List.prefix_append_right_inj]
    exact ⟨key p q hp hq hne, key q p hq hp hne.symm⟩
  · exact (cross q p hq hp).symm
  · exact cross p q hp hq
  · exact ⟨tt p q hp hq hne, tt q p hq hp hne.symm⟩

/-- The tasks of a batch have regions that are apart. -/
theorem jobs_separated {m : Machine C} {root : Path} {jobs : List (Job C)} {fs : FS C}
    (hl : Placed m root (jobs.map (·.parts))) (hr : ∀ t ∈ jobs, Runnable m root fs t) :
    Separated (jobs.map (Job.program m root)) (jobs.map fun t => region m root t.parts) fs where
  length := by simp
  confined := by
    intro i f r hf hg
    rw [List.getElem?_map, Option.map_eq_some_iff] at hf hg
    obtain ⟨t, ht, rfl⟩ := hf
    obtain ⟨t', ht', rfl⟩ := hg
    have : t = t' := by rw [ht] at ht'; exact Option.some.inj ht'
    subst this
    exact job_confined (hr t (List.mem_of_getElem? ht))
  apart := by
    intro i j a b hij ha hb
    rw [List.getElem?_map, Option.map_eq_some_iff] at ha hb
    obtain ⟨t, ht, rfl⟩ := ha
    obtain ⟨t', ht', rfl⟩ := hb
    refine regions_apart hl (List.mem_map_of_mem (List.mem_of_getElem? ht))
      (List.mem_map_of_mem (List.mem_of_getElem? ht')) ?_
    intro heq
    have h1 : (jobs.map (·.parts))[i]? = some t.parts := by simp [ht]
    have h2 : (jobs.map (·.parts))[j]? = some t.parts := by simp [ht', heq]
    have hi : i < (jobs.map (·.parts)).length := (List.getElem?_eq_some_iff.1 h1).1
    have hj : j < (jobs.map (·.parts)).length := (List.getElem?_eq_some_iff.1 h2).1
    have e1 := (List.getElem?_eq_some_iff.1 h1).2
    have e2 := (List.getElem?_eq_some_iff.1 h2).2
    exact hij ((List.getElem_inj hl.nodup).1 (e1.trans e2.symm))

theorem finished_run {programs : List (Program C)} {regions : List (List Path)} {fs : FS C}
    (hsep : Separated programs regions fs) {schedule : List Nat}
    (hfin : finished (exec programs fs schedule)) {i : Nat} {f : Program C} {r : List Path}
    (hf : programs[i]? = some f) (hr : regions[i]? = some r) :
    Agree r (exec programs fs schedule).fs (run fs (f fs)) := by
  have h := reached_exec hsep schedule
  have ha := h.agree i f r hf hr
  rwa [finished_count h hfin i f hf] at ha

/-- The region of a task after some turns. -/
theorem job_state {m : Machine C} {root : Path} {jobs : List (Job C)} {fs : FS C}
    (hl : Placed m root (jobs.map (·.parts))) (hr : ∀ t ∈ jobs, Runnable m root fs t)
    (schedule : List Nat) {t : Job C} (ht : t ∈ jobs) :
    ∃ k, Agree (region m root t.parts) (exec (jobs.map (Job.program m root)) fs schedule).fs
        (run fs ((t.program m root fs).take k)) ∧
      (finished (exec (jobs.map (Job.program m root)) fs schedule) →
        (t.program m root fs).take k = t.program m root fs) := by
  obtain ⟨i, hi⟩ := List.getElem?_of_mem ht
  have h := reached_exec (jobs_separated hl hr) schedule
  have hp : (jobs.map (Job.program m root))[i]? = some (t.program m root) := by simp [hi]
  have hg : (jobs.map fun t => region m root t.parts)[i]? = some (region m root t.parts) := by
    simp [hi]
  exact ⟨_, h.agree i _ _ hp hg, fun hfin => finished_count h hfin i _ hp⟩

/-- What is in a region apart from those of the programs is unchanged. -/
theorem bystander {programs : List (Program C)} {regions : List (List Path)} {fs : FS C}
    (hsep : Separated programs regions fs) (schedule : List Nat) {r : List Path}
    (h : ∀ a ∈ regions, ApartDirs a r) : Agree r (exec programs fs schedule).fs fs := by
  intro q hq
  have hout : ∀ a ∈ regions, ¬ InRegion a q := fun a ha => apart_out (h a ha) hq
  rcases (reached_exec hsep schedule).outside q hout with k | ⟨_, _, i, f, p, hf, hp, hqp⟩
  · exact k
  · exfalso
    have hi : i < programs.length := (List.getElem?_eq_some_iff.1 hf).1
    have hg : regions[i]? = some (regions[i]'(hsep.length ▸ hi)) := List.getElem?_eq_getElem _
    have hw := (hsep.confined i f _ hf hg).within _ (List.mem_of_mem_take hp)
    exact apart_out (h _ (List.mem_of_getElem? hg)) (inRegion_trans hq hqp) hw

theorem mem_le_sum {l : List Nat} {n : Nat} (h : n ∈ l) : n ≤ l.sum := by
  induction l with
  | nil => exact absurd h (by simp)
  | cons a t ih =>
    rw [List.sum_cons]
    rcases List.mem_cons.1 h with rfl | h
    · omega
    · have := ih h; omega

/-- A complete schedule exists. -/
theorem schedule_exists {programs : List (Program C)} {regions : List (List Path)} {fs : FS C}
    (hsep : Separated programs regions fs) :
    ∃ schedule, finished (exec programs fs schedule) := by
  obtain ⟨n, hn⟩ : ∃ n, ∀ f ∈ programs, (f fs).length ≤ n := by
    clear hsep
    induction programs with
    | nil => exact ⟨0, by simp⟩
    | cons f t ih =>
      obtain ⟨n, hn⟩ := ih
      refine ⟨max (f fs).length n, ?_⟩
      intro g hg
      rcases List.mem_cons.1 hg with rfl | hg
      · exact Nat.le_max_left _ _
      · exact Nat.le_trans (hn g hg) (Nat.le_max_right _ _)
  refine ⟨(List.range programs.length).flatMap fun i => List.replicate (n + 1) i, ?_⟩
  have h := reached_exec hsep
    ((List.range programs.length).flatMap fun i => List.replicate (n + 1) i)
  intro s hs
  obtain ⟨i, hi⟩ := List.getElem?_of_mem hs
  have hlt : i < programs.length := by
    rw [← h.length]; exact (List.getElem?_eq_some_iff.1 hi).1
  have hf : programs[i]? = some programs[i] := List.getElem?_eq_getElem hlt
  have hc : n + 1 ≤ ((List.range programs.length).flatMap fun i => List.replicate (n + 1) i).count i := by
    rw [List.count_flatMap]
    refine Nat.le_trans ?_ (mem_le_sum (List.mem_map.2 ⟨i, List.mem_range.2 hlt, rfl⟩))
    simp
  have hst := h.status i _ hf
  rw [hi] at hst
  rw [Option.some.inj hst, if_neg (by omega), List.drop_eq_nil_of_le]
  have := hn _ (List.getElem_mem hlt)
  omega

/-- The complete replacement of a partition. -/
theorem run_replace {m : Machine C} {root parts : Path} {fs : FS C} {g : Group C}
    (hg : ValidGroup g) (hh : ∀ p, '=' ∉ (m.hash p).toList)
    (hp : ∀ c ∈ parts, '=' ∈ c.toList) (hne : parts ≠ [])
    (hd : Removes m (root ++ parts) fs) (ht : Removes m (tempDir m.hash (root ++ parts)) fs) :
    run fs (replaceSteps m.atomic (tempDir m.hash (root ++ parts)) (root ++ parts) g
      (m.removal (tempDir m.hash (root ++ parts)) fs) (m.removal (root ++ parts) fs)) =
    apply (removeTree (root ++ parts) (run (removeTree (tempDir m.hash (root ++ parts)) fs)
      (groupSteps m.atomic (tempDir m.hash (root ++ parts)) g)))
        (.move (tempDir m.hash (root ++ parts)) (root ++ parts)) := by
  obtain ⟨d1, d2⟩ := temp_disjoint m.hash root parts hp hne hh
  unfold replaceSteps
  rw [run_append, run_append, run_append, removed_of_covers (removal_covers ht)]
  have hc : Covers (m.removal (root ++ parts) fs) (root ++ parts)
      (run (removeTree (tempDir m.hash (root ++ parts)) fs)
        (groupSteps m.atomic (tempDir m.hash (root ++ parts)) g)) := by
    have h0 := removal_covers hd
    refine ⟨h0.below, ?_⟩
    rintro p ⟨rel, rfl⟩ hs
    apply h0.all _ (List.prefix_append _ _)
    have h1 := sub_outside (run_outside _ (groupSteps_below m.atomic _ hg)
      (removeTree (tempDir m.hash (root ++ parts)) fs)) d1 d2
    have h2 := sub_outside (removeTree_outside (tempDir m.hash (root ++ parts)) fs) d1 d2
    have h3 := congrFun (h1.trans h2) rel
    simp only [sub] at h3
    rw [← h3]; exact hs
  rw [removed_of_covers hc]
  rfl

theorem holds_partition {fs : FS C} {d : Path} {g : Group C} (h : Holds fs d g) :
    partitionExists d fs = true := by
  have := congrFun h [".zmetadata"]
  simp only [sub] at this
  rw [partitionExists, this]
  simp [treeOf, Group.writes]

end Verif
