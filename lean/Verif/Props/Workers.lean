import Verif.Lemmas.Jobs

/-! C61: the workers of a cluster that execute the tasks of an insertion at the same time. -/

namespace Verif

open Spec Storage Work

variable {C R : Type}

/-! ### Any programs with separate regions -/

/-- C61: programs that read and write separate regions of the file system do not interfere.
After any sequence of turns the region of each one is as if it had been alone, stopped after
the same number of turns; outside of the regions nothing changes, except that directories may
have been created. -/
theorem C61_independent (programs : List (Program C)) (regions : List (List Path)) (fs : FS C)
    (hsep : Separated programs regions fs) (schedule : List Nat) :
    (∀ (i : Nat) f r, programs[i]? = some f → regions[i]? = some r →
      Agree r (exec programs fs schedule).fs
        (run fs ((f fs).take (schedule.count i - 1)))) ∧
    ∀ q, (∀ r ∈ regions, ¬ InRegion r q) → (exec programs fs schedule).fs q = fs q ∨
      (fs q = none ∧ (exec programs fs schedule).fs q = some .dir) := by
  have h := reached_exec hsep schedule
  refine ⟨h.agree, fun q hq => ?_⟩
  rcases h.outside q hq with k | ⟨k1, k2, _⟩
  · exact .inl k
  · exact .inr ⟨k1, k2⟩

/-- C61: the file system at the end does not depend on the order of the turns. -/
theorem C61_order (programs : List (Program C)) (regions : List (List Path)) (fs : FS C)
    (hsep : Separated programs regions fs) (s1 s2 : List Nat)
    (h1 : finished (exec programs fs s1)) (h2 : finished (exec programs fs s2)) :
    (exec programs fs s1).fs = (exec programs fs s2).fs := by
  have r1 := reached_exec hsep s1
  have r2 := reached_exec hsep s2
  funext q
  by_cases hq : ∀ r ∈ regions, ¬ InRegion r q
  · have key : ∀ s s', Reached programs regions fs (fun j => s.count j) (exec programs fs s) →
        finished (exec programs fs s) →
        Reached programs regions fs (fun j => s'.count j) (exec programs fs s') →
        finished (exec programs fs s') →
        (exec programs fs s).fs q ≠ fs q → (exec programs fs s').fs q = some .dir := by
      intro s s' k hk k' hk' hne
      rcases k.outside q hq with l | ⟨l1, _, i, f, p, hf, hp, hqp⟩
      · exact absurd l hne
      · rw [finished_count k hk i f hf] at hp
        have hp' : .mkdirs p ∈ (f fs).take (s'.count i - 1) := by
          rw [finished_count k' hk' i f hf]; exact hp
        have hsome := k'.made q hq i f p hf hp' hqp
        rcases k'.outside q hq with l | ⟨_, l2, _⟩
        · rw [l, l1] at hsome; exact absurd hsome (by simp)
        · exact l2
    by_cases e1 : (exec programs fs s1).fs q = fs q
    · by_cases e2 : (exec programs fs s2).fs q = fs q
      · rw [e1, e2]
      · rw [key s2 s1 r2 h2 r1 h1 e2, key s2 s2 r2 h2 r2 h2 e2]
    · rw [key s1 s1 r1 h1 r1 h1 e1, key s1 s2 r1 h1 r2 h2 e1]
  · obtain ⟨r, hr⟩ := Classical.not_forall.1 hq
    obtain ⟨hr, hin⟩ := Classical.not_imp.1 hr
    have hin := Classical.not_not.1 hin
    obtain ⟨i, hi⟩ := List.getElem?_of_mem hr
    have hlt : i < programs.length := by
      rw [hsep.length]; exact (List.getElem?_eq_some_iff.1 hi).1
    have hf : programs[i]? = some programs[i] := List.getElem?_eq_getElem hlt
    rw [finished_run hsep h1 hf hi q hin, finished_run hsep h2 hf hi q hin]

/-- C61: every batch can be finished. -/
theorem C61_progress (programs : List (Program C)) (regions : List (List Path)) (fs : FS C)
    (hsep : Separated programs regions fs) : ∃ schedule, finished (exec programs fs schedule) :=
  schedule_exists hsep

/-! ### The tasks of an insertion -/

/-- C61: the tasks of the partitions of a batch use separate regions: their directory and their
temporary directory. -/
theorem C61_regions (m : Machine C) (root : Path) (jobs : List (Job C)) (fs : FS C)
    (hl : Placed m root (jobs.map (·.parts))) (hr : ∀ t ∈ jobs, Runnable m root fs t) :
    Separated (jobs.map (Job.program m root)) (jobs.map fun t => region m root t.parts) fs :=
  jobs_separated hl hr

/-- C62, full statement: a cluster killed at any moment leaves each existing partition of the
batch with its old content or with the new one, and each new partition complete or not
visible. -/
def C62_full : Prop :=
  ∀ (C : Type) (m : Machine C) (root : Path) (jobs : List (Job C)) (fs : FS C)
    (schedule : List Nat), Placed m root (jobs.map (·.parts)) →
    (∀ t ∈ jobs, Runnable m root fs t) → ∀ t ∈ jobs,
    let s := (exec (jobs.map (Job.program m root)) fs schedule).fs
    (∀ g, partitionExists (root ++ t.parts) fs = true →
      t.merged (sub fs (root ++ t.parts)) = .ok g →
      sub s (root ++ t.parts) = sub fs (root ++ t.parts) ∨ Holds s (root ++ t.parts) g) ∧
    ((∀ q, root ++ t.parts <+: q → fs q = none) →
      partitionExists (root ++ t.parts) s = false ∨ Holds s (root ++ t.parts) t.inserted)

/-- C62: a cluster killed at any moment, whatever the workers were doing, leaves each existing
partition of the batch with its old content, or with the new one, or with the new content
complete in its own temporary directory.  Missing: in the last case the partition itself may
be damaged or absent. -/
theorem C62_killed_partial (m : Machine C) (root : Path) (jobs : List (Job C)) (fs : FS C)
    (schedule : List Nat) (hl : Placed m root (jobs.map (·.parts)))
    (hr : ∀ t ∈ jobs, Runnable m root fs t) (t : Job C) (ht : t ∈ jobs) (g : Group C)
    (hex : partitionExists (root ++ t.parts) fs = true)
    (hg : t.merged (sub fs (root ++ t.parts)) = .ok g) :
    let s := (exec (jobs.map (Job.program m root)) fs schedule).fs
    sub s (root ++ t.parts) = sub fs (root ++ t.parts) ∨
      Holds s (tempDir m.hash (root ++ t.parts)) g ∨ Holds s (root ++ t.parts) g := by
  obtain ⟨k, ha, _⟩ := job_state hl hr schedule ht
  have hrun := hr t ht
  obtain ⟨hne, hk⟩ := hl.keys t.parts (List.mem_map_of_mem ht)
  have hprog : t.program m root fs = replaceSteps m.atomic (tempDir m.hash (root ++ t.parts))
      (root ++ t.parts) g (m.removal (tempDir m.hash (root ++ t.parts)) fs)
      (m.removal (root ++ t.parts) fs) := by
    simp [Job.program, hex, hg]
  rw [hprog] at ha
  have h := C26_recoverable_partial m.atomic m.hash root t.parts g _ _ fs (hrun.merged g hg)
    hl.hash hk hne (removal_covers hrun.temp) (removal_covers hrun.dest) k
  have e1 := sub_agree (dest_mem m root t.parts) ha
  have e2 := sub_agree (temp_mem m root t.parts) ha
  simp only [Holds] at h ⊢
  rw [e1, e2]
  exact h

/-- C61: if the merge of a partition raises, the partition is untouched at every moment, and so
is its temporary directory. -/
theorem C61_raised (m : Machine C) (root : Path) (jobs : List (Job C)) (fs : FS C)
    (schedule : List Nat) (hl : Placed m root (jobs.map (·.parts)))
    (hr : ∀ t ∈ jobs, Runnable m root fs t) (t : Job C) (ht : t ∈ jobs) (e : PyErr)
    (hex : partitionExists (root ++ t.parts) fs = true)
    (hg : t.merged (sub fs (root ++ t.parts)) = .error e) :
    Agree (region m root t.parts) (exec (jobs.map (Job.program m root)) fs schedule).fs fs := by
  obtain ⟨k, ha, _⟩ := job_state hl hr schedule ht
  have hprog : t.program m root fs = [] := by simp [Job.program, hex, hg]
  rw [hprog, List.take_nil] at ha
  exact ha

/-- C62: if the writes of the files are atomic, a cluster killed at any moment leaves each new
partition of the batch complete, or not visible. -/
theorem C62_killed_new_partial (m : Machine C) (root : Path) (jobs : List (Job C)) (fs : FS C)
    (schedule : List Nat) (hl : Placed m root (jobs.map (·.parts)))
    (hr : ∀ t ∈ jobs, Runnable m root fs t) (t : Job C) (ht : t ∈ jobs)
    (hat : m.atomic = true) (hnew : ∀ q, root ++ t.parts <+: q → fs q = none) :
    let s := (exec (jobs.map (Job.program m root)) fs schedule).fs
    partitionExists (root ++ t.parts) s = false ∨ Holds s (root ++ t.parts) t.inserted := by
  obtain ⟨k, ha, _⟩ := job_state hl hr schedule ht
  have hn : ∀ rel, fs (root ++ t.parts ++ rel) = none := fun rel => hnew _ (List.prefix_append _ _)
  have hprog : t.program m root fs = groupSteps true (root ++ t.parts) t.inserted := by
    simp only [Job.program, partitionExists, hn, hat]
    simp
  rw [hprog] at ha
  have h := C27_commit_point_partial (root ++ t.parts) t.inserted fs (hr t ht).inserted hnew k
  simp only [Holds] at h ⊢
  rw [exists_agree (dest_mem m root t.parts) ha, sub_agree (dest_mem m root t.parts) ha]
  exact h

/-- C61: at every moment the partitions that are not in the batch are unchanged, as well as
their temporary directories. -/
theorem C61_others (m : Machine C) (root : Path) (jobs : List (Job C)) (fs : FS C)
    (schedule : List Nat) (parts : Path) (hl : Placed m root (parts :: jobs.map (·.parts)))
    (hr : ∀ t ∈ jobs, Runnable m root fs t) :
    Agree (region m root parts) (exec (jobs.map (Job.program m root)) fs schedule).fs fs := by
  have hnd := List.nodup_cons.1 hl.nodup
  have hl' : Placed m root (jobs.map (·.parts)) :=
    ⟨fun p hp => hl.keys p (by simp [hp]),
      fun p hp q hq => hl.depth p (by simp [hp]) q (by simp [hq]), hnd.2, hl.hash,
      fun p hp q hq => hl.distinct p (by simp [hp]) q (by simp [hq])⟩
  refine bystander (jobs_separated hl' hr) schedule ?_
  intro a ha
  obtain ⟨t, ht, rfl⟩ := List.mem_map.1 ha
  have hm : t.parts ∈ jobs.map (·.parts) := List.mem_map_of_mem ht
  refine regions_apart hl (List.mem_cons_of_mem _ hm) (by simp) ?_
  rintro rfl
  exact hnd.1 hm

/-- C61: when all the tasks are finished, each partition of the batch holds what its own task
has to write: the merged group over an existing partition (its temporary directory is gone),
the inserted records if there was nothing.  A merge that raises leaves the partition as it was,
a directory with a group (or an array) but without consolidated metadata is removed, and the
task raises `ValueError`. -/
theorem C61_finished (m : Machine C) (root : Path) (jobs : List (Job C)) (fs : FS C)
    (schedule : List Nat) (hl : Placed m root (jobs.map (·.parts)))
    (hr : ∀ t ∈ jobs, Runnable m root fs t)
    (hfin : finished (exec (jobs.map (Job.program m root)) fs schedule))
    (t : Job C) (ht : t ∈ jobs) :
    let s := (exec (jobs.map (Job.program m root)) fs schedule).fs
    let d := root ++ t.parts
    (∀ g, partitionExists d fs = true → t.merged (sub fs d) = .ok g →
      (Holds s d g ∧ ∀ q, tempDir m.hash d <+: q → s q = none) ∧ t.raises root fs = none) ∧
    (∀ e, partitionExists d fs = true → t.merged (sub fs d) = .error e →
      sub s d = sub fs d ∧ t.raises root fs = some e) ∧
    ((∀ q, d <+: q → fs q = none) → Holds s d t.inserted ∧ t.raises root fs = none) ∧
    (partitionExists d fs = false →
      (fs (d ++ [".zgroup"])).isSome ∨ (fs (d ++ [".zarray"])).isSome →
      (∀ q, d <+: q → s q = none) ∧ t.raises root fs = some .valueError) := by
  obtain ⟨k, ha, hk⟩ := job_state hl hr schedule ht
  rw [hk hfin] at ha
  have hrun := hr t ht
  obtain ⟨hne, hkeys⟩ := hl.keys t.parts (List.mem_map_of_mem ht)
  have hd := dest_mem m root t.parts
  have htm := temp_mem m root t.parts
  refine ⟨?_, ?_, ?_, ?_⟩
  · intro g hex hg
    have hprog : t.program m root fs = replaceSteps m.atomic (tempDir m.hash (root ++ t.parts))
        (root ++ t.parts) g (m.removal (tempDir m.hash (root ++ t.parts)) fs)
        (m.removal (root ++ t.parts) fs) := by
      simp [Job.program, hex, hg]
    rw [hprog, run_replace (hrun.merged g hg) hl.hash hkeys hne hrun.dest hrun.temp] at ha
    have h := C26_replacement m.atomic m.hash root t.parts t.inserted (fun _ => g) fs
      (hrun.merged g hg) hl.hash hkeys hne hex
    simp only [insertPartition, hex, if_true] at h
    obtain ⟨_, h1, h2, _⟩ := h
    refine ⟨⟨?_, ?_⟩, by simp [Job.raises, hex, hg]⟩
    · simp only [Holds] at h1 ⊢
      rw [sub_agree hd ha]; exact h1
    · intro q hq
      rw [ha q ⟨_, htm, hq⟩]; exact h2 q hq
  · intro e hex hg
    have hprog : t.program m root fs = [] := by simp [Job.program, hex, hg]
    rw [hprog] at ha
    exact ⟨sub_agree hd ha, by simp [Job.raises, hex, hg]⟩
  · intro hnew
    have hn : ∀ rel, fs (root ++ t.parts ++ rel) = none :=
      fun rel => hnew _ (List.prefix_append _ _)
    have hprog : t.program m root fs = groupSteps m.atomic (root ++ t.parts) t.inserted := by
      simp only [Job.program, partitionExists, hn]
      simp
    rw [hprog] at ha
    refine ⟨?_, by simp only [Job.raises, partitionExists, hn]; simp⟩
    simp only [Holds]
    rw [sub_agree hd ha]
    exact run_group m.atomic _ hrun.inserted fs hn
  · intro hex hz
    refine ⟨?_, by
      simp only [Job.raises, hex, Bool.false_eq_true, if_false]; rw [if_pos hz.symm]⟩
    intro q hq
    have hprog : t.program m root fs = removeSteps (m.removal (root ++ t.parts) fs) := by
      simp only [Job.program, hex, Bool.false_eq_true, if_false]
      rw [if_pos hz.symm]
    rw [hprog, removed_of_covers (removal_covers hrun.dest)] at ha
    rw [ha q ⟨_, hd, hq⟩]
    exact removeTree_below hq fs

end Verif
