import Verif.Lemmas.Reader
import Verif.Props.Workers

/-! C78: reading a partition while other processes write. -/

namespace Verif

open Spec Storage Work Read

variable {C A : Type}

/-- The number of turns of a worker that a reader has seen increases. -/
theorem turns_mono (schedule : List Nat) {moments : Nat → Nat} (hm : Increasing moments) (i : Nat)
    {a b : Nat} (h : a ≤ b) :
    (schedule.take (moments a)).count i - 1 ≤ (schedule.take (moments b)).count i - 1 := by
  have : (schedule.take (moments a)).count i ≤ (schedule.take (moments b)).count i := by
    have hs : (schedule.take (moments a)).Sublist (schedule.take (moments b)) := by
      have := hm a b h
      rw [← Nat.min_eq_left this, ← List.take_take]
      exact List.take_sublist _ _
    exact hs.count_le i
  omega

/-- What a reader sees of the partition of a task: the steps of this task alone. -/
theorem watch_task {m : Machine C} {root : Path} {jobs : List (Job C)} {fs : FS C}
    (hl : Placed m root (jobs.map (·.parts))) (hr : ∀ t ∈ jobs, Runnable m root fs t) {t : Job C}
    (ht : t ∈ jobs) : ∃ i : Nat, ∀ (schedule : List Nat),
      Agree (region m root t.parts) (exec (jobs.map (Job.program m root)) fs schedule).fs
        (run fs ((t.program m root fs).take (schedule.count i - 1))) := by
  obtain ⟨i, hi⟩ := List.getElem?_of_mem ht
  refine ⟨i, fun schedule => ?_⟩
  exact (C61_independent _ _ fs (C61_regions m root jobs fs hl hr) schedule).1 i
    (t.program m root) (region m root t.parts) (by simp [hi]) (by simp [hi])

/-- C78, full statement: a reader finds in each partition its content before the insertion, or
the one that the insertion gives it, or the reading raises. -/
def C78_full : Prop :=
  ∀ (C A : Type) (f : Format C A) (m : Machine C) (root : Path) (jobs : List (Job C)) (fs : FS C)
    (schedule : List Nat) (moments : Nat → Nat), Placed m root (jobs.map (·.parts)) →
    (∀ t ∈ jobs, Runnable m root fs t) → m.atomic = true → Increasing moments →
    ∀ t ∈ jobs, ∀ x g, FilesOf (root ++ t.parts) fs x →
    t.merged (sub fs (root ++ t.parts)) = .ok g →
    let r := openGroup f (root ++ t.parts)
      (watch (jobs.map (Job.program m root)) fs schedule moments)
    r = resting f (root ++ t.parts) fs ∨ r = written f g ∨ ∃ e, r = .error e

/-- C78: the partitions that are not in the batch are read as if nobody was writing, at any
moments, in particular when a delayed dataset is computed long after it was loaded. -/
theorem C78_others (f : Format C A) (m : Machine C) (root : Path) (jobs : List (Job C)) (fs : FS C)
    (schedule : List Nat) (moments : Nat → Nat) (parts : Path)
    (hl : Placed m root (parts :: jobs.map (·.parts))) (hr : ∀ t ∈ jobs, Runnable m root fs t) :
    openGroup f (root ++ parts) (watch (jobs.map (Job.program m root)) fs schedule moments) =
      resting f (root ++ parts) fs := by
  have h : ∀ (j : Nat) rel, watch (jobs.map (Job.program m root)) fs schedule moments j
      (root ++ parts ++ rel) = fs (root ++ parts ++ rel) := fun j rel =>
    C61_others m root jobs fs (schedule.take (moments j)) parts hl hr _
      ⟨_, dest_mem m root parts, List.prefix_append _ _⟩
  exact openGroup_congr f (h 0) fun _ _ j _ _ => h j

/-- C78: a partition that the insertion creates is complete or the reading raises `KeyError`, if
the writes of the files are atomic. -/
theorem C78_new (f : Format C A) (m : Machine C) (root : Path) (jobs : List (Job C)) (fs : FS C)
    (schedule : List Nat) (moments : Nat → Nat) (hl : Placed m root (jobs.map (·.parts)))
    (hr : ∀ t ∈ jobs, Runnable m root fs t) (hat : m.atomic = true) (hm : Increasing moments)
    (t : Job C) (ht : t ∈ jobs) (hnew : ∀ q, root ++ t.parts <+: q → fs q = none) :
    let r := openGroup f (root ++ t.parts)
      (watch (jobs.map (Job.program m root)) fs schedule moments)
    r = .error .keyError ∨ r = written f t.inserted := by
  obtain ⟨i, hw⟩ := watch_task hl hr ht
  have hn : ∀ rel, fs (root ++ t.parts ++ rel) = none := fun rel => hnew _ (List.prefix_append _ _)
  have hprog : t.program m root fs = groupSteps true (root ++ t.parts) t.inserted := by
    simp only [Job.program, partitionExists, hn, hat]
    simp
  rw [hprog] at hw
  have hg := (hr t ht).inserted
  have see : ∀ (j : Nat) rel, watch (jobs.map (Job.program m root)) fs schedule moments j
      (root ++ t.parts ++ rel) = run fs ((groupSteps true (root ++ t.parts) t.inserted).take
        ((schedule.take (moments j)).count i - 1)) (root ++ t.parts ++ rel) := fun j rel =>
    hw (schedule.take (moments j)) _ ⟨_, dest_mem m root t.parts, List.prefix_append _ _⟩
  by_cases h0 : (schedule.take (moments 0)).count i - 1 <
      (groupSteps true (root ++ t.parts) t.inserted).length
  · left
    refine openGroup_missing f ?_
    rw [see, no_metadata _ hg fs (hn _) _ h0]
  · right
    have all : ∀ (j : Nat) rel, watch (jobs.map (Job.program m root)) fs schedule moments j
        (root ++ t.parts ++ rel) = treeOf t.inserted.writes ([] ++ rel) := by
      intro j rel
      have := turns_mono schedule hm i (Nat.zero_le j)
      rw [see, List.take_of_length_le (by omega)]
      exact congrFun (run_group true (root ++ t.parts) hg fs hn) rel
    exact openGroup_congr f (all 0) fun _ _ j _ _ => all j

/-- What a reader sees of a partition that the insertion replaces. -/
theorem watch_phases {m : Machine C} {root : Path} {jobs : List (Job C)} {fs : FS C}
    (hl : Placed m root (jobs.map (·.parts))) (hr : ∀ t ∈ jobs, Runnable m root fs t) {t : Job C}
    (ht : t ∈ jobs) (hex : partitionExists (root ++ t.parts) fs = true) {g : Group C}
    (hg : t.merged (sub fs (root ++ t.parts)) = .ok g) : ∃ (i : Nat) (state : Nat → FS C) (n1 n2 : Nat),
      Phases fs (root ++ t.parts) (tempDir m.hash (root ++ t.parts)) g state n1 n2 ∧
      ∀ (schedule : List Nat), Agree (region m root t.parts)
        (exec (jobs.map (Job.program m root)) fs schedule).fs (state (schedule.count i - 1)) := by
  obtain ⟨i, hw⟩ := watch_task hl hr ht
  have hrun := hr t ht
  obtain ⟨hne, hk⟩ := hl.keys t.parts (List.mem_map_of_mem ht)
  have hprog : t.program m root fs = replaceSteps m.atomic (tempDir m.hash (root ++ t.parts))
      (root ++ t.parts) g (m.removal (tempDir m.hash (root ++ t.parts)) fs)
      (m.removal (root ++ t.parts) fs) := by
    simp [Job.program, hex, hg]
  obtain ⟨n1, n2, hp⟩ := replace_phases m.atomic m.hash root t.parts g _ _ fs (hrun.merged g hg)
    hl.hash hk hne (removal_covers hrun.temp) (removal_covers hrun.dest)
  rw [hprog] at hw
  exact ⟨i, _, n1, n2, hp, hw⟩

theorem exists_of_files {d : Path} {fs : FS C} {x : C} (h : FilesOf d fs x) :
    partitionExists d fs = true := by
  simp [partitionExists, h.metadata]

/-- C78: the reading of a partition that the insertion replaces raises `KeyError`, or gives the new
content, or gives a dataset made of the old metadata where each chunk is the old one, the new one,
or missing (the fill value is given, without error).  Missing: in the last case the dataset may be
neither the old nor the new one. -/
theorem C78_replaced_partial (f : Format C A) (m : Machine C) (root : Path) (jobs : List (Job C))
    (fs : FS C) (schedule : List Nat) (moments : Nat → Nat)
    (hl : Placed m root (jobs.map (·.parts))) (hr : ∀ t ∈ jobs, Runnable m root fs t)
    (hm : Increasing moments) (t : Job C) (ht : t ∈ jobs) (x : C) (g : Group C)
    (hx : FilesOf (root ++ t.parts) fs x) (hg : t.merged (sub fs (root ++ t.parts)) = .ok g) :
    let r := openGroup f (root ++ t.parts)
      (watch (jobs.map (Job.program m root)) fs schedule moments)
    r = .error .keyError ∨ r = written f g ∨
      MadeOf f x (fun p c => c = contentOf (fs (root ++ t.parts ++ p)) ∨ c = none ∨
        c = contentOf (treeOf g.writes p)) r := by
  obtain ⟨i, state, n1, n2, ph, hw⟩ := watch_phases hl hr ht (exists_of_files hx) hg
  have see : ∀ (j : Nat) rel, watch (jobs.map (Job.program m root)) fs schedule moments j
      (root ++ t.parts ++ rel) =
        sub (state ((schedule.take (moments j)).count i - 1)) (root ++ t.parts) rel := fun j rel =>
    hw (schedule.take (moments j)) _ ⟨_, dest_mem m root t.parts, List.prefix_append _ _⟩
  by_cases h0 : (schedule.take (moments 0)).count i - 1 ≤ n2
  · rcases ph.during _ h0 [".zmetadata"] with h | h
    · right; right
      have any : ∀ (j : Nat) rel,
          watch (jobs.map (Job.program m root)) fs schedule moments j (root ++ t.parts ++ rel) =
            fs (root ++ t.parts ++ rel) ∨
          watch (jobs.map (Job.program m root)) fs schedule moments j (root ++ t.parts ++ rel) =
            none ∨
          watch (jobs.map (Job.program m root)) fs schedule moments j (root ++ t.parts ++ rel) =
            treeOf g.writes rel := by
        intro j rel
        rw [see]
        by_cases hj : (schedule.take (moments j)).count i - 1 ≤ n2
        · rcases ph.during _ hj rel with h | h
          · exact .inl h
          · exact .inr (.inl h)
        · exact .inr (.inr (congrFun (ph.after _ (by omega)) rel))
      refine openGroup_madeOf f (m := x) ?_ ?_ ?_
      · rw [see, h]
        exact hx.metadata
      · intro j rel
        rcases any j rel with h | h | h <;> rw [h]
        · exact hx.whole rel
        · exact nofun
        · exact treeOf_whole _ _
      · intro j p
        rcases any j p with h | h | h
        · exact .inl (by rw [h])
        · exact .inr (.inl (by rw [h]; rfl))
        · exact .inr (.inr (by rw [h]))
    · left
      exact openGroup_missing f (by rw [see, h])
  · right; left
    have all : ∀ (j : Nat) rel, watch (jobs.map (Job.program m root)) fs schedule moments j
        (root ++ t.parts ++ rel) = treeOf g.writes ([] ++ rel) := by
      intro j rel
      have := turns_mono schedule hm i (Nat.zero_le j)
      rw [see]
      exact congrFun (ph.after _ (by omega)) rel
    exact openGroup_congr f (all 0) fun _ _ j _ _ => all j

/-- C78: a reader that has finished while the partition is still the old one and the new one is in
the temporary directory gives the old content. -/
theorem C78_before (f : Format C A) (m : Machine C) (root : Path) (jobs : List (Job C))
    (fs : FS C) (schedule : List Nat) (moments : Nat → Nat)
    (hl : Placed m root (jobs.map (·.parts))) (hr : ∀ t ∈ jobs, Runnable m root fs t)
    (t : Job C) (ht : t ∈ jobs) (x : C) (g : Group C)
    (hx : FilesOf (root ++ t.parts) fs x) (hg : t.merged (sub fs (root ++ t.parts)) = .ok g)
    (n : Nat) (hn : ∀ i, i ≤ (f.chunks x).length → moments i ≤ n)
    (hold : sub (exec (jobs.map (Job.program m root)) fs (schedule.take n)).fs (root ++ t.parts) =
      sub fs (root ++ t.parts))
    (htemp : ∃ rel, ((exec (jobs.map (Job.program m root)) fs (schedule.take n)).fs
      (tempDir m.hash (root ++ t.parts) ++ rel)).isSome) :
    openGroup f (root ++ t.parts) (watch (jobs.map (Job.program m root)) fs schedule moments) =
      resting f (root ++ t.parts) fs := by
  obtain ⟨i, state, n1, n2, ph, hw⟩ := watch_phases hl hr ht (exists_of_files hx) hg
  have hlast : (schedule.take n).count i - 1 ≤ n2 := by
    apply Classical.byContradiction
    intro hc
    obtain ⟨rel, hs⟩ := htemp
    rw [hw (schedule.take n) _ ⟨_, temp_mem m root t.parts, List.prefix_append _ _⟩,
      ph.moved _ (by omega) rel] at hs
    cases hs
  have same : ∀ j, j ≤ (f.chunks x).length → ∀ rel,
      watch (jobs.map (Job.program m root)) fs schedule moments j (root ++ t.parts ++ rel) =
        fs (root ++ t.parts ++ rel) := by
    intro j hj rel
    have hle : (schedule.take (moments j)).count i - 1 ≤ (schedule.take n).count i - 1 := by
      have hs : (schedule.take (moments j)).Sublist (schedule.take n) := by
        rw [← Nat.min_eq_left (hn j hj), ← List.take_take]
        exact List.take_sublist _ _
      have := hs.count_le i
      omega
    have e : watch (jobs.map (Job.program m root)) fs schedule moments j
        (root ++ t.parts ++ rel) =
          sub (state ((schedule.take (moments j)).count i - 1)) (root ++ t.parts) rel :=
      hw (schedule.take (moments j)) _ ⟨_, dest_mem m root t.parts, List.prefix_append _ _⟩
    rw [e]
    rcases ph.during _ (Nat.le_trans hle hlast) rel with h | h
    · exact h
    · have := ph.gone _ _ hle hlast rel h
      have h2 : sub (exec (jobs.map (Job.program m root)) fs (schedule.take n)).fs
          (root ++ t.parts) rel = none :=
        (hw (schedule.take n) _ ⟨_, dest_mem m root t.parts, List.prefix_append _ _⟩).trans this
      rw [hold] at h2
      rw [h]
      exact h2.symm
  refine openGroup_congr f (same 0 (Nat.zero_le _)) fun x' hx' j _ hj => ?_
  rw [same 0 (Nat.zero_le _), hx.metadata] at hx'
  cases hx'
  exact same j hj

/-- C78: a reader that starts when the insertion is finished gives the new content. -/
theorem C78_after (f : Format C A) (m : Machine C) (root : Path) (jobs : List (Job C)) (fs : FS C)
    (schedule : List Nat) (moments : Nat → Nat) (hl : Placed m root (jobs.map (·.parts)))
    (hr : ∀ t ∈ jobs, Runnable m root fs t) (hm : Increasing moments)
    (hfin : finished (exec (jobs.map (Job.program m root)) fs (schedule.take (moments 0))))
    (t : Job C) (ht : t ∈ jobs) (x : C) (g : Group C) (hx : FilesOf (root ++ t.parts) fs x)
    (hg : t.merged (sub fs (root ++ t.parts)) = .ok g) :
    openGroup f (root ++ t.parts) (watch (jobs.map (Job.program m root)) fs schedule moments) =
      written f g := by
  have stay : ∀ j : Nat, finished (exec (jobs.map (Job.program m root)) fs
      (schedule.take (moments j))) := by
    intro j
    have hle := hm 0 j (Nat.zero_le j)
    have e : schedule.take (moments j) = schedule.take (moments 0) ++
        (schedule.drop (moments 0)).take (moments j - moments 0) := by
      rw [← List.take_add, Nat.add_sub_cancel' hle]
    rw [e, exec, List.foldl_append]
    generalize hst : (schedule.take (moments 0)).foldl (turn (jobs.map (Job.program m root)))
      (start (jobs.map (Job.program m root)) fs) = st at *
    have hst' : finished st := by rw [← hst]; exact hfin
    generalize (schedule.drop (moments 0)).take (moments j - moments 0) = l
    have idle : ∀ i, turn (jobs.map (Job.program m root)) st i = st := by
      intro i
      unfold turn
      cases hs : st.workers[i]? with
      | none => rfl
      | some w =>
        obtain rfl := hst' w (List.mem_of_getElem? hs)
        split
        · rename_i h _; cases h
        · rename_i h; cases h
        · rfl
    have : l.foldl (turn (jobs.map (Job.program m root))) st = st := by
      induction l with
      | nil => rfl
      | cons a t ih => rw [List.foldl_cons, idle, ih]
    rw [this]
    exact hst'
  have all : ∀ (j : Nat) rel, watch (jobs.map (Job.program m root)) fs schedule moments j
      (root ++ t.parts ++ rel) = treeOf g.writes ([] ++ rel) := by
    intro j rel
    have := ((C61_finished m root jobs fs (schedule.take (moments j)) hl hr (stay j) t ht).1 g
      (exists_of_files hx) hg).1.1
    exact congrFun this rel
  exact openGroup_congr f (all 0) fun _ _ j _ _ => all j

/-! ### The other writers -/

/-- C78: a reader of a partition that is being removed (`drop_partitions`) raises `KeyError`, or
gives a dataset where each chunk is the stored one or the fill value. -/
theorem C78_dropped (f : Format C A) (d : Path) (fs : FS C) (order : List Path)
    (moments : Nat → Nat) (x : C) (hx : FilesOf d fs x) :
    let r := openGroup f d (follow (removeSteps order) fs moments)
    r = .error .keyError ∨
      MadeOf f x (fun p c => c = contentOf (fs (d ++ p)) ∨ c = none) r := by
  have any : ∀ (j : Nat) q, follow (removeSteps order) fs moments j q = fs q ∨
      follow (removeSteps order) fs moments j q = none := by
    intro j q
    simp only [follow, removeSteps, ← List.map_take]
    have := run_removeSteps (order.take (moments j)) fs q
    simp only [removeSteps] at this
    rw [this]
    split
    · exact .inr rfl
    · exact .inl rfl
  rcases any 0 (d ++ [".zmetadata"]) with h | h
  · right
    refine openGroup_madeOf f (h.trans hx.metadata) ?_ ?_
    · intro j rel
      rcases any j (d ++ rel) with h | h <;> rw [h]
      · exact hx.whole rel
      · exact nofun
    · intro j p
      rcases any j (d ++ p) with h | h
      · exact .inl (by rw [h])
      · exact .inr (by rw [h]; rfl)
  · exact .inl (openGroup_missing f h)

/-- Writing files in place: each file is the old one or one of those that are written. -/
theorem update_state {d : Path} {fs : FS C} {files : List (Path × C)}
    (hw : ∀ rel, fs (d ++ rel) ≠ some (.file none)) (steps : List (Step C))
    (hs : ∀ s ∈ steps, (∃ p, s = .mkdirs p) ∨ ∃ w ∈ files, s = .write (d ++ w.1) (some w.2))
    (rel : Path) :
    run fs steps (d ++ rel) ≠ some (.file none) ∧
      (contentOf (run fs steps (d ++ rel)) = contentOf (fs (d ++ rel)) ∨
        ∃ w ∈ files, w.1 = rel ∧ contentOf (run fs steps (d ++ rel)) = some w.2) := by
  suffices h : ∀ (steps : List (Step C)) (a : FS C), (∀ s ∈ steps, (∃ p, s = .mkdirs p) ∨
        ∃ w ∈ files, s = .write (d ++ w.1) (some w.2)) →
      (a (d ++ rel) ≠ some (.file none) ∧ (contentOf (a (d ++ rel)) = contentOf (fs (d ++ rel)) ∨
        ∃ w ∈ files, w.1 = rel ∧ contentOf (a (d ++ rel)) = some w.2)) →
      run a steps (d ++ rel) ≠ some (.file none) ∧
      (contentOf (run a steps (d ++ rel)) = contentOf (fs (d ++ rel)) ∨
        ∃ w ∈ files, w.1 = rel ∧ contentOf (run a steps (d ++ rel)) = some w.2) by
    exact h steps fs hs ⟨hw rel, .inl rfl⟩
  intro steps
  induction steps with
  | nil => intro a _ h; exact h
  | cons s t ih =>
    intro a hs h
    rw [run_cons]
    refine ih (apply a s) (fun s' hs' => hs s' (List.mem_cons_of_mem _ hs')) ?_
    rcases hs s (List.mem_cons_self ..) with ⟨p, rfl⟩ | ⟨w, hw, rfl⟩
    · simp only [apply]
      split
      · rename_i hc
        refine ⟨nofun, ?_⟩
        rw [Option.isNone_iff_eq_none.1 hc.2] at h
        exact h.2
      · exact h
    · simp only [apply]
      split
      · rename_i hc
        exact ⟨nofun, .inr ⟨w, hw, (List.append_cancel_left hc).symm, rfl⟩⟩
      · exact h

/-- C78: a reader of a partition of which a variable is being updated, if the writes of the files
are atomic, gets a dataset where each chunk is the old one or a new one. -/
theorem C78_updated (f : Format C A) (d : Path) (fs : FS C) (files : List (Path × C))
    (moments : Nat → Nat) (x : C) (hx : FilesOf d fs x)
    (hm : ∀ w ∈ files, w.1 ≠ [".zmetadata"]) :
    MadeOf f x (fun p c => c = contentOf (fs (d ++ p)) ∨ ∃ v, (p, v) ∈ files ∧ c = some v)
      (openGroup f d (follow (updateSteps true d files) fs moments)) := by
  have steps : ∀ n, ∀ s ∈ (updateSteps true d files).take n, (∃ p, s = .mkdirs p) ∨
      ∃ w ∈ files, s = .write (d ++ w.1) (some w.2) := by
    intro n s hs
    have hs := List.mem_of_mem_take hs
    obtain ⟨w, hw, hs⟩ := List.mem_flatMap.1 hs
    simp only [fileSteps, if_true, List.append_nil, List.cons_append, List.nil_append,
      List.mem_cons, List.not_mem_nil, or_false] at hs
    rcases hs with rfl | rfl
    · exact .inl ⟨_, rfl⟩
    · exact .inr ⟨w, hw, rfl⟩
  have st := fun j rel => update_state hx.whole _ (steps (moments j)) rel
  refine openGroup_madeOf f ?_ (fun j rel => (st j rel).1) ?_
  · have h : contentOf (follow (updateSteps true d files) fs moments 0 (d ++ [".zmetadata"])) =
        some x := by
      rcases (st 0 [".zmetadata"]).2 with h | ⟨w, hw, e, _⟩
      · rw [hx.metadata] at h
        exact h
      · exact absurd e (hm w hw)
    unfold contentOf at h
    split at h
    · rename_i c hc
      exact hc.trans (by rw [h])
    · cases h
  · intro j p
    rcases (st j p).2 with h | ⟨w, hw, e, h⟩
    · exact .inl h
    · exact .inr ⟨w.2, by rw [← e]; exact hw, h⟩

/-- C78: a dataset that is returned is not made of any torn file: neither its metadata nor one of
its chunks was torn when it was read; torn metadata raise `ValueError`. -/
theorem C78_torn (f : Format C A) (d : Path) (view : Nat → FS C) :
    (view 0 (d ++ [".zmetadata"]) = some (.file none) →
      openGroup f d view = .error .valueError) ∧
    ∀ a, openGroup f d view = .ok a → ∃ m, view 0 (d ++ [".zmetadata"]) = some (.file (some m)) ∧
      ∀ (i : Nat) p, (f.chunks m)[i]? = some p → view (i + 1) (d ++ p) ≠ some (.file none) := by
  have key : ∀ (l : List Path) (n : Nat) (r : List (Option C)), readChunks view d n l = .ok r →
      ∀ (i : Nat) p, l[i]? = some p → view (n + i) (d ++ p) ≠ some (.file none) := by
    intro l
    induction l with
    | nil => intro n r _ i p hp; cases hp
    | cons x t ih =>
      intro n r h i p hp
      simp only [readChunks, bind, Except.bind] at h
      split at h
      · cases h
      · next c hc =>
        split at h
        · cases h
        · next r' hr =>
          cases i with
          | zero =>
            simp only [List.getElem?_cons_zero, Option.some.injEq] at hp
            subst hp
            intro ht
            simp only [readChunk, Nat.add_zero] at hc ht
            rw [ht] at hc
            cases hc
          | succ i =>
            have := ih (n + 1) r' hr i p (by simpa using hp)
            rwa [show n + (i + 1) = n + 1 + i by omega]
  refine ⟨fun h => ?_, fun a h => ?_⟩
  · simp only [openGroup, h]
  · unfold openGroup at h
    split at h
    · next m hm =>
      simp only [bind, Except.bind] at h
      split at h
      · cases h
      · next l hl =>
        refine ⟨m, hm, fun i p hp => ?_⟩
        rw [show i + 1 = 1 + i by omega]
        exact key _ 1 l hl i p hp
    · cases h
    · cases h
    · cases h

end Verif
