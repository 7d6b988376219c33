import Verif.Props.WorkersStore

/-! C61: cases that meet the hypotheses, and what happens without them. -/

namespace Verif

open Spec Storage Work

variable {C : Type}

namespace WorkCase

/-- A way to store integers. -/
def codec : Codec (List Int) Int where
  encode rows := ⟨[], [(["rows"], rows)], []⟩
  decode tree := match tree ["rows"] with
    | some (.file (some l)) => some l
    | _ => none
  path k := if k = [1] then ["x=1"] else if k = [2] then ["x=2"] else ["x=3"]

theorem codec_faithful : Faithful codec where
  valid rows := ⟨by intro f hf; simp [codec] at hf; subst hf; simp,
    by intro f hf; simp [codec] at hf; subst hf; simp⟩
  read rows := by
    have h : List.lookup ["rows"] [([".zmetadata"], []), (["rows"], rows), ([".zgroup"], [])] =
        some rows := rfl
    simp [codec, treeOf, Group.writes, h]

/-- Names of the temporary directories. -/
def hash (p : Path) : String :=
  if p = ["data", "x=1"] then "a1" else if p = ["data", "x=2"] then "a2" else "a3"

theorem hash_ne (p : Path) : '=' ∉ (hash p).toList := by
  unfold hash
  split
  · decide +kernel
  · split <;> decide +kernel

/-- The nodes of a partition. -/
def nodes : List Path := [[".zmetadata"], [".zgroup"], ["rows"], []]

/-- A local file system. -/
def machine : Machine (List Int) := ⟨true, hash, fun tree => nodes.filter fun p => (tree p).isSome⟩

def keys : List Coll.Key := [[1], [2], [3]]

theorem placed : Placed machine ["data"] (keys.map codec.path) where
  keys := by decide +kernel
  depth := by decide +kernel
  nodup := by decide +kernel
  hash := hash_ne
  distinct := by decide +kernel

/-- A collection with the partitions 1 and 3. -/
def files : FS (List Int) := fun q =>
  if q = [] ∨ q = ["data"] then some .dir
  else if ["data", "x=1"] <+: q then treeOf (codec.encode [10, 11]).writes (q.drop 2)
  else if ["data", "x=3"] <+: q then treeOf (codec.encode [30]).writes (q.drop 2)
  else none

theorem tree_nodes (rows : List Int) (rel : Path)
    (h : (treeOf (codec.encode rows).writes rel).isSome) : rel ∈ nodes := by
  apply Classical.byContradiction
  intro hn
  simp only [nodes, List.mem_cons, List.not_mem_nil, or_false, not_or] at hn
  obtain ⟨h1, h2, h3, h4⟩ := hn
  cases rel with
  | nil => exact h4 rfl
  | cons a t =>
    have e1 : (a :: t == [".zmetadata"]) = false := beq_eq_false_iff_ne.2 h1
    have e2 : (a :: t == [".zgroup"]) = false := beq_eq_false_iff_ne.2 h2
    have e3 : (a :: t == ["rows"]) = false := beq_eq_false_iff_ne.2 h3
    simp only [treeOf, Group.writes, codec, List.cons_append, List.nil_append, List.reverse_cons,
      List.reverse_nil, List.lookup, e1, e2, e3] at h
    simp at h
    cases t with
    | nil => simp_all
    | cons b t => simp_all

theorem removes_of {d : Path} {fs : FS (List Int)}
    (h : ∀ rel, (fs (d ++ rel)).isSome → rel ∈ nodes) : Removes machine d fs := by
  intro rel hs
  exact List.mem_filter.2 ⟨h rel hs, hs⟩

theorem files_one (rel : Path) :
    files (["data", "x=1"] ++ rel) = treeOf (codec.encode [10, 11]).writes rel := by
  simp [files]

theorem files_two (rel : Path) : files (["data", "x=2"] ++ rel) = none := by
  simp [files]

theorem files_three (rel : Path) :
    files (["data", "x=3"] ++ rel) = treeOf (codec.encode [30]).writes rel := by
  simp [files]

theorem files_temp (n : String) (h1 : n ≠ "x=1") (h3 : n ≠ "x=3") (rel : Path) :
    files (["data", n] ++ rel) = none := by
  simp [files, h1.symm, h3.symm]

theorem temp_of (k : Coll.Key) : tempDir machine.hash (["data"] ++ codec.path k) =
    ["data", if codec.path k = ["x=1"] then "a1" else if codec.path k = ["x=2"] then "a2"
      else "a3"] := by
  simp only [codec]
  split
  · decide +kernel
  · split <;> decide +kernel

theorem sane (k : Coll.Key) (hk : k ∈ keys) : Sane machine codec ["data"] files k where
  whole := by
    simp only [keys, List.mem_cons, List.not_mem_nil, or_false] at hk
    rcases hk with rfl | rfl | rfl
    · exact .inl ⟨by decide +kernel, by decide +kernel⟩
    · right
      rintro q ⟨rel, rfl⟩
      exact files_two rel
    · exact .inl ⟨by decide +kernel, by decide +kernel⟩
  dest := by
    simp only [keys, List.mem_cons, List.not_mem_nil, or_false] at hk
    apply removes_of
    intro rel h
    rcases hk with rfl | rfl | rfl
    · exact tree_nodes [10, 11] rel (files_one rel ▸ h)
    · have h' : (files (["data", "x=2"] ++ rel)).isSome := h
      rw [files_two rel] at h'; exact absurd h' (by simp)
    · exact tree_nodes [30] rel (files_three rel ▸ h)
  temp := by
    apply removes_of
    intro rel h
    rw [temp_of] at h
    have : files (["data", if codec.path k = ["x=1"] then "a1"
        else if codec.path k = ["x=2"] then "a2" else "a3"] ++ rel) = none := by
      apply files_temp <;> (split; decide +kernel; split <;> decide +kernel)
    rw [this] at h
    exact absurd h (by simp)

/-- The records of partition 1 are appended to those that are stored, partition 2 is new. -/
def append : Option (Coll.Merge Int) := some fun a b => .ok (a ++ b)

/-- The hypotheses of `C61_insert` and of `C61_insert_effect` hold: the insertion of three
records into an existing and a new partition can be executed, and every execution gives the
expected partitions. -/
example : ∃ fs', Work.Insert machine codec ["data"] append none true [[1], [2], [2]] [12, 20, 21]
      files fs' (.ok [[1], [2]]) ∧
    codec.store ["data"] fs' [1] = some [10, 11, 12] ∧
    codec.store ["data"] fs' [2] = some [20, 21] ∧
    codec.store ["data"] fs' [3] = some [30] := by
  have hsub : ∀ k ∈ [[1], [2], [2]], k ∈ keys := by decide +kernel
  obtain ⟨fs', r, h⟩ := C61_insert_progress machine codec codec_faithful ["data"] keys placed
    append none true [[1], [2], [2]] [12, 20, 21] files rfl (.inl rfl) hsub
    fun k hk => sane k (hsub k hk)
  obtain ⟨h1, h2⟩ := C61_insert machine codec codec_faithful ["data"] keys placed
    append none true [[1], [2], [2]] [12, 20, 21] files fs' r rfl (.inl rfl) hsub
    (fun k hk => sane k (hsub k hk)) h
  have hr : (Coll.insert append none true [[1], [2], [2]] [12, 20, 21]
      (codec.store ["data"] files)).2 = .ok [[1], [2]] := by decide +kernel
  rw [hr] at h2
  subst h2
  refine ⟨fs', h, ?_, ?_, ?_⟩
  · rw [h1 _ (by decide +kernel)]; decide +kernel
  · rw [h1 _ (by decide +kernel)]; decide +kernel
  · rw [h1 _ (by decide +kernel)]; decide +kernel

/-- The tasks of this insertion. -/
def jobs : List (Job (List Int)) := [([1], [12]), ([2], [20, 21])].map (codec.job append)

theorem jobs_placed : Placed machine ["data"] (jobs.map (·.parts)) := by
  refine placed_sub placed ?_ (by decide +kernel)
  decide +kernel

theorem jobs_runnable : ∀ t ∈ jobs, Runnable machine ["data"] files t := by
  intro t ht
  simp only [jobs, List.map_cons, List.map_nil, List.mem_cons, List.not_mem_nil, or_false] at ht
  rcases ht with rfl | rfl
  · exact job_runnable codec_faithful append _ (sane [1] (by decide +kernel))
  · exact job_runnable codec_faithful append _ (sane [2] (by decide +kernel))

/-- The hypotheses of the theorems on a killed cluster hold for these tasks. -/
example (schedule : List Nat) :=
  C62_killed_partial machine ["data"] jobs files schedule jobs_placed jobs_runnable
    (codec.job append ([1], [12])) (by simp [jobs]) (codec.encode [10, 11, 12])
    (by decide +kernel) rfl

example (schedule : List Nat) :=
  C62_killed_new_partial machine ["data"] jobs files schedule jobs_placed jobs_runnable
    (codec.job append ([2], [20, 21])) (by simp [jobs]) rfl
    (by rintro q ⟨rel, rfl⟩; exact files_two rel)

example (s1 s2 : List Nat) :=
  C61_order _ _ files (C61_regions machine ["data"] jobs files jobs_placed jobs_runnable) s1 s2

example (schedule : List Nat) :=
  C61_others machine ["data"] jobs files schedule ["x=3"]
    (placed_sub placed (by decide +kernel) (by decide +kernel)) jobs_runnable

/-- A callback that raises for partition 1 only: the other partition is written all the same,
whatever the order of the turns. -/
def refuse : Option (Coll.Merge Int) := some fun _ _ => .error .valueError

example : ∃ fs', Work.Insert machine codec ["data"] refuse (some 3) true [[1], [2], [2]] [12, 20, 21]
      files fs' (.error .valueError) ∧
    codec.store ["data"] fs' [1] = some [10, 11] ∧
    codec.store ["data"] fs' [2] = some [20, 21] := by
  have hsub : ∀ k ∈ [[1], [2], [2]], k ∈ keys := by decide +kernel
  obtain ⟨fs', r, h⟩ := C61_insert_progress machine codec codec_faithful ["data"] keys placed
    refuse (some 3) true [[1], [2], [2]] [12, 20, 21] files rfl (.inl rfl) hsub
    fun k hk => sane k (hsub k hk)
  obtain ⟨h1, h2⟩ := C61_insert machine codec codec_faithful ["data"] keys placed
    refuse (some 3) true [[1], [2], [2]] [12, 20, 21] files fs' r rfl (.inl rfl) hsub
    (fun k hk => sane k (hsub k hk)) h
  have hr : (Coll.insert refuse (some 3) true [[1], [2], [2]] [12, 20, 21]
      (codec.store ["data"] files)).2 = .error .valueError := by decide +kernel
  rw [hr] at h2
  subst h2
  refine ⟨fs', h, ?_, ?_⟩
  · rw [h1 _ (by decide +kernel)]; decide +kernel
  · rw [h1 _ (by decide +kernel)]; decide +kernel

end WorkCase

open WorkCase in
/-- Killed after the removal of the old partition: neither the old nor the new content. -/
theorem C62_counterexample : ¬ C62_full := by
  intro h
  have h1 := (h (List Int) machine ["data"] jobs files (List.replicate 11 0) jobs_placed
    jobs_runnable (codec.job append ([1], [12])) (by simp [jobs])).1 (codec.encode [10, 11, 12])
    (by decide +kernel) rfl
  have h2 : (exec (jobs.map (Job.program machine ["data"])) files (List.replicate 11 0)).fs
      ["data", "x=1"] = none := by decide +kernel
  have h3 : files ["data", "x=1"] = some .dir := by decide +kernel
  have h4 : treeOf (codec.encode [10, 11, 12]).writes [] = some .dir := by decide +kernel
  rcases h1 with h1 | h1
  · exact absurd (h2.symm.trans ((congrFun h1 []).trans h3)) (by simp)
  · exact absurd (h2.symm.trans ((congrFun h1 []).trans h4)) (by simp)

/-- All the tasks are finished, as a test. -/
def allDone (st : State C) : Bool := st.workers.all fun s =>
  match s with
  | .running [] => true
  | _ => false

theorem finished_of_allDone {st : State C} (h : allDone st = true) : finished st := by
  intro s hs
  have := List.all_eq_true.1 h s hs
  match s, this with
  | .running [], _ => rfl

open WorkCase in
/-- Two tasks on the same partition at the same time (two insertions without synchronizer): both
end without error, and the records of the first one are lost.  The hypothesis that the
partitions are distinct is needed. -/
theorem C61_same_partition_counterexample :
    ∃ schedule, let jobs := [([1], [12]), ([1], [13])].map (codec.job append)
    let s := exec (jobs.map (Job.program machine ["data"])) files schedule
    finished s ∧ (∀ j ∈ jobs, j.raises ["data"] files = none) ∧
      codec.store ["data"] s.fs [1] = some [10, 11, 13] := by
  refine ⟨[0, 1] ++ List.replicate 20 0 ++ List.replicate 20 1, finished_of_allDone ?_, ?_, ?_⟩
  · decide +kernel
  · decide +kernel
  · decide +kernel

open WorkCase in
/-- Two partitions with the same temporary directory: both tasks end without error, and the
first partition is lost.  The hypothesis that the hashes are distinct is needed. -/
theorem C61_same_hash_counterexample :
    ∃ schedule, let m : Machine (List Int) := { machine with hash := fun _ => "a0" }
    let jobs := [([1], [12]), ([3], [31])].map (codec.job append)
    let s := exec (jobs.map (Job.program m ["data"])) files schedule
    finished s ∧ (∀ j ∈ jobs, j.raises ["data"] files = none) ∧
      codec.store ["data"] s.fs [1] = some [30, 31] ∧ codec.store ["data"] s.fs [3] = none := by
  refine ⟨[0, 1] ++ List.replicate 8 0 ++ List.replicate 8 1 ++ List.replicate 20 0 ++
    List.replicate 20 1, finished_of_allDone ?_, ?_, ?_, ?_⟩
  · decide +kernel
  · decide +kernel
  · decide +kernel
  · decide +kernel

end Verif
