import Verif.Props.Reader

/-! C78: what a reader finds in a partition that is replaced, removed or updated under it. -/

namespace Verif

open Spec Storage Work Read

namespace ReadCase

/-- Two variables of one chunk each; the metadata hold the fill value. -/
def format : Format Nat (List Nat) where
  chunks _ := [["x", "0"], ["y", "0"]]
  decode fill l := .ok (l.map fun c => match c with
    | some v => v
    | none => fill)

def group (x y : Nat) : Group Nat := ⟨0, [(["x", "0"], x), (["y", "0"], y)], 99⟩

theorem group_valid (x y : Nat) : ValidGroup (group x y) where
  notRoot := by
    intro f hf
    simp only [group, List.mem_cons, List.not_mem_nil, or_false] at hf
    rcases hf with rfl | rfl <;> simp
  noMeta := by
    intro f hf
    simp only [group, List.mem_cons, List.not_mem_nil, or_false] at hf
    rcases hf with rfl | rfl <;> simp

def hash (p : Path) : String := if p = ["data", "k=1"] then "a1" else "a2"

theorem hash_ne (p : Path) : '=' ∉ (hash p).toList := by
  unfold hash
  split <;> decide +kernel

/-- The nodes of a partition, in the order of their removal. -/
def nodes : List Path :=
  [["y", "0"], ["y"], [".zgroup"], [".zmetadata"], ["x", "0"], ["x"], []]

def machine : Machine Nat := ⟨true, hash, fun tree => nodes.filter fun p => (tree p).isSome⟩

/-- A collection with the partition 1. -/
def files : FS Nat := fun q =>
  if q = [] ∨ q = ["data"] then some .dir
  else if ["data", "k=1"] <+: q then treeOf (group 1 2).writes (q.drop 2)
  else none

theorem files_one (rel : Path) : files (["data", "k=1"] ++ rel) = treeOf (group 1 2).writes rel := by
  simp [files]

theorem files_other (n : String) (h : n ≠ "k=1") (rel : Path) :
    files (["data", n] ++ rel) = none := by
  simp [files, h.symm]

theorem tree_nodes (x y : Nat) (rel : Path) (h : (treeOf (group x y).writes rel).isSome) :
    rel ∈ nodes := by
  apply Classical.byContradiction
  intro hn
  simp only [nodes, List.mem_cons, List.not_mem_nil, or_false, not_or] at hn
  obtain ⟨h1, h2, h3, h4, h5, h6, h7⟩ := hn
  have e1 : (rel == ["y", "0"]) = false := beq_eq_false_iff_ne.2 h1
  have e3 : (rel == [".zgroup"]) = false := beq_eq_false_iff_ne.2 h3
  have e4 : (rel == [".zmetadata"]) = false := beq_eq_false_iff_ne.2 h4
  have e5 : (rel == ["x", "0"]) = false := beq_eq_false_iff_ne.2 h5
  have hl : (group x y).writes.reverse.lookup rel = none := by
    simp only [Group.writes, group, List.cons_append, List.nil_append, List.reverse_cons,
      List.reverse_nil, List.lookup, e1, e3, e4, e5]
  have hc : ((group x y).writes.any fun f => List.isPrefixOf rel f.1) = true := by
    apply Classical.byContradiction
    intro hc
    simp only [treeOf, hl] at h
    rw [if_neg hc] at h
    cases h
  simp only [Group.writes, group, List.cons_append, List.nil_append] at hc
  simp only [List.any_cons, List.any_nil, Bool.or_false, Bool.or_eq_true,
    List.isPrefixOf_iff_prefix] at hc
  rcases rel with _ | ⟨a, _ | ⟨b, t⟩⟩
  · exact h7 rfl
  · simp only [List.cons_prefix_cons, List.nil_prefix, and_true] at hc
    rcases hc with rfl | rfl | rfl | rfl
    · exact h3 rfl
    · exact h6 rfl
    · exact h2 rfl
    · exact h4 rfl
  · simp only [List.cons_prefix_cons] at hc
    rcases hc with ⟨_, hc⟩ | ⟨rfl, rfl, hc⟩ | ⟨rfl, rfl, hc⟩ | ⟨_, hc⟩
    · simp at hc
    · rw [List.prefix_nil.1 hc] at h5
      exact h5 rfl
    · rw [List.prefix_nil.1 hc] at h1
      exact h1 rfl
    · simp at hc

/-- The partition 1 is replaced, the partition 2 is created. -/
def jobs : List (Job Nat) :=
  [⟨["k=1"], group 10 20, fun _ => .ok (group 10 20)⟩, ⟨["k=2"], group 5 6, fun _ => .ok (group 5 6)⟩]

theorem placed : Placed machine ["data"] (jobs.map (·.parts)) where
  keys := by decide +kernel
  depth := by decide +kernel
  nodup := by decide +kernel
  hash := hash_ne
  distinct := by decide +kernel

theorem removes_of {d : Path} {fs : FS Nat}
    (h : ∀ rel, (fs (d ++ rel)).isSome → rel ∈ nodes) : Removes machine d fs := by
  intro rel hs
  exact List.mem_filter.2 ⟨h rel hs, hs⟩

theorem removes_none {n : String} (h : n ≠ "k=1") : Removes machine ["data", n] files :=
  removes_of fun rel hs => by rw [files_other n h rel] at hs; cases hs

theorem runnable : ∀ t ∈ jobs, Runnable machine ["data"] files t := by
  intro t ht
  simp only [jobs, List.mem_cons, List.not_mem_nil, or_false] at ht
  have t1 : tempDir machine.hash (["data"] ++ ["k=1"]) = ["data", "a1"] := by decide +kernel
  have t2 : tempDir machine.hash (["data"] ++ ["k=2"]) = ["data", "a2"] := by decide +kernel
  rcases ht with rfl | rfl
  · refine ⟨group_valid _ _, ?_, ?_, ?_⟩
    · intro g hg
      cases hg
      exact group_valid _ _
    · exact removes_of fun rel hs => tree_nodes 1 2 rel (files_one rel ▸ hs)
    · rw [t1]
      exact removes_none (by decide)
  · refine ⟨group_valid _ _, ?_, ?_, ?_⟩
    · intro g hg
      cases hg
      exact group_valid _ _
    · exact removes_none (by decide)
    · rw [t2]
      exact removes_none (by decide)

theorem files_whole : FilesOf ["data", "k=1"] files 99 where
  metadata := by decide +kernel
  whole rel := by rw [files_one]; exact treeOf_whole _ _

/-- What a reader of the partition 1 gets, when the three files are read after these numbers of
turns of the first worker. -/
def reading (a b c : Nat) : Py (List Nat) :=
  openGroup format (["data"] ++ ["k=1"]) (watch (jobs.map (Job.program machine ["data"])) files
    (List.replicate 30 0) fun i => if i = 0 then a else if i = 1 then b else c)

theorem increasing {a b c : Nat} (h1 : a ≤ b) (h2 : b ≤ c) :
    Increasing fun i => if i = 0 then a else if i = 1 then b else c := by
  intro i j hij
  rcases i with _ | _ | i <;> rcases j with _ | _ | j <;> simp <;> omega

/-- Before, and after. -/
example : resting format (["data"] ++ ["k=1"]) files = .ok [1, 2] ∧
    written format (group 10 20) = .ok [10, 20] := by decide +kernel

/-- `C78_before`, `C78_after`: all of it before the removal, or after the end. -/
example : reading 0 5 9 = .ok [1, 2] ∧ reading 17 17 17 = .ok [10, 20] := by decide +kernel

/-- `C78_before`: the partition is the old one after nine turns, and the temporary directory
exists. -/
example : ∀ rel, (exec (jobs.map (Job.program machine ["data"])) files
      ((List.replicate 30 0).take 9)).fs (["data", "k=1"] ++ rel) =
    files (["data", "k=1"] ++ rel) := by
  intro rel
  have h := (C61_independent _ _ files (C61_regions machine ["data"] jobs files placed runnable)
    ((List.replicate 30 0).take 9)).1 0 _ _ rfl rfl (["data", "k=1"] ++ rel)
    ⟨["data"] ++ ["k=1"], dest_mem machine ["data"] ["k=1"], List.prefix_append _ _⟩
  refine h.trans ?_
  refine congrFun (sub_outside (run_outside (d := ["data", "a1"]) _ ?_ files) (by decide) (by decide))
    rel
  have key : ∀ s ∈ ((Job.program machine ["data"] jobs[0] files).take 8), Below ["data", "a1"] s := by
    have : (Job.program machine ["data"] jobs[0] files).take 8 =
        groupSteps true ["data", "a1"] (group 10 20) := rfl
    rw [this]
    exact groupSteps_below true _ (group_valid 10 20)
  exact key

example : ((exec (jobs.map (Job.program machine ["data"])) files
    ((List.replicate 30 0).take 9)).fs (["data", "a1"] ++ [".zmetadata"])).isSome := by
  decide +kernel

/-- The partition is absent for a moment: the reading raises. -/
example : reading 16 16 16 = .error .keyError := by decide +kernel

/-- The partition 2 is absent, then complete. -/
example : openGroup format (["data"] ++ ["k=2"]) (watch (jobs.map (Job.program machine ["data"]))
      files (List.replicate 30 1) fun _ => 8) = .error .keyError ∧
    openGroup format (["data"] ++ ["k=2"]) (watch (jobs.map (Job.program machine ["data"]))
      files (List.replicate 30 1) fun _ => 9) = .ok [5, 6] := by decide +kernel

/-- The hypotheses of `C78_new` and of `C78_others`. -/
example : ∀ q, ["data"] ++ ["k=2"] <+: q → files q = none := by
  rintro q ⟨rel, rfl⟩
  exact files_other "k=2" (by decide) rel

example : Placed machine ["data"] (["k=3"] :: [jobs[0]].map (·.parts)) where
  keys := by decide +kernel
  depth := by decide +kernel
  nodup := by decide +kernel
  hash := hash_ne
  distinct := by decide +kernel

/-- C78: the chunk of the first variable is the old one, that of the second one is the new one. -/
theorem mixed : reading 0 0 17 = .ok [1, 20] := by decide +kernel

/-- A torn chunk: the reading raises. -/
example : (∃ e, openGroup format ["p"] (fun _ q =>
    if q = ["p", ".zmetadata"] then some (.file (some 0))
    else if q = ["p", "y", "0"] then some (.file none) else none) = .error e) := by
  cases h : openGroup format ["p"] (fun _ q =>
    if q = ["p", ".zmetadata"] then some (.file (some 0))
    else if q = ["p", "y", "0"] then some (.file none) else none) with
  | error e => exact ⟨e, rfl⟩
  | ok a =>
    obtain ⟨m, _, h2⟩ := (C78_torn _ _ _).2 a h
    exact absurd (by simp) (h2 1 ["y", "0"] rfl)

end ReadCase

open ReadCase in
/-- C78: a dataset that was never stored is read, without error: the old values of a variable and
the new values of another one. -/
theorem C78_counterexample : ¬ C78_full := by
  intro h
  have h1 := h Nat (List Nat) format machine ["data"] jobs files (List.replicate 30 0) _
    placed runnable rfl (increasing (Nat.le_refl 0) (Nat.zero_le 17))
    ⟨["k=1"], group 10 20, fun _ => .ok (group 10 20)⟩ (by simp [jobs]) 99 (group 10 20)
    files_whole rfl
  have e : openGroup format (["data"] ++ ["k=1"]) _ = _ := mixed
  simp only at h1
  rw [e] at h1
  rcases h1 with h1 | h1 | ⟨z, h1⟩
  · exact absurd h1 (by decide +kernel)
  · exact absurd h1 (by decide +kernel)
  · cases h1

open ReadCase in
/-- C78: the reading of a partition at one single moment of its replacement, and of one that is
being removed, gives fill values that were never stored, without error. -/
theorem C78_fill_counterexample : reading 11 11 11 = .ok [1, 99] ∧
    openGroup format ["data", "k=1"] (follow (removeSteps (nodes.map (["data", "k=1"] ++ ·))) files
      fun _ => 1) = .ok [1, 99] := by decide +kernel

open ReadCase in
/-- C78: the reading of a partition of which two variables are updated mixes old and new values. -/
theorem C78_update_counterexample : openGroup format ["data", "k=1"]
    (follow (updateSteps true ["data", "k=1"] [(["x", "0"], 10), (["y", "0"], 20)]) files
      fun _ => 2) = .ok [10, 2] := by decide +kernel

end Verif
