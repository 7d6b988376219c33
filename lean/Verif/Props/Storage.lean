import Verif.Lemmas.Storage
import Verif.Lemmas.Listing

/-! C24, C25: failing insertions; C26, C27: insertions that are killed. -/

namespace Verif

open Spec Storage

variable {C : Type}

/-! ### C24 -/

/-- A small group: one array with one chunk. -/
def sampleGroup : Group Nat where
  zgroup := 0
  body := [(["v", ".zarray"], 1), (["v", "0"], 2), (["v", ".zattrs"], 3), ([".zattrs"], 4),
    ([".zgroup"], 0)]
  zmetadata := 5

theorem sampleGroup_valid : ValidGroup sampleGroup where
  notRoot := by decide +kernel
  noMeta := by decide +kernel

/-- An empty collection. -/
def emptyCollection : FS Nat := fun q =>
  if q = [] ∨ q = ["data"] then some .dir else none

/-- C24, full statement: whatever the attempts to remove the directory give. -/
def C24_full : Prop :=
  ∀ (C : Type) (atomic : Bool) (d : Path) (g : Group C) (done : Nat) (extra : List (Step C))
    (attempts : List Attempt) (e : PyErr) (fs : FS C), ValidGroup g →
    (∀ q, d <+: q → fs q = none) → (∀ s ∈ extra, Below d s) →
    (∀ a ∈ attempts, ∀ p ∈ a.removed, d <+: p) →
    (failedInsertNew atomic d g done extra attempts e fs).2 = some e ∧
    ∀ q, d <+: q → (failedInsertNew atomic d g done extra attempts e fs).1 q = none

/-- C24: a write of a new partition that raises at any step, in any thread, leaves nothing
below the directory of the partition, and the exception reaches the caller.  Everything
else is unchanged, except that directories above the partition may have been created.
Missing: one of the ten attempts to remove the directory must succeed. -/
theorem C24_failing_creation_partial (atomic : Bool) (d : Path) (g : Group C) (done : Nat)
    (extra : List (Step C)) (attempts : List Attempt) (e : PyErr) (fs : FS C)
    (hg : ValidGroup g) (_hnew : ∀ q, d <+: q → fs q = none) (hextra : ∀ s ∈ extra, Below d s)
    (hatt : ∀ a ∈ attempts, ∀ p ∈ a.removed, d <+: p)
    (hok : Attempt.complete ∈ attempts.take 10) :
    let r := failedInsertNew atomic d g done extra attempts e fs
    r.2 = some e ∧ (∀ q, d <+: q → r.1 q = none) ∧ SameOutside d fs r.1 := by
  refine ⟨rfl, fun q hq => rmLoop_complete d 10 attempts _ hok q hq, ?_⟩
  refine sameOutside_trans (run_outside _ ?_ fs) (rmLoop_outside d 10 attempts _ hatt)
  intro s hs
  rcases List.mem_append.1 hs with hs | hs
  · exact take_below (groupSteps_below atomic d hg) done s hs
  · exact hextra s hs

/-- C24: if the directories above the partition existed, the file system is exactly as it
was before. -/
theorem C24_no_trace_partial (atomic : Bool) (d : Path) (g : Group C) (done : Nat)
    (extra : List (Step C)) (attempts : List Attempt) (e : PyErr) (fs : FS C)
    (hg : ValidGroup g) (hnew : ∀ q, d <+: q → fs q = none) (hextra : ∀ s ∈ extra, Below d s)
    (hatt : ∀ a ∈ attempts, ∀ p ∈ a.removed, d <+: p)
    (hok : Attempt.complete ∈ attempts.take 10)
    (hparents : ∀ q, q <+: d → q ≠ d → fs q ≠ none) :
    (failedInsertNew atomic d g done extra attempts e fs).1 = fs := by
  obtain ⟨_, h1, h2⟩ :=
    C24_failing_creation_partial atomic d g done extra attempts e fs hg hnew hextra hatt hok
  funext q
  by_cases hq : d <+: q
  · rw [h1 q hq, hnew q hq]
  · rcases h2 q hq with h | ⟨h, h', _⟩
    · exact h
    · exact absurd h' (hparents q h fun hc => hq (hc ▸ List.prefix_refl _))

/-- The hypotheses hold: the second attempt to remove the directory of the partition succeeds. -/
example : ValidGroup sampleGroup ∧ (∀ q, ["data", "x=1"] <+: q → emptyCollection q = none) ∧
    (∀ s ∈ [Step.write (C := Nat) ["data", "x=1", "v", "0"] none], Below ["data", "x=1"] s) ∧
    (∀ a ∈ [Attempt.incomplete [["data", "x=1", "v", "0"]], .complete], ∀ p ∈ a.removed,
      ["data", "x=1"] <+: p) ∧
    Attempt.complete ∈ [Attempt.incomplete [["data", "x=1", "v", "0"]], .complete].take 10 ∧
    (∀ q, q <+: ["data", "x=1"] → q ≠ ["data", "x=1"] → emptyCollection q ≠ none) := by
  refine ⟨sampleGroup_valid, ?_, ?_, ?_, by simp, ?_⟩
  · rintro q ⟨t, rfl⟩; simp [emptyCollection]
  · simp [Below]
  · simp [Attempt.removed]
  · intro q hq hne
    rcases q with _ | ⟨a, _ | ⟨b, q⟩⟩
    · simp [emptyCollection]
    · simp only [List.cons_prefix_cons, List.nil_prefix, and_true] at hq
      simp [emptyCollection, hq]
    · simp only [List.cons_prefix_cons, List.prefix_nil] at hq
      exact absurd (by simp [hq]) hne

/-- `_rm` gives up silently: if no attempt succeeds, what was written remains. -/
theorem C24_gives_up (atomic : Bool) (d : Path) (g : Group C) (done : Nat)
    (extra : List (Step C)) (e : PyErr) (fs : FS C) :
    (failedInsertNew atomic d g done extra (List.replicate 10 (.incomplete [])) e fs).1 =
      run fs ((groupSteps atomic d g).take done ++ extra) :=
  rmLoop_incomplete d 10 _

theorem C24_counterexample : ¬ C24_full := by
  intro h
  have := (h Nat true ["data", "x=1"] sampleGroup 2 [] (List.replicate 10 (.incomplete []))
    .osError emptyCollection sampleGroup_valid
    (by rintro q ⟨t, rfl⟩; simp [emptyCollection]) (by simp)
    (by intro a ha; rw [List.eq_of_mem_replicate ha]; simp [Attempt.removed])).2
    ["data", "x=1", ".zgroup"] (by simp)
  rw [C24_gives_up] at this
  revert this
  decide +kernel

/-! ### C25 -/

/-- The steps of a replacement up to the removal of the partition. -/
theorem prepare_below (atomic : Bool) (temp : Path) (g : Group C) (orderTemp : List Path)
    (h : ∀ p ∈ orderTemp, temp <+: p) :
    ∀ s ∈ prepareSteps atomic temp g orderTemp, Below temp s := by
  intro s hs
  rcases List.mem_append.1 hs with hs | hs
  · exact removeSteps_below h s hs
  · exact fileSteps_below atomic temp _ (by simp) _ s hs

theorem body_below (atomic : Bool) (temp : Path) {g : Group C} (hg : ValidGroup g) :
    ∀ s ∈ bodySteps atomic temp g, Below temp s := by
  apply writesSteps_below
  intro w hw
  exact writes_ne hg w (by simp only [Group.writes, List.mem_cons]; exact .inr hw)

/-- C25, full statement: an exception at any step before the replacement starts (that is,
other than by the final `move`). -/
def C25_full : Prop :=
  ∀ (C : Type) (atomic : Bool) (hash : Path → String) (root parts : Path) (g : Group C)
    (orderTemp orderDest : List Path) (extra : List (Step C)) (e : PyErr) (fs : FS C)
    (f : Failure), ValidGroup g → (∀ p, '=' ∉ (hash p).toList) →
    (∀ c ∈ parts, '=' ∈ c.toList) → parts ≠ [] →
    Covers orderTemp (tempDir hash (root ++ parts)) fs →
    (∀ s ∈ extra, Below (tempDir hash (root ++ parts)) s) → f ≠ .move →
    (f = .merge → ∀ q, tempDir hash (root ++ parts) <+: q → fs q = none) →
    let r := failedReplace atomic (tempDir hash (root ++ parts)) g orderTemp orderDest extra e fs f
    r.2 = some e ∧ sub r.1 (root ++ parts) = sub fs (root ++ parts) ∧
    ∀ q, tempDir hash (root ++ parts) <+: q → r.1 q = none

/-- C25: an exception of the merge callback or of the write of the merged data keeps the old
partition; no temporary directory remains, and nothing else changes.  Missing: the
initialisation of the temporary group (`init_group`), which is outside the `try` block. -/
theorem C25_failing_merge_partial (atomic : Bool) (hash : Path → String) (root parts : Path)
    (g : Group C) (orderTemp orderDest : List Path) (extra : List (Step C)) (e : PyErr)
    (fs : FS C) (f : Failure) (hg : ValidGroup g) (hh : ∀ p, '=' ∉ (hash p).toList)
    (hp : ∀ c ∈ parts, '=' ∈ c.toList) (hne : parts ≠ [])
    (hot : Covers orderTemp (tempDir hash (root ++ parts)) fs)
    (hextra : ∀ s ∈ extra, Below (tempDir hash (root ++ parts)) s)
    (hf : f = .merge ∨ ∃ n, f = .body n)
    (hclean : f = .merge → ∀ q, tempDir hash (root ++ parts) <+: q → fs q = none) :
    let r := failedReplace atomic (tempDir hash (root ++ parts)) g orderTemp orderDest extra e fs f
    r.2 = some e ∧ sub r.1 (root ++ parts) = sub fs (root ++ parts) ∧
    (∀ q, tempDir hash (root ++ parts) <+: q → r.1 q = none) ∧
    SameOutside (tempDir hash (root ++ parts)) fs r.1 := by
  obtain ⟨hd1, hd2⟩ := temp_disjoint hash root parts hp hne hh
  rcases hf with rfl | ⟨n, rfl⟩
  · exact ⟨rfl, rfl, hclean rfl, sameOutside_refl _ fs⟩
  · have hs : SameOutside (tempDir hash (root ++ parts)) fs
        (failedReplace atomic (tempDir hash (root ++ parts)) g orderTemp orderDest extra e fs
          (.body n)).1 := by
      refine sameOutside_trans (run_outside _ ?_ fs) (removeTree_outside _ _)
      intro s hs
      rw [List.mem_append, List.mem_append] at hs
      rcases hs with hs | hs | hs
      · exact prepare_below atomic _ g orderTemp hot.below s hs
      · exact body_below atomic _ hg s (List.mem_of_mem_take hs)
      · exact hextra s hs
    exact ⟨rfl, sub_outside hs hd1 hd2, fun q hq => removeTree_below hq _, hs⟩

/-- C25: for a failure at any step before the removal of the partition, also during
`init_group`, the old partition keeps its content. -/
theorem C25_old_content (atomic : Bool) (hash : Path → String) (root parts : Path)
    (g : Group C) (orderTemp orderDest : List Path) (extra : List (Step C)) (e : PyErr)
    (fs : FS C) (f : Failure) (hg : ValidGroup g) (hh : ∀ p, '=' ∉ (hash p).toList)
    (hp : ∀ c ∈ parts, '=' ∈ c.toList) (hne : parts ≠ [])
    (hot : Covers orderTemp (tempDir hash (root ++ parts)) fs)
    (hextra : ∀ s ∈ extra, Below (tempDir hash (root ++ parts)) s) (hf : f ≠ .move) :
    sub (failedReplace atomic (tempDir hash (root ++ parts)) g orderTemp orderDest extra e fs f).1
      (root ++ parts) = sub fs (root ++ parts) := by
  obtain ⟨hd1, hd2⟩ := temp_disjoint hash root parts hp hne hh
  cases f with
  | merge => rfl
  | prepare n =>
    exact sub_outside (run_outside _
      (take_below (prepare_below atomic _ g orderTemp hot.below) n) fs) hd1 hd2
  | body n =>
    refine sub_outside (sameOutside_trans (run_outside _ ?_ fs) (removeTree_outside _ _)) hd1 hd2
    intro s hs
    rw [List.mem_append, List.mem_append] at hs
    rcases hs with hs | hs | hs
    · exact prepare_below atomic _ g orderTemp hot.below s hs
    · exact body_below atomic _ hg s (List.mem_of_mem_take hs)
    · exact hextra s hs
  | move => exact absurd rfl hf

/-- A collection with one partition. -/
def oneCollection : FS Nat := fun q =>
  if q = [] ∨ q = ["data"] ∨ q = ["data", "x=1"] then some .dir
  else if q = ["data", "x=1", ".zgroup"] then some (.file (some 0))
  else if q = ["data", "x=1", ".zmetadata"] then some (.file (some 1))
  else none

/-- A name for the temporary directory. -/
def sampleHash : Path → String := fun _ => "ab12"

theorem sampleHash_ne (p : Path) : '=' ∉ (sampleHash p).toList := by
  have : '=' ∉ "ab12".toList := by decide +kernel
  exact this

theorem oneCollection_temp (q : Path) (h : ["data", "ab12"] <+: q) : oneCollection q = none := by
  obtain ⟨t, rfl⟩ := h
  simp [oneCollection]

/-- The hypotheses hold for a collection with a partition. -/
example : ValidGroup sampleGroup ∧ (∀ p, '=' ∉ (sampleHash p).toList) ∧
    (∀ c ∈ ["data"], '=' ∉ String.toList c) ∧ (∀ c ∈ ["x=1"], '=' ∈ String.toList c) ∧
    tempDir sampleHash (["data"] ++ ["x=1"]) = ["data", "ab12"] ∧
    Covers [] ["data", "ab12"] oneCollection :=
  ⟨sampleGroup_valid, sampleHash_ne, by decide +kernel, by decide +kernel,
    by decide +kernel, ⟨by simp, fun p hp hs => by rw [oneCollection_temp p hp] at hs; simp at hs⟩⟩

/-- A failure of `init_group` leaves the temporary directory in the collection. -/
theorem C25_counterexample : ¬ C25_full := by
  intro h
  have := (h Nat true sampleHash ["data"] ["x=1"] sampleGroup [] [] [] .osError oneCollection
    (.prepare 1) sampleGroup_valid sampleHash_ne (by decide +kernel) (by simp)
    (by
      rw [show tempDir sampleHash (["data"] ++ ["x=1"]) = ["data", "ab12"] by decide +kernel]
      exact ⟨by simp, fun p hp hs => by rw [oneCollection_temp p hp] at hs; simp at hs⟩)
    (by simp) (by simp) (by simp)).2.2 ["data", "ab12"] (by decide +kernel)
  revert this
  decide +kernel

/-- If the final `move` raises, the exception reaches the caller but the old partition is
already removed, and the merged data remain in the temporary directory. -/
theorem C25_move_loses_partition (atomic : Bool) (hash : Path → String) (root parts : Path)
    (g : Group C) (orderTemp orderDest : List Path) (e : PyErr)
    (fs : FS C) (hg : ValidGroup g) (hh : ∀ p, '=' ∉ (hash p).toList)
    (hp : ∀ c ∈ parts, '=' ∈ c.toList) (hne : parts ≠ [])
    (hot : Covers orderTemp (tempDir hash (root ++ parts)) fs)
    (hod : Covers orderDest (root ++ parts) fs) :
    let r := failedReplace atomic (tempDir hash (root ++ parts)) g orderTemp orderDest [] e fs .move
    (∀ q, root ++ parts <+: q → r.1 q = none) ∧
    sub r.1 (tempDir hash (root ++ parts)) = treeOf g.writes := by
  obtain ⟨hd1, hd2⟩ := temp_disjoint hash root parts hp hne hh
  generalize htemp : tempDir hash (root ++ parts) = temp at *
  generalize hdest : root ++ parts = dest at *
  have hwrite : prepareSteps atomic temp g orderTemp ++ bodySteps atomic temp g =
      removeSteps orderTemp ++ groupSteps atomic temp g := by
    rw [prepareSteps, List.append_assoc, groupSteps_first]
  have hbelow : ∀ s ∈ prepareSteps atomic temp g orderTemp ++ bodySteps atomic temp g,
      Below temp s := by
    intro s hs
    rcases List.mem_append.1 hs with hs | hs
    · exact prepare_below atomic _ g orderTemp hot.below s hs
    · exact body_below atomic _ hg s hs
  have hsd := sub_outside (run_outside _ hbelow fs) hd1 hd2
  have hcov : Covers orderDest dest
      (run fs (prepareSteps atomic temp g orderTemp ++ bodySteps atomic temp g)) := by
    refine ⟨hod.below, ?_⟩
    rintro p ⟨t, rfl⟩ hs
    have := congrFun hsd t
    simp only [sub] at this
    rw [this] at hs
    exact hod.all _ (List.prefix_append _ _) hs
  simp only [failedReplace]
  rw [run_append, removed_of_covers hcov]
  refine ⟨fun q hq => removeTree_below hq _, ?_⟩
  rw [sub_outside (removeTree_outside dest _) hd2 hd1, hwrite, run_append,
    removed_of_covers hot]
  exact run_group atomic temp hg _ fun rel => removeTree_below (List.prefix_append _ _) fs

/-! ### C26 -/

/-- What is below the directory is the complete result of writing a group. -/
def Holds (fs : FS C) (d : Path) (g : Group C) : Prop := sub fs d = treeOf g.writes

/-- C26, full statement: at each crash point the partition holds the old or the new content,
and there is nothing new in the root of the collection. -/
def C26_full : Prop :=
  ∀ (C : Type) (atomic : Bool) (hash : Path → String) (root parts : Path) (g : Group C)
    (orderTemp orderDest : List Path) (fs : FS C), ValidGroup g → (∀ p, '=' ∉ (hash p).toList) →
    (∀ c ∈ parts, '=' ∈ c.toList) → parts ≠ [] →
    Covers orderTemp (tempDir hash (root ++ parts)) fs → Covers orderDest (root ++ parts) fs →
    ∀ k, let s := run fs ((replaceSteps atomic (tempDir hash (root ++ parts)) (root ++ parts) g
          orderTemp orderDest).take k)
      (sub s (root ++ parts) = sub fs (root ++ parts) ∨ Holds s (root ++ parts) g) ∧
      ∀ n, (fs (root ++ [n])).isNone → (s (root ++ [n])).isNone

/-- C26: at each crash point, for each order of removal, no data are lost: the partition holds
its old content, or the temporary directory holds the complete new content, or the
partition holds the complete new content.  Missing: between the start of the removal and the
renaming the partition itself is damaged or absent. -/
theorem C26_recoverable_partial (atomic : Bool) (hash : Path → String) (root parts : Path)
    (g : Group C) (orderTemp orderDest : List Path) (fs : FS C) (hg : ValidGroup g)
    (hh : ∀ p, '=' ∉ (hash p).toList)
    (hp : ∀ c ∈ parts, '=' ∈ c.toList) (hne : parts ≠ [])
    (hot : Covers orderTemp (tempDir hash (root ++ parts)) fs)
    (hod : Covers orderDest (root ++ parts) fs) (k : Nat) :
    let s := run fs ((replaceSteps atomic (tempDir hash (root ++ parts)) (root ++ parts) g
          orderTemp orderDest).take k)
    sub s (root ++ parts) = sub fs (root ++ parts) ∨ Holds s (tempDir hash (root ++ parts)) g ∨
      Holds s (root ++ parts) g := by
  obtain ⟨hd1, hd2⟩ := temp_disjoint hash root parts hp hne hh
  generalize htemp : tempDir hash (root ++ parts) = temp at *
  generalize hdest : root ++ parts = dest at *
  have hbelow : ∀ s ∈ removeSteps orderTemp ++ groupSteps atomic temp g, Below temp s := by
    intro s hs
    rcases List.mem_append.1 hs with hs | hs
    · exact removeSteps_below hot.below s hs
    · exact groupSteps_below atomic _ hg s hs
  have hnew : sub (run fs (removeSteps orderTemp ++ groupSteps atomic temp g)) temp =
      treeOf g.writes := by
    rw [run_append, removed_of_covers hot]
    exact run_group atomic temp hg _ fun rel => removeTree_below (List.prefix_append _ _) fs
  unfold replaceSteps
  generalize hfst : removeSteps orderTemp ++ groupSteps atomic temp g = first at *
  by_cases h1 : k ≤ first.length
  · left
    rw [List.append_assoc, List.take_append_of_le_length h1]
    exact sub_outside (run_outside _ (take_below hbelow k) fs) hd1 hd2
  · right
    rw [List.append_assoc, List.take_append, List.take_of_length_le (by omega), run_append]
    generalize k - first.length = j
    by_cases h2 : j ≤ (removeSteps (C := C) orderDest).length
    · left
      rw [List.take_append_of_le_length h2]
      rw [Holds, sub_outside (run_outside _ (take_below (removeSteps_below hod.below) j) _)
        hd2 hd1, hnew]
    · right
      rw [List.take_of_length_le (by simp; omega), run_append]
      have hcov : Covers orderDest dest (run fs first) := by
        refine ⟨hod.below, ?_⟩
        rintro p ⟨t, rfl⟩ hs
        have := congrFun (sub_outside (run_outside _ hbelow fs) hd1 hd2) t
        simp only [sub] at this
        rw [this] at hs
        exact hod.all _ (List.prefix_append _ _) hs
      rw [removed_of_covers hcov]
      have h0 : removeTree dest (run fs first) dest = none :=
        removeTree_below (List.prefix_refl _) _
      rw [Holds, run_cons, move_free h0]
      exact (sub_rename _ _ _).trans
        ((sub_outside (removeTree_outside dest _) hd2 hd1).trans hnew)

/-- The nodes of the sample partition, in a possible order of removal. -/
def sampleOrder : List Path :=
  [["data", "x=1", ".zmetadata"], ["data", "x=1", ".zgroup"], ["data", "x=1"]]

theorem sampleOrder_covers : Covers sampleOrder (["data"] ++ ["x=1"]) oneCollection where
  below := by simp [sampleOrder]
  all := by
    intro p hp hs
    unfold oneCollection at hs
    split at hs
    · next h =>
      rcases h with rfl | rfl | rfl
      · simp at hp
      · simp at hp
      · simp [sampleOrder]
    · split at hs
      · next h => simp [sampleOrder, h]
      · split at hs
        · next h => simp [sampleOrder, h]
        · simp at hs

theorem sampleTemp_covers :
    Covers [] (tempDir sampleHash (["data"] ++ ["x=1"])) oneCollection := by
  rw [show tempDir sampleHash (["data"] ++ ["x=1"]) = ["data", "ab12"] by decide +kernel]
  exact ⟨by simp, fun p hp hs => by rw [oneCollection_temp p hp] at hs; simp at hs⟩

/-- The hypotheses of `C26_recoverable_partial` hold for the sample collection. -/
example (k : Nat) := C26_recoverable_partial true sampleHash ["data"] ["x=1"] sampleGroup []
  sampleOrder oneCollection sampleGroup_valid sampleHash_ne
  (by decide +kernel) (by simp) sampleTemp_covers sampleOrder_covers k

/-- Killed after the removal of the partition: neither the old nor the new content. -/
theorem C26_counterexample : ¬ C26_full := by
  intro h
  have h1 := (h Nat true sampleHash ["data"] ["x=1"] sampleGroup [] sampleOrder oneCollection
    sampleGroup_valid sampleHash_ne (by decide +kernel) (by simp)
    sampleTemp_covers sampleOrder_covers 17).1
  have h2 : run oneCollection ((replaceSteps true (tempDir sampleHash (["data"] ++ ["x=1"]))
      (["data"] ++ ["x=1"]) sampleGroup [] sampleOrder).take 17) ["data", "x=1"] = none := by
    decide +kernel
  have h3 : oneCollection ["data", "x=1"] = some .dir := by decide +kernel
  have h4 : treeOf sampleGroup.writes [] = some .dir := by decide +kernel
  rcases h1 with h1 | h1
  · exact absurd (h2.symm.trans ((congrFun h1 []).trans h3)) (by simp)
  · exact absurd (h2.symm.trans ((congrFun h1 []).trans h4)) (by simp)

/-- Killed just before the renaming: nothing is left of the partition, and the next insertion
of the same data succeeds but stores the inserted records only; the old ones are lost. -/
theorem C26_retry_loses_data (atomic : Bool) (hash : Path → String) (root parts : Path)
    (inserted : Group C) (merged : (Path → Option (Node C)) → Group C)
    (orderTemp orderDest : List Path) (fs : FS C) (hg : ValidGroup inserted)
    (hm : ∀ t, ValidGroup (merged t))
    (hh : ∀ p, '=' ∉ (hash p).toList)
    (hp : ∀ c ∈ parts, '=' ∈ c.toList) (hne : parts ≠ [])
    (hot : Covers orderTemp (tempDir hash (root ++ parts)) fs)
    (hod : Covers orderDest (root ++ parts) fs) :
    let steps := replaceSteps atomic (tempDir hash (root ++ parts)) (root ++ parts)
      (merged (sub fs (root ++ parts))) orderTemp orderDest
    let s := run fs (steps.take (steps.length - 1))
    let r := insertPartition atomic hash (root ++ parts) inserted merged s
    r.2 = none ∧ Holds r.1 (root ++ parts) inserted := by
  have h := C25_move_loses_partition atomic hash root parts (merged (sub fs (root ++ parts)))
    orderTemp orderDest .osError fs (hm _) hh hp hne hot hod
  simp only
  have hsteps : (replaceSteps atomic (tempDir hash (root ++ parts)) (root ++ parts)
      (merged (sub fs (root ++ parts))) orderTemp orderDest).take ((replaceSteps atomic
        (tempDir hash (root ++ parts)) (root ++ parts) (merged (sub fs (root ++ parts)))
        orderTemp orderDest).length - 1) =
      prepareSteps atomic (tempDir hash (root ++ parts)) (merged (sub fs (root ++ parts))) orderTemp
      ++ bodySteps atomic (tempDir hash (root ++ parts)) (merged (sub fs (root ++ parts))) ++
      removeSteps orderDest := by
    unfold replaceSteps
    rw [← List.dropLast_eq_take, List.dropLast_concat, prepareSteps, groupSteps_first]
    simp only [List.append_assoc]
  rw [hsteps]
  obtain ⟨h1, _⟩ := h
  simp only [failedReplace] at h1
  generalize run fs (prepareSteps atomic (tempDir hash (root ++ parts))
    (merged (sub fs (root ++ parts))) orderTemp
      ++ bodySteps atomic (tempDir hash (root ++ parts)) (merged (sub fs (root ++ parts))) ++
      removeSteps orderDest) = s at *
  have h2 : ∀ rel, s (root ++ parts ++ rel) = none := fun rel => h1 _ (List.prefix_append _ _)
  have h3 : insertPartition atomic hash (root ++ parts) inserted merged s =
      (run s (groupSteps atomic (root ++ parts) inserted), none) := by
    simp only [insertPartition, partitionExists, insertNew, h2]
    simp
  rw [h3]
  exact ⟨rfl, run_group atomic _ hg s h2⟩

/-- An insertion into an existing partition, when nothing fails: the partition holds the
merged data, the temporary directory is gone, and nothing else changes. -/
theorem C26_replacement (atomic : Bool) (hash : Path → String) (root parts : Path)
    (inserted : Group C) (merged : (Path → Option (Node C)) → Group C)
    (fs : FS C) (hm : ValidGroup (merged (sub fs (root ++ parts))))
    (hh : ∀ p, '=' ∉ (hash p).toList)
    (hp : ∀ c ∈ parts, '=' ∈ c.toList) (hne : parts ≠ [])
    (hex : partitionExists (root ++ parts) fs = true) :
    let r := insertPartition atomic hash (root ++ parts) inserted merged fs
    r.2 = none ∧ Holds r.1 (root ++ parts) (merged (sub fs (root ++ parts))) ∧
    (∀ q, tempDir hash (root ++ parts) <+: q → r.1 q = none) ∧
    ∀ q, ¬ (root ++ parts) <+: q → ¬ tempDir hash (root ++ parts) <+: q →
      r.1 q = fs q ∨ (q <+: tempDir hash (root ++ parts) ∧ fs q = none ∧ r.1 q = some .dir) := by
  obtain ⟨hd1, hd2⟩ := temp_disjoint hash root parts hp hne hh
  generalize hg : merged (sub fs (root ++ parts)) = g at *
  simp only [insertPartition, hex, if_true, hg]
  generalize tempDir hash (root ++ parts) = temp at *
  generalize root ++ parts = dest at *
  generalize hfs1 : run (removeTree temp fs) (groupSteps atomic temp g) = fs1
  have hnew : sub fs1 temp = treeOf g.writes := by
    rw [← hfs1]
    exact run_group atomic temp hm _ fun rel => removeTree_below (List.prefix_append _ _) fs
  have hout : SameOutside temp fs fs1 := by
    rw [← hfs1]
    exact sameOutside_trans (removeTree_outside temp fs)
      (run_outside _ (groupSteps_below atomic temp hm) _)
  rw [move_free (removeTree_below (List.prefix_refl _) _)]
  refine ⟨trivial, ?_, ?_, ?_⟩
  · exact (sub_rename _ _ _).trans
      ((sub_outside (removeTree_outside dest _) hd2 hd1).trans hnew)
  · intro q hq
    have h1 : ¬ dest <+: q := fun hc => by
      rcases prefix_cases hc hq with h | h
      · exact hd2 h
      · exact hd1 h
    simp [rename, h1, hq]
  · intro q h1 h2
    simp only [rename, h1, h2, if_false, removeTree]
    rcases hout q h2 with h | ⟨h, h', h''⟩
    · exact .inl h
    · exact .inr ⟨h, h', h''⟩

/-- Killed before the removal of the partition starts: the next insertion of the same data
gives the same result as an insertion that was not killed. -/
theorem C26_retry_before_removal (atomic : Bool) (hash : Path → String) (root parts : Path)
    (inserted : Group C) (merged : (Path → Option (Node C)) → Group C)
    (orderTemp orderDest : List Path) (fs : FS C)
    (hm : ValidGroup (merged (sub fs (root ++ parts))))
    (hh : ∀ p, '=' ∉ (hash p).toList)
    (hp : ∀ c ∈ parts, '=' ∈ c.toList) (hne : parts ≠ [])
    (hex : partitionExists (root ++ parts) fs = true)
    (hot : Covers orderTemp (tempDir hash (root ++ parts)) fs) (k : Nat)
    (hk : k ≤ orderTemp.length + (groupSteps atomic (tempDir hash (root ++ parts))
      (merged (sub fs (root ++ parts)))).length) :
    let s := run fs ((replaceSteps atomic (tempDir hash (root ++ parts)) (root ++ parts)
      (merged (sub fs (root ++ parts))) orderTemp orderDest).take k)
    let r := insertPartition atomic hash (root ++ parts) inserted merged s
    r.2 = none ∧ Holds r.1 (root ++ parts) (merged (sub fs (root ++ parts))) ∧
    ∀ q, tempDir hash (root ++ parts) <+: q → r.1 q = none := by
  obtain ⟨hd1, hd2⟩ := temp_disjoint hash root parts hp hne hh
  have hbelow : ∀ s ∈ removeSteps orderTemp ++ groupSteps atomic (tempDir hash (root ++ parts))
      (merged (sub fs (root ++ parts))), Below (tempDir hash (root ++ parts)) s := by
    intro s hs
    rcases List.mem_append.1 hs with hs | hs
    · exact removeSteps_below hot.below s hs
    · exact groupSteps_below atomic _ hm s hs
  simp only
  unfold replaceSteps
  rw [List.append_assoc, List.take_append_of_le_length (by simpa [removeSteps] using hk)]
  have hsub := sub_outside (run_outside _ (take_below hbelow k) fs) hd1 hd2
  generalize run fs ((removeSteps orderTemp ++ groupSteps atomic (tempDir hash (root ++ parts))
      (merged (sub fs (root ++ parts)))).take k) = s at hsub ⊢
  have hex' : partitionExists (root ++ parts) s = true := by
    have := congrFun hsub [".zmetadata"]
    simp only [sub] at this
    rw [partitionExists, this]; exact hex
  have := C26_replacement atomic hash root parts inserted merged s (by rw [hsub]; exact hm) hh
    hp hne hex'
  rw [hsub] at this
  exact ⟨this.1, this.2.1, this.2.2.1⟩

/-- The hypotheses of the theorems on retries hold for the sample collection. -/
example := C26_retry_before_removal true sampleHash ["data"] ["x=1"] sampleGroup
  (fun _ => sampleGroup) [] sampleOrder oneCollection sampleGroup_valid sampleHash_ne
  (by decide +kernel) (by simp) (by decide +kernel) sampleTemp_covers 5
  (by decide +kernel)

example := C26_retry_loses_data true sampleHash ["data"] ["x=1"] sampleGroup
  (fun _ => { sampleGroup with zmetadata := 6 }) [] sampleOrder oneCollection sampleGroup_valid
  (fun _ => ⟨sampleGroup_valid.1, sampleGroup_valid.2⟩) sampleHash_ne
  (by decide +kernel) (by simp) sampleTemp_covers sampleOrder_covers

/-- Errors of the removal are ignored: if the directory of the partition is still there, the
new data are moved into a subdirectory of it, and the partition does not contain them. -/
theorem C26_ignored_errors (temp dest : Path) (fs : FS C) (n : String)
    (hn : temp.getLast? = some n) (hdir : fs dest = some .dir) :
    sub (apply fs (.move temp dest)) (dest ++ [n]) = sub fs temp ∧
    ∀ rel, ¬ [n] <+: rel → ¬ temp <+: dest ++ rel →
      sub (apply fs (.move temp dest)) dest rel = sub fs dest rel := by
  rw [move_onto hdir hn]
  refine ⟨sub_rename _ _ _, ?_⟩
  intro rel h1 h2
  simp only [sub, rename]
  rw [if_neg (by rwa [List.prefix_append_right_inj]), if_neg h2]

/-- If a component of the path of the collection contains `=`, the temporary directory is
not in the collection. -/
theorem C26_temp_outside (hash : Path → String) (root parts : Path)
    (hh : ∀ p, '=' ∉ (hash p).toList) (c : String) (hc : c ∈ root) (he : '=' ∈ c.toList) :
    ¬ root <+: tempDir hash (root ++ parts) := by
  intro h
  have hc' := h.subset hc
  rw [tempDir, List.mem_append, List.mem_singleton, extractRoot, List.mem_filter] at hc'
  rcases hc' with ⟨_, h1⟩ | rfl
  · simp [he] at h1
  · exact hh _ he

example : tempDir sampleHash ["data", "run=3", "col", "x=1"] = ["data", "col", "ab12"] := by
  decide +kernel

/-- A string without `=` is not a partition. -/
theorem search_no_eq (k : String) (ks : List String) (s : List Char) (h : '=' ∉ s) :
    Path.search (k :: ks) s = none := by
  have hm : ∀ s : List Char, '=' ∉ s → Path.matchAt (k :: ks) s = none := by
    intro s hs
    unfold Path.matchAt
    cases h : Path.strip (k.toList ++ ['=']) s with
    | none => rfl
    | some r =>
      rw [Path.strip_iff] at h
      exact absurd (by simp [h]) hs
  induction s with
  | nil => exact hm [] h
  | cons c s ih =>
    rw [Path.search, hm _ h]
    exact ih fun hc => h (by simp [hc])

theorem keyed_error (keys : List String) (l : List (List Char)) (p : List Char) (hp : p ∈ l)
    (h : Path.parse keys p = .error .valueError) :
    Listing.keyed keys l = .error .valueError := by
  have hconv : ∀ g e, Path.convert g = .error e → e = .valueError := by
    intro g
    induction g with
    | nil => intro e he; simp [Path.convert] at he
    | cons a t ih =>
      intro e he
      obtain ⟨k, s⟩ := a
      simp only [Path.convert, bind, Except.bind] at he
      split at he
      · next h1 =>
        injection he with he
        subst he
        simp only [Path.pyInt] at h1
        split at h1
        · cases h1
        · injection h1 with h1; exact h1.symm
      · split at he
        · next h2 => injection he with he; subst he; exact ih _ h2
        · cases he
  have hval : ∀ p e, Path.parse keys p = .error e → e = .valueError := by
    intro p e he
    unfold Path.parse at he
    split at he
    · injection he with he; exact he.symm
    · exact hconv _ _ he
  have hrec : ∀ l e, Listing.keyed keys l = .error e → e = .valueError := by
    intro l
    induction l with
    | nil => intro e he; simp [Listing.keyed] at he
    | cons a t ih =>
      intro e he
      simp only [Listing.keyed, bind, Except.bind] at he
      split at he
      · next h1 => injection he with he; subst he; exact hval _ _ h1
      · split at he
        · next h2 => injection he with he; subst he; exact ih _ h2
        · cases he
  induction l with
  | nil => simp at hp
  | cons a t ih =>
    simp only [Listing.keyed, bind, Except.bind]
    rcases List.mem_cons.1 hp with rfl | hp
    · simp [h]
    · cases ha : Path.parse keys a with
      | error e => simp [hval _ _ ha]
      | ok v => simp [ih hp]

/-- C26: as long as a temporary directory exists (after a crash, or during an insertion by
another process), no listing of the collection is possible: it raises `ValueError`. -/
theorem C26_listing_fails (k : String) (ks : List String) (base name : List Char)
    (entries es : List (List Char × Listing.Node)) (hbase : '=' ∉ base) (hname : '=' ∉ name)
    (hdot : name.head? ≠ some '.') (htemp : (name, Listing.Node.dir es) ∈ entries)
    (hgroup : (".zgroup".toList, Listing.Node.file) ∈ es) :
    Listing.sortedPartitions (k :: ks) (k :: ks).length base (.dir entries) =
      .error .valueError := by
  have hfold : (Listing.child base name, Listing.Node.dir es) ∈
      Listing.folders base (.dir entries) := by
    simp only [Listing.folders, List.mem_map, List.mem_filter]
    exact ⟨_, ⟨htemp, by simp [Listing.Node.isDir, hdot]⟩, rfl⟩
  have hz : '=' ∉ ".zgroup".toList := by decide +kernel
  have hfile : ∀ d p, p ∈ Listing.deep d p .file := by
    intro d
    induction d with
    | zero => intro p; simp [Listing.deep, Listing.ls]
    | succ d ih => intro p; simp [Listing.deep, Listing.ls]; exact ih p
  have hdeep : ∀ d, Listing.child (Listing.child base name) ".zgroup".toList ∈
      Listing.deep d (Listing.child base name) (.dir es) := by
    intro d
    cases d with
    | zero =>
      simp only [Listing.deep, Listing.ls, List.map_map, List.mem_map]
      exact ⟨_, hgroup, rfl⟩
    | succ d =>
      simp only [Listing.deep, Listing.ls, List.mem_flatMap, List.mem_map]
      exact ⟨_, ⟨_, hgroup, rfl⟩, hfile d _⟩
  have hex : ∃ p ∈ Listing.listPartitions (k :: ks).length base (.dir entries), '=' ∉ p := by
    cases ks with
    | nil =>
      refine ⟨Listing.child base name, ?_, ?_⟩
      · simp only [List.length_cons, List.length_nil, Listing.listPartitions, List.mem_map]
        exact ⟨_, hfold, rfl⟩
      · simp [Listing.child, hbase, hname]
    | cons k' t =>
      refine ⟨Listing.child (Listing.child base name) ".zgroup".toList, ?_, ?_⟩
      · simp only [List.length_cons, Listing.listPartitions, List.mem_flatMap]
        exact ⟨_, hfold, hdeep _⟩
      · simp only [Listing.child, List.mem_append, List.mem_cons, hbase, hname, hz]
        simp
  obtain ⟨p, hp, hne⟩ := hex
  have hparse : Path.parse (k :: ks) p = .error .valueError := by
    simp [Path.parse, search_no_eq k ks p hne]
  rw [Listing.sortedPartitions, keyed_error _ _ p hp hparse]
  rfl

example : Listing.sortedPartitions ["x"] 1 "/data".toList (.dir [("x=1".toList, .dir []),
    ("ab12".toList, .dir [(".zgroup".toList, .file)])]) = .error .valueError :=
  C26_listing_fails "x" [] "/data".toList "ab12".toList _ [(".zgroup".toList, .file)]
    (by decide +kernel) (by decide +kernel) (by decide +kernel) (by simp) (by simp)

/-! ### C27 -/

/-- C27, full statement: after a creation killed at any step but the last one, the partition is
not taken for an existing one and the next insertion writes it in full. -/
def C27_full : Prop :=
  ∀ (C : Type) (atomic : Bool) (hash : Path → String) (d : Path) (g : Group C)
    (merged : (Path → Option (Node C)) → Group C) (fs : FS C), ValidGroup g →
    (∀ q, d <+: q → fs q = none) → ∀ k, k < (groupSteps atomic d g).length →
    let s := run fs ((groupSteps atomic d g).take k)
    partitionExists d s = false ∧
    (insertPartition atomic hash d g merged s).2 = none ∧
    Holds (insertPartition atomic hash d g merged s).1 d g

/-- C27: a creation killed at any step is not taken for an existing partition, unless all of
it was written.  Missing: files are supposed to be written atomically. -/
theorem C27_commit_point_partial (d : Path) (g : Group C) (fs : FS C) (hg : ValidGroup g)
    (hnew : ∀ q, d <+: q → fs q = none) (k : Nat) :
    let s := run fs ((groupSteps true d g).take k)
    partitionExists d s = false ∨ Holds s d g := by
  by_cases hk : k < (groupSteps true d g).length
  · left
    rw [partitionExists, no_metadata d hg fs (hnew _ (List.prefix_append _ _)) k hk]
    rfl
  · right
    rw [List.take_of_length_le (by omega)]
    exact run_group true d hg fs fun rel => hnew _ (List.prefix_append _ _)

/-- C27: after a creation killed at any step, an insertion writes the partition in full, at
the latest the second one: if the file `.zgroup` was written, the first one raises and
removes what is left. -/
theorem C27_retry_partial (hash : Path → String) (d : Path) (g g' : Group C)
    (merged merged' : (Path → Option (Node C)) → Group C) (fs : FS C) (hg : ValidGroup g)
    (hg' : ValidGroup g') (hnew : ∀ q, d <+: q → fs q = none) (k : Nat)
    (hk : k < (groupSteps true d g).length) :
    let s := run fs ((groupSteps true d g).take k)
    let r := insertPartition true hash d g' merged s
    let r2 := insertPartition true hash d g' merged' r.1
    (k ≤ 1 → r.2 = none ∧ Holds r.1 d g') ∧
    (1 < k → r.2 = some .valueError ∧ (∀ q, d <+: q → r.1 q = none) ∧
      r2.2 = none ∧ Holds r2.1 d g') := by
  have hd : (d ++ [".zgroup"]).dropLast = d := by simp
  have hex : partitionExists d (run fs ((groupSteps true d g).take k)) = false := by
    rw [partitionExists, no_metadata d hg fs (hnew _ (List.prefix_append _ _)) k hk]
    rfl
  have hfirst : groupSteps true d g = [.mkdirs d, .write (d ++ [".zgroup"]) (some g.zgroup)] ++
      bodySteps true d g := by
    rw [groupSteps_first]; simp [fileSteps, hd]
  have hfirst' : groupSteps true d g' = .mkdirs d ::
      ([.write (d ++ [".zgroup"]) (some g'.zgroup)] ++ bodySteps true d g') := by
    rw [groupSteps_first]; simp [fileSteps, hd]
  have hclean : ∀ s : FS C, (∀ q, d <+: q → s q = none) →
      ∀ m, insertPartition true hash d g' m s = (run s (groupSteps true d g'), none) := by
    intro s hs m
    have h1 : s (d ++ [".zmetadata"]) = none := hs _ (List.prefix_append _ _)
    have h2 : s (d ++ [".zarray"]) = none := hs _ (List.prefix_append _ _)
    have h3 : s (d ++ [".zgroup"]) = none := hs _ (List.prefix_append _ _)
    simp [insertPartition, partitionExists, insertNew, h1, h2, h3]
  refine ⟨fun hk1 => ?_, fun hk1 => ?_⟩
  · have h01 : k = 0 ∨ k = 1 := by omega
    have hrun : ∀ s : FS C, s = fs ∨ s = apply fs (.mkdirs d) →
        run s (groupSteps true d g') = run fs (groupSteps true d g') := by
      rintro s (rfl | rfl)
      · rfl
      · rw [hfirst', run_cons, mkdirs_idem, run_cons]
    have hs : run fs ((groupSteps true d g).take k) = fs ∨
        run fs ((groupSteps true d g).take k) = apply fs (.mkdirs d) := by
      rcases h01 with rfl | rfl
      · left; rfl
      · right; rw [hfirst]; rfl
    have hins : insertPartition true hash d g' merged (run fs ((groupSteps true d g).take k)) =
        (run (run fs ((groupSteps true d g).take k)) (groupSteps true d g'), none) := by
      have hno : ∀ n : String,
          (run fs ((groupSteps true d g).take k)) (d ++ [n]) = none := by
        intro n
        have h0 : fs (d ++ [n]) = none := hnew _ (List.prefix_append _ _)
        rcases hs with h | h
        · rw [h, h0]
        · rw [h]
          simp only [apply, h0]
          rw [if_neg]
          rintro ⟨hc, _⟩
          have := hc.length_le
          simp only [List.length_append, List.length_singleton] at this
          omega
      simp [insertPartition, hex, insertNew, hno]
    rw [hins]
    refine ⟨rfl, ?_⟩
    simp only [Holds]
    rw [hrun _ hs]
    exact run_group true d hg' fs fun rel => hnew _ (List.prefix_append _ _)
  · have hsome : (run fs ((groupSteps true d g).take k) (d ++ [".zgroup"])).isSome := by
      rw [hfirst, List.take_append, List.take_of_length_le (by simp; omega), run_append]
      apply zgroup_stays
      · intro s hs
        have hs := List.mem_of_mem_take hs
        obtain ⟨w, _, hs⟩ := List.mem_flatMap.1 hs
        simp [fileSteps] at hs
        rcases hs with rfl | rfl
        · exact .inl ⟨_, rfl⟩
        · exact .inr ⟨_, _, rfl⟩
      · simp [run, apply]
    have hins : insertPartition true hash d g' merged (run fs ((groupSteps true d g).take k)) =
        (removeTree d (run fs ((groupSteps true d g).take k)), some .valueError) := by
      simp [insertPartition, hex, insertNew, hsome]
    rw [hins]
    have hnone : ∀ q, d <+: q → removeTree d (run fs ((groupSteps true d g).take k)) q = none :=
      fun q hq => removeTree_below hq _
    refine ⟨rfl, hnone, ?_⟩
    simp only
    rw [hclean _ hnone]
    exact ⟨rfl, run_group true d hg' _ fun rel => hnone _ (List.prefix_append _ _)⟩

example : ∀ q, ["data", "x=1"] <+: q → emptyCollection q = none := by
  rintro q ⟨t, rfl⟩; simp [emptyCollection]

/-- After a creation killed once `.zgroup` was written, the next insertion raises. -/
theorem C27_counterexample : ¬ C27_full := by
  intro h
  have h1 := (h Nat true sampleHash ["data", "x=1"] sampleGroup (fun _ => sampleGroup)
    emptyCollection sampleGroup_valid (by rintro q ⟨t, rfl⟩; simp [emptyCollection]) 3
    (by decide +kernel)).2.1
  have h2 := ((C27_retry_partial sampleHash ["data", "x=1"] sampleGroup sampleGroup
    (fun _ => sampleGroup) (fun _ => sampleGroup) emptyCollection sampleGroup_valid
    sampleGroup_valid (by rintro q ⟨t, rfl⟩; simp [emptyCollection]) 3 (by decide +kernel)).2
    (by decide)).1
  rw [h1] at h2
  cases h2

/-- If files are not written atomically, a creation killed while the consolidated metadata
are written is taken for an existing partition. -/
theorem C27_torn_counterexample (d : Path) (g : Group C) (fs : FS C) :
    let s := run fs ((groupSteps false d g).take ((groupSteps false d g).length - 1))
    partitionExists d s = true ∧ s (d ++ [".zmetadata"]) = some (.file none) := by
  have hd : (d ++ [".zmetadata"]).dropLast = d := by simp
  have hsplit : groupSteps false d g =
      ((([".zgroup"], g.zgroup) :: g.body).flatMap
        (fun w => fileSteps false (d ++ w.1) w.2) ++ [.mkdirs d] ++
        [.write (d ++ [".zmetadata"]) none]) ++
      [.write (d ++ [".zmetadata"]) (some g.zmetadata)] := by
    rw [groupSteps_split]; simp [fileSteps, hd]
  simp only
  rw [← List.dropLast_eq_take, hsplit, List.dropLast_concat, run_append]
  simp [partitionExists, run, apply]

/-- If the write of a variable fails, `del_zarr_array` writes the consolidated metadata before
`_rm` is called: killed at this moment, the incomplete partition is taken for an existing
one. -/
theorem C27_failed_write_counterexample (d : Path) (g : Group C) (done : Nat) (m : C) (fs : FS C) :
    partitionExists d (run fs ((groupSteps true d g).take done ++
      fileSteps true (d ++ [".zmetadata"]) m)) = true := by
  rw [run_append]
  simp [partitionExists, run, apply, fileSteps]

end Verif
