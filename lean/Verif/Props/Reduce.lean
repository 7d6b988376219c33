import Verif.Model.Reduce
import Verif.Props.Split
import Verif.Props.ViewMap

/-! C74: splitting dask arrays by several variables. -/

namespace Verif

open Spec Red

/-! ### The mask -/

/-- The elements that differ from the one before. -/
def Red.diffs {κ : Type} [DecidableEq κ] (prev : κ) : List κ → List Bool
  | [] => []
  | x :: t => decide (x ≠ prev) :: Red.diffs x t

theorem keepNew_masked {κ : Type} [DecidableEq κ] (prev : κ) (l : List κ) (k : Nat) :
    (Split.keepNew prev (l.zipIdx k)).map (·.1) = masked l (diffs prev l) ∧
    (Split.keepNew prev (l.zipIdx k)).map (·.2) =
      masked (List.range' k l.length) (diffs prev l) := by
  induction l generalizing prev k with
  | nil => exact ⟨rfl, rfl⟩
  | cons x t ih =>
    obtain ⟨h1, h2⟩ := ih x (k + 1)
    simp only [List.zipIdx_cons, Split.keepNew, diffs, masked, List.length_cons, List.range'_succ,
      List.zip_cons_cons, List.filterMap_cons]
    by_cases hx : x = prev
    · subst hx
      simp only [if_true, ne_eq, not_true_eq_false, decide_false, Bool.false_eq_true, if_false]
      exact ⟨h1, h2⟩
    · simp only [hx, ne_eq, not_false_eq_true, decide_true, if_true, if_false]
      exact ⟨congrArg _ h1, congrArg _ h2⟩

theorem changes_masked {κ : Type} [DecidableEq κ] (x : κ) (l : List κ) :
    ((Split.changes (x :: l).zipIdx).map (·.1), (Split.changes (x :: l).zipIdx).map (·.2)) =
      (masked (x :: l) (true :: diffs x l),
        masked (List.range (x :: l).length) (true :: diffs x l)) := by
  obtain ⟨h1, h2⟩ := keepNew_masked x l 1
  rw [List.range_eq_range']
  simp only [List.zipIdx_cons, Split.changes, List.map_cons, masked, List.zip_cons_cons,
    List.filterMap_cons, if_true, List.length_cons, List.range'_succ]
  exact Prod.ext (congrArg (x :: ·) h1) (congrArg (0 :: ·) h2)

theorem diffs_range {κ : Type} [DecidableEq κ] (x : κ) (l : List κ) :
    diffs x l = (List.range l.length).map
      fun i => decide ((x :: l)[i + 1]? ≠ (x :: l)[i]?) := by
  induction l generalizing x with
  | nil => rfl
  | cons y t ih =>
    rw [diffs, ih y, List.length_cons, List.range_succ_eq_map, List.map_cons, List.map_map]
    congr 1
    · simp

/-! ### The reduction -/

theorem changed_range (m : Nat) (c : List Int) (hc : c.length = m + 1) :
    changed c = .matrix ((List.range m).map fun i => [decide (c[i + 1]? ≠ c[i]?)]) := by
  rw [changed]
  congr 1
  apply List.ext_getElem (by simp; omega)
  intro i h1 h2
  simp only [List.length_map, List.length_range] at h2
  simp only [List.getElem_map, List.getElem_zip, List.getElem_drop, List.getElem_range]
  rw [List.getElem?_eq_getElem (by omega), List.getElem?_eq_getElem (by omega)]
  simp only [ne_eq, Option.some.injEq, Nat.add_comm 1 i]

theorem concat1_columns (m : Nat) (columns : List (List Int)) (hne : columns ≠ [])
    (hc : ∀ c ∈ columns, c.length = m + 1) :
    concat1 (columns.map changed) = .ok ((List.range m).map
      fun i => columns.map fun c => decide (c[i + 1]? ≠ c[i]?)) := by
  induction columns with
  | nil => exact absurd rfl hne
  | cons c t ih =>
    have h0 := changed_range m c (hc c List.mem_cons_self)
    cases t with
    | nil => simp only [List.map_cons, List.map_nil, h0, concat1]
    | cons d t =>
      have := ih (List.cons_ne_nil _ _) fun x hx => hc x (List.mem_cons_of_mem _ hx)
      rw [List.map_cons] at this
      rw [List.map_cons, List.map_cons, h0, concat1, this]
      simp only [bind, Except.bind, List.length_map, List.length_range, if_true, List.zipWith_map,
        List.zipWith_self]
      rfl

theorem groups_one {α : Type} (n : Nat) (l : List α) (hne : l ≠ []) (hl : l.length ≤ n)
    (fuel : Nat) (hf : 0 < fuel) : groups n fuel l = [l] := by
  cases l with
  | nil => exact absurd rfl hne
  | cons x t =>
    cases fuel with
    | zero => omega
    | succ f =>
      rw [groups, List.take_of_length_le hl, List.drop_of_length_le hl]
      cases f <;> rfl

theorem logicalOrReduce_ok (n m : Nat) (columns : List (List Int)) (hne : columns ≠ [])
    (hc : ∀ c ∈ columns, c.length = m + 1) (hn : columns.length ≤ n) :
    logicalOrReduce n columns = .ok ((List.range m).map
      fun i => columns.any fun c => decide (c[i + 1]? ≠ c[i]?)) := by
  have hl : 0 < columns.length := List.length_pos_iff.2 hne
  have hp : partialReduce n (columns.map changed) = .ok [.vector ((List.range m).map
      fun i => columns.any fun c => decide (c[i + 1]? ≠ c[i]?))] := by
    rw [partialReduce, groups_one n _ (by simpa using hne) (by simpa using hn) _ (by simpa using hl)]
    simp only [Ds.mapPy, concat1_columns m columns hne hc, bind, Except.bind, aggregate,
      List.map_map]
    congr 3
    apply List.map_congr_left
    intro i _
    simp [List.any_map, Function.comp_def]
  obtain ⟨f, hf⟩ : ∃ f, columns.length = f + 1 := ⟨columns.length - 1, by omega⟩
  rw [logicalOrReduce, hf, treeReduce, hp]
  rfl

/-- Two rows differ if a column does. -/
theorem rows_differ (columns : List (List Int)) (i j : Nat)
    (hi : ∀ c ∈ columns, i < c.length) (hj : ∀ c ∈ columns, j < c.length) :
    (columns.filterMap (·[i]?) ≠ columns.filterMap (·[j]?)) ↔ ∃ c ∈ columns, c[i]? ≠ c[j]? := by
  induction columns with
  | nil => simp
  | cons c t ih =>
    have ih := ih (fun x hx => hi x (List.mem_cons_of_mem _ hx))
      fun x hx => hj x (List.mem_cons_of_mem _ hx)
    have h1 := List.getElem?_eq_getElem (hi c List.mem_cons_self)
    have h2 := List.getElem?_eq_getElem (hj c List.mem_cons_self)
    simp only [List.filterMap_cons, h1, h2, List.mem_cons, exists_eq_or_imp]
    rw [← ih]
    simp only [ne_eq, List.cons.injEq, Option.some.injEq]
    grind

/-- The rows of the stacked columns. -/
theorem vstackT_rows {columns : List (List Int)} {rows : List (List Int)}
    (h : Split.vstackT columns = .ok rows) :
    columns ≠ [] ∧ (∀ c ∈ columns, c.length = rows.length) ∧
      ∀ i, i < rows.length → rows[i]? = some (columns.filterMap (·[i]?)) := by
  cases columns with
  | nil => cases h
  | cons c cs =>
    simp only [Split.vstackT] at h
    split at h
    · next ha =>
      injection h with h
      subst h
      refine ⟨List.cons_ne_nil _ _, ?_, ?_⟩
      · intro d hd
        simp only [List.length_map, List.length_range]
        rcases List.mem_cons.1 hd with rfl | hd
        · rfl
        · exact of_decide_eq_true (List.all_eq_true.1 ha d hd)
      · intro i hi
        simp only [List.length_map, List.length_range] at hi
        rw [List.getElem?_map, List.getElem?_range hi]
        rfl
    · cases h

/-- The dask version of `unique` is that of Model/Split, for a number of columns that is reduced
at once. -/
theorem unique_eq (n : Nat) {columns rows : List (List Int)}
    (h : Split.vstackT columns = .ok rows) (hn : columns.length ≤ n) :
    Red.unique n columns rows = Split.uniqueDelayed rows := by
  obtain ⟨hne, hlen, hrow⟩ := vstackT_rows h
  cases rows with
  | nil => rfl
  | cons x l =>
    have hv : logicalOrReduce n columns = .ok (diffs x l) := by
      rw [logicalOrReduce_ok n l.length columns hne (by simpa using hlen) hn, diffs_range]
      congr 1
      apply List.map_congr_left
      intro i hi
      have hi := List.mem_range.1 hi
      rw [hrow (i + 1) (by simp; omega), hrow i (by simp; omega)]
      rw [Bool.eq_iff_iff, List.any_eq_true]
      have := rows_differ columns (i + 1) i (fun c hc => by rw [hlen c hc]; simp; omega)
        (fun c hc => by rw [hlen c hc]; simp; omega)
      simp only [ne_eq, decide_eq_true_eq, Option.some.injEq]
      simp only [ne_eq] at this
      exact this.symm
    simp only [Red.unique, Split.uniqueDelayed, hv, bind, Except.bind]
    exact congrArg _ (changes_masked x l).symm

/-! ### Too many columns -/

theorem partialReduce_error (n : Nat) (blocks : List Block) (e : PyErr)
    (h : partialReduce n blocks = .error e) : e = .valueError := by
  have hc : ∀ (g : List Block) (e : PyErr), concat1 g = .error e → e = .valueError := by
    intro g
    induction g with
    | nil => intro e h; cases h; rfl
    | cons b t ih =>
      intro e h
      cases b with
      | vector v => simp only [concat1] at h; cases h; rfl
      | matrix r =>
        cases t with
        | nil => simp only [concat1] at h; cases h
        | cons b' t =>
          simp only [concat1, bind, Except.bind] at h
          cases h' : concat1 (b' :: t) with
          | error e' => rw [h'] at h; cases h; exact ih _ h'
          | ok r' =>
            rw [h'] at h
            simp only at h
            split at h <;> cases h
            rfl
  obtain ⟨g, _, hg⟩ := mapPy_raises _ _ _ h
  simp only [bind, Except.bind] at hg
  cases hr : concat1 g with
  | error e' => rw [hr] at hg; cases hg; exact hc g _ hr
  | ok r => rw [hr] at hg; cases hg

/-- What a level of the reduction returns has one dimension. -/
theorem partialReduce_vectors (n : Nat) (blocks r : List Block)
    (h : partialReduce n blocks = .ok r) :
    r.length = (groups n blocks.length blocks).length ∧ ∀ b ∈ r, ∃ v, b = .vector v := by
  obtain ⟨h1, h2⟩ := mapPy_spec _ _ _ h
  refine ⟨h1, fun b hb => ?_⟩
  obtain ⟨i, hi⟩ := List.getElem?_of_mem hb
  have hlt : i < (groups n blocks.length blocks).length := by
    rw [← h1]; exact (List.getElem?_eq_some_iff.1 hi).1
  obtain ⟨y, e1, e2⟩ := h2 i _ (List.getElem?_eq_getElem hlt)
  rw [hi] at e1
  cases e1
  simp only [bind, Except.bind] at e2
  split at e2
  · cases e2
  · cases e2; exact ⟨_, rfl⟩

theorem partialReduce_vector (n : Nat) (hn : 0 < n) (v : List Bool) (t : List Block) :
    partialReduce n (.vector v :: t) = .error .valueError := by
  obtain ⟨k, rfl⟩ : ∃ k, n = k + 1 := ⟨n - 1, by omega⟩
  rfl

theorem treeReduce_many (n : Nat) (hn : 0 < n) (blocks : List Block) (hl : n < blocks.length)
    (fuel : Nat) : treeReduce n fuel blocks = .error .valueError := by
  cases fuel with
  | zero => rfl
  | succ fuel =>
    simp only [treeReduce, bind, Except.bind]
    cases hp : partialReduce n blocks with
    | error e => rw [partialReduce_error n blocks e hp]
    | ok r =>
      obtain ⟨h1, h2⟩ := partialReduce_vectors n blocks r hp
      have h3 : 2 ≤ r.length := by
        rw [h1]
        obtain ⟨f, hf⟩ : ∃ f, blocks.length = f + 2 := ⟨blocks.length - 2, by omega⟩
        rw [hf]
        cases blocks with
        | nil => cases hf
        | cons b t =>
          rw [groups]
          cases hd : (b :: t).drop n with
          | nil =>
            have := List.drop_eq_nil_iff.1 hd
            omega
          | cons c t' => simp only [groups, List.length_cons]; omega
      match r, h2, h3 with
      | b :: c :: t, h2, _ =>
        obtain ⟨v, rfl⟩ := h2 b List.mem_cons_self
        simp only
        cases fuel with
        | zero => rfl
        | succ f =>
          simp only [treeReduce, partialReduce_vector n hn, bind, Except.bind]

/-! ### The property -/

/-- C74, in full: sorted keys of dask arrays are split as those of arrays in memory, whatever the
number of variables and of blocks that dask reduces at once. -/
def C74_full : Prop :=
  ∀ (n : Nat) (variables : List (String × List Int)) (rows : List (List Int)), 2 ≤ n →
    Split.vstackT (variables.map (·.2)) = .ok rows → rows ≠ [] → KeysSorted rows →
    Red.sequenceSplit n variables true = Split.sequenceSplit variables true false

/-- C74: the split of dask arrays is the one that the other properties are about, if there are not
more variables than dask reduces at once.  Missing: more variables, see `C74_refused`. -/
theorem C74_split_partial (n : Nat) (variables : List (String × List Int)) (isInt : Bool)
    (hn : variables.length ≤ n) :
    Red.sequenceSplit n variables isInt = Split.sequenceSplit variables isInt true := by
  simp only [Red.sequenceSplit, Split.sequenceSplit, bind, Except.bind]
  cases hv : Split.vstackT (variables.map (·.2)) with
  | error e => rfl
  | ok rows =>
    simp only
    cases isInt with
    | false => rfl
    | true =>
      have hu := unique_eq n hv (by simpa using hn)
      simp only [Bool.not_true, Bool.false_eq_true, if_false, hu, Split.splitRows, Split.seqUnique,
        if_true, bind, Except.bind]
      cases Split.uniqueDelayed rows with
      | error e => rfl
      | ok u =>
        simp only
        split <;> rfl

/-- C74: sorted keys are accepted, and split as those of arrays in memory, if there are not more
variables than dask reduces at once. -/
theorem C74_sorted_partial (n : Nat) (variables : List (String × List Int))
    (rows : List (List Int)) (hn : variables.length ≤ n)
    (hv : Split.vstackT (variables.map (·.2)) = .ok rows) (hne : rows ≠ [])
    (hs : KeysSorted rows) :
    Red.sequenceSplit n variables true = Split.sequenceSplit variables true false ∧
    ∃ ps, Red.sequenceSplit n variables true = .ok ps := by
  have he := (C12_rows_partial rows hne).1 hs
  obtain ⟨ps, hps⟩ := C11_sorted_accepted_rows rows true hne hs
  rw [C74_split_partial n variables true hn]
  simp only [Split.sequenceSplit, bind, Except.bind, hv, Bool.not_true, Bool.false_eq_true,
    if_false, he, hps, true_and]
  exact ⟨_, rfl⟩

/-- C74: with more variables than dask reduces at once, every split raises, whatever the keys:
`aggregate` drops the dimension that the next level of the reduction concatenates along. -/
theorem C74_refused (n : Nat) (hn : 0 < n) (variables : List (String × List Int))
    (rows : List (List Int)) (hv : Split.vstackT (variables.map (·.2)) = .ok rows)
    (hne : rows ≠ []) (hl : n < variables.length) :
    Red.sequenceSplit n variables true = .error .valueError := by
  cases rows with
  | nil => exact absurd rfl hne
  | cons x l =>
    simp only [Red.sequenceSplit, hv, bind, Except.bind, Bool.not_true, Bool.false_eq_true,
      if_false, Red.unique, logicalOrReduce]
    rw [treeReduce_many n hn _ (by simpa using hl)]

/-- A record with five keys. -/
def Red.five : List (String × List Int) :=
  [("a", [1, 1]), ("b", [1, 1]), ("c", [1, 2]), ("d", [1, 1]), ("e", [1, 1])]

/-- The case meets the hypotheses of `C74_refused` with the default of dask. -/
example : Split.vstackT (Red.five.map (·.2)) = .ok [[1, 1, 1, 1, 1], [1, 1, 2, 1, 1]] ∧
    4 < Red.five.length := ⟨rfl, by decide⟩

/-- With four of them, the records are split. -/
example : Red.sequenceSplit 4 (Red.five.take 4) true =
    .ok [([("a", 1), ("b", 1), ("c", 1), ("d", 1)], (0, 1)),
      ([("a", 1), ("b", 1), ("c", 2), ("d", 1)], (1, 2))] := by decide +kernel

/-- In memory, five are split too. -/
example : Split.sequenceSplit Red.five true false =
    .ok [([("a", 1), ("b", 1), ("c", 1), ("d", 1), ("e", 1)], (0, 1)),
      ([("a", 1), ("b", 1), ("c", 2), ("d", 1), ("e", 1)], (1, 2))] := by decide +kernel

/-- C74: as the code is, a dataset of dask arrays cannot be split by five variables. -/
theorem C74_counterexample : ¬ C74_full := by
  intro h
  have := h 4 Red.five _ (by decide) rfl (List.cons_ne_nil _ _) (by unfold KeysSorted; decide +kernel)
  rw [C74_refused 4 (by decide) Red.five _ rfl (List.cons_ne_nil _ _) (by decide)] at this
  revert this
  decide +kernel

end Verif
