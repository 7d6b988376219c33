import Verif.Model.Sharing
import Verif.Lemmas.Chunks

/-!
The positions of the elements of a slice.
-/

namespace Verif.Sh

open Nd Spec

/-- Distinct elements are at distinct positions, and each element is somewhere. -/
structure Inj (w : Arr (List Nat)) : Prop where
  inj : ∀ i j p, w.get i = some p → w.get j = some p → i = j
  full : ∀ i, inBounds i w.shape = true → ∃ p, w.get i = some p

theorem inj_whole {α : Type} (b : Nat) (a : Arr α) : Inj (whole b a).view := by
  refine ⟨?_, fun i _ => ⟨i, rfl⟩⟩
  intro i j p h1 h2
  simp only [whole, Option.some.injEq] at h1 h2
  rw [h1, h2]

theorem inj_take {w : Arr (List Nat)} (hw : Inj w) (ax : Nat) {pos : List Nat}
    (hp : pos.Nodup) {n : Nat} (hn : w.shape[ax]? = some n) (hlt : ∀ p ∈ pos, p < n) :
    Inj (takeAxis ax pos w) := by
  refine ⟨?_, fun i hi => ?_⟩
  case refine_2 =>
    obtain ⟨h1, h2⟩ := (inBounds_iff _ _).1 hi
    simp only [takeAxis, List.length_set] at h1
    obtain ⟨hax, hn'⟩ := List.getElem?_eq_some_iff.1 hn
    have hi' : i[ax]? = some (i[ax]'(by omega)) := List.getElem?_eq_getElem _
    have hj : i[ax]'(by omega) < pos.length :=
      h2 ax _ pos.length hi' (by simp only [takeAxis, List.getElem?_set_self hax])
    obtain ⟨q, hq⟩ := hw.full (i.set ax pos[i[ax]'(by omega)]) (by
      rw [inBounds_iff]
      refine ⟨by simpa using h1, fun k x m hx hm => ?_⟩
      by_cases hk : k = ax
      · subst hk
        rw [List.getElem?_set_self (by omega)] at hx
        cases hx
        rw [hn] at hm
        cases hm
        exact hlt _ (List.getElem_mem _)
      · rw [List.getElem?_set_ne (Ne.symm hk)] at hx
        refine h2 k x m hx ?_
        simp only [takeAxis, List.getElem?_set_ne (Ne.symm hk), hm])
    refine ⟨q, ?_⟩
    simp only [takeAxis, hi', Option.bind_some, List.getElem?_eq_getElem hj]
    exact hq
  intro i j p h1 h2
  simp only [takeAxis, Option.bind_eq_some_iff] at h1 h2
  obtain ⟨a, ha, x, hx, h1⟩ := h1
  obtain ⟨b, hb, y, hy, h2⟩ := h2
  have e := hw.inj _ _ _ h1 h2
  have la := (List.getElem?_eq_some_iff.1 ha).1
  have lb := (List.getElem?_eq_some_iff.1 hb).1
  have exy : x = y := by
    have := congrArg (fun l : List Nat => l[ax]?) e
    simp only [List.getElem?_set_self la, List.getElem?_set_self lb, Option.some.injEq] at this
    exact this
  subst exy
  have eab : a = b := by
    obtain ⟨l1, l2⟩ := List.getElem?_eq_some_iff.1 hx
    obtain ⟨l3, l4⟩ := List.getElem?_eq_some_iff.1 hy
    have hp := List.pairwise_iff_getElem.1 hp
    rcases Nat.lt_trichotomy a b with h | h | h
    · exact absurd (l2.trans l4.symm) (hp a b l1 l3 h)
    · exact h
    · exact absurd (l4.trans l2.symm) (hp b a l3 l1 h)
  subst eab
  apply List.ext_getElem?
  intro k
  by_cases hk : k = ax
  · subst hk
    rw [ha, hb]
  · have := congrArg (fun l : List Nat => l[k]?) e
    simp only [List.getElem?_set_ne (Ne.symm hk)] at this
    exact this

theorem inj_drop {w : Arr (List Nat)} (hw : Inj w) (ax p : Nat) {n : Nat}
    (hn : w.shape[ax]? = some n) (hlt : p < n) : Inj (dropAxis ax p w) := by
  refine ⟨?_, fun i hi => ?_⟩
  case refine_2 =>
    obtain ⟨h1, h2⟩ := (inBounds_iff _ _).1 hi
    obtain ⟨hax, hn'⟩ := List.getElem?_eq_some_iff.1 hn
    simp only [dropAxis, List.length_eraseIdx, hax, ↓reduceIte] at h1
    refine hw.full _ ?_
    rw [inBounds_iff]
    refine ⟨by simp; omega, fun k x m hx hm => ?_⟩
    rcases Nat.lt_trichotomy k ax with hk | hk | hk
    · rw [List.getElem?_append_left (by simp; omega), List.getElem?_take_of_lt hk] at hx
      refine h2 k x m hx ?_
      simp only [dropAxis, List.getElem?_eraseIdx_of_lt hk, hm]
    · subst hk
      rw [List.getElem?_append_right (by simp; omega)] at hx
      have : k - (i.take k).length = 0 := by simp; omega
      rw [this, List.getElem?_cons_zero] at hx
      cases hx
      rw [hn] at hm
      cases hm
      exact hlt
    · rw [List.getElem?_append_right (by simp; omega)] at hx
      have : k - (i.take ax).length = (k - ax - 1) + 1 := by simp; omega
      rw [this, List.getElem?_cons_succ, List.getElem?_drop] at hx
      refine h2 (k - 1) x m ?_ ?_
      · rw [← hx]
        congr 1
        omega
      · simp only [dropAxis, List.getElem?_eraseIdx_of_ge (show ax ≤ k - 1 by omega)]
        rw [← hm]
        congr 1
        omega
  intro i j q h1 h2
  simp only [dropAxis] at h1 h2
  have e := hw.inj _ _ _ h1 h2
  have hl : i.length = j.length := by
    have := congrArg List.length e
    simp only [List.length_append, List.length_take, List.length_cons, List.length_drop] at this
    omega
  have h3 := List.append_inj e (by simp [hl])
  have h4 := (List.cons.inj h3.2).2
  rw [← List.take_append_drop ax i, ← List.take_append_drop ax j, h3.1, h4]

theorem positions_nodup {n : Nat} {s : Slice} {pos : List Nat} (h : positions n s = .ok pos) :
    pos.Nodup := by
  have key : ∀ (st a b : Int), st ≠ 0 → -1 ≤ b →
      (0 < st → 0 ≤ a) →
      ((List.range (if st < 0 then (if b < a then (a - b - 1) / (-st) + 1 else 0)
        else (if a < b then (b - a - 1) / st + 1 else 0) : Int).toNat).map
          fun (k : Nat) => (a + (k : Int) * st).toNat).Nodup := by
    intro st a b hst hb ha
    have nonneg : ∀ k : Nat, k < (if st < 0 then (if b < a then (a - b - 1) / (-st) + 1 else 0)
        else (if a < b then (b - a - 1) / st + 1 else 0) : Int).toNat → 0 ≤ a + (k : Int) * st := by
      intro k hk
      by_cases hneg : st < 0
      · rw [if_pos hneg] at hk
        split at hk
        · have h1 : (k : Int) ≤ (a - b - 1) / (-st) := by omega
          have h2 : (k : Int) * (-st) ≤ a - b - 1 :=
            Int.le_trans (Int.mul_le_mul_of_nonneg_right h1 (by omega))
              (Int.ediv_mul_le _ (by omega))
          have h3 : (k : Int) * (-st) = -((k : Int) * st) := Int.mul_neg _ _
          omega
        · simp at hk
      · have := ha (by omega)
        have : 0 ≤ (k : Int) * st := Int.mul_nonneg (by omega) (by omega)
        omega
    rw [List.nodup_iff_pairwise_ne, List.pairwise_map]
    refine List.Pairwise.imp_of_mem ?_ (List.nodup_range (n := _))
    intro x y hx hy hxy e
    have h1 := nonneg x (List.mem_range.1 hx)
    have h2 := nonneg y (List.mem_range.1 hy)
    have h3 : (x : Int) * st = (y : Int) * st := by omega
    have := Int.eq_of_mul_eq_mul_right hst h3
    omega
  have adj : ∀ (st x : Int), -1 ≤ adjust n st x ∧ (0 < st → 0 ≤ adjust n st x) := by
    intro st x
    simp only [adjust]
    constructor
    · split
      · split
        · split <;> omega
        · omega
      · split
        · split <;> omega
        · omega
    · intro hst
      split
      · split
        · split <;> omega
        · omega
      · split
        · split <;> omega
        · omega
  obtain ⟨start, stop, step⟩ := s
  have gen : ∀ st : Int, positions n ⟨start, stop, some st⟩ = .ok pos → pos.Nodup := by
    intro st h
    simp only [positions] at h
    split at h
    · cases h
    · rename_i hst
      cases h
      refine key st _ _ hst ?_ ?_
      · cases stop with
        | none => simp only; split <;> omega
        | some y => exact (adj st y).1
      · intro hp
        cases start with
        | none => simp only; split <;> omega
        | some x => exact (adj st x).2 hp
  cases step with
  | none => exact gen 1 h
  | some st => exact gen st h

theorem positions_lt {n : Nat} {s : Slice} {pos : List Nat} (h : positions n s = .ok pos) :
    ∀ p ∈ pos, p < n := by
  have key : ∀ (st a b : Int), st ≠ 0 → -1 ≤ b → b ≤ n → a ≤ n → (st < 0 → a ≤ n - 1) →
      (0 < st → 0 ≤ a) →
      ∀ p ∈ ((List.range (if st < 0 then (if b < a then (a - b - 1) / (-st) + 1 else 0)
        else (if a < b then (b - a - 1) / st + 1 else 0) : Int).toNat).map
          fun (k : Nat) => (a + (k : Int) * st).toNat), p < n := by
    intro st a b hst hb hb' ha' hneg' ha p hp
    obtain ⟨k, hk, rfl⟩ := List.mem_map.1 hp
    have hk := List.mem_range.1 hk
    by_cases hneg : st < 0
    · rw [if_pos hneg] at hk
      split at hk
      · have h1 : 0 ≤ (k : Int) * (-st) := Int.mul_nonneg (by omega) (by omega)
        have h3 : (k : Int) * (-st) = -((k : Int) * st) := Int.mul_neg _ _
        have := hneg' hneg
        omega
      · simp at hk
    · rw [if_neg hneg] at hk
      split at hk
      · have h1 : (k : Int) ≤ (b - a - 1) / st := by omega
        have h2 : (k : Int) * st ≤ b - a - 1 :=
          Int.le_trans (Int.mul_le_mul_of_nonneg_right h1 (by omega))
            (Int.ediv_mul_le _ (by omega))
        omega
      · simp at hk
  have adj : ∀ (st x : Int), -1 ≤ adjust n st x ∧ adjust n st x ≤ n ∧
      (0 < st → 0 ≤ adjust n st x) ∧ (st < 0 → adjust n st x ≤ n - 1) := by
    intro st x
    simp only [adjust]
    (repeat' split) <;> omega
  obtain ⟨start, stop, step⟩ := s
  have gen : ∀ st : Int, positions n ⟨start, stop, some st⟩ = .ok pos → ∀ p ∈ pos, p < n := by
    intro st h
    simp only [positions] at h
    split at h
    · cases h
    · rename_i hst
      cases h
      refine key st _ _ hst ?_ ?_ ?_ ?_ ?_
      · cases stop with
        | none => simp only; split <;> omega
        | some y => exact (adj st y).1
      · cases stop with
        | none => simp only; split <;> omega
        | some y => exact (adj st y).2.1
      · cases start with
        | none => simp only; split <;> omega
        | some x => exact (adj st x).2.1
      · intro hp
        cases start with
        | none => simp only; split <;> omega
        | some x => exact (adj st x).2.2.2 hp
      · intro hp
        cases start with
        | none => simp only; split <;> omega
        | some x => exact (adj st x).2.2.1 hp
  cases step with
  | none => exact gen 1 h
  | some st => exact gen st h

theorem index_lt {n : Nat} {i : Int} {p : Nat} {l : List Nat}
    (h : indexPositions n [i] = .ok (p :: l)) : p < n := by
  simp only [indexPositions] at h
  split at h
  · cases h
    split <;> omega
  · cases h

theorem inj_getitem {w : Arr (List Nat)} (hw : Inj w) {key : List Ix} {ax : Nat}
    {w' : Arr (List Nat)} (e : getitem ax key w = .ok w') : Inj w' := by
  induction key generalizing ax w' with
  | nil =>
    simp only [getitem] at e
    cases e
    exact hw
  | cons ix t ih =>
    simp only [getitem] at e
    cases h1 : getitem (ax + 1) t w with
    | error x => rw [h1] at e; cases e
    | ok u =>
      rw [h1] at e
      have hu := ih h1
      have e : selAxis ax ix u = .ok w' := e
      simp only [selAxis] at e
      split at e
      · cases e
      · rename_i n hn
        split at e
        · rename_i i _
          cases h2 : indexPositions n [i] with
          | error x => rw [h2] at e; cases e
          | ok l =>
            rw [h2] at e
            cases l with
            | nil => cases e
            | cons p l =>
              cases e
              exact inj_drop hu ax p hn (index_lt h2)
        · rename_i s _
          cases h2 : positions n s with
          | error x => rw [h2] at e; cases e
          | ok l =>
            rw [h2] at e
            cases e
            exact inj_take hu ax (positions_nodup h2) hn (positions_lt h2)

/-! ### A slice of what is seen is what is seen of the slice -/

section
variable {V : Type}

theorem take_through (ax : Nat) (pos : List Nat) (w : Arr (List Nat)) (b : Arr V) :
    takeAxis ax pos (through w b) = through (takeAxis ax pos w) b := by
  simp only [takeAxis, through, Option.bind_assoc]

theorem drop_through (ax p : Nat) (w : Arr (List Nat)) (b : Arr V) :
    dropAxis ax p (through w b) = through (dropAxis ax p w) b := rfl

theorem sel_through (ax : Nat) (ix : Ix) (w : Arr (List Nat)) (b : Arr V) :
    selAxis ax ix (through w b) = (selAxis ax ix w).map fun u => through u b := by
  simp only [selAxis, show (through w b).shape = w.shape from rfl]
  cases w.shape[ax]? with
  | none => rfl
  | some n =>
    cases ix with
    | int i =>
      simp only
      cases indexPositions n [i] with
      | error x => rfl
      | ok l => cases l <;> rfl
    | slice s =>
      simp only
      cases positions n s with
      | error x => rfl
      | ok l => exact congrArg Except.ok (take_through ax l w b)

theorem getitem_through (ax : Nat) (key : List Ix) (w : Arr (List Nat)) (b : Arr V) :
    getitem ax key (through w b) = (getitem ax key w).map fun u => through u b := by
  induction key generalizing ax with
  | nil => rfl
  | cons ix t ih =>
    simp only [getitem, ih]
    cases getitem (ax + 1) t w with
    | error x => rfl
    | ok u => exact sel_through ax ix u b

end

end Verif.Sh
