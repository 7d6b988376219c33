import Verif.Lemmas.DatasetOps

/-! Lemmas about concatenated and trimmed arrays. -/

namespace Verif

open Spec Nd Ds

variable {V : Type}

theorem inside_set {base idx : List Nat} {ax m : Nat} (hax : ax < base.length) :
    Inside (base.set ax m) idx ↔ idx.length = base.length ∧
      (∀ i x n : Nat, i ≠ ax → idx[i]? = some x → base[i]? = some n → x < n) ∧
      ∀ j, idx[ax]? = some j → j < m := by
  unfold Inside
  rw [List.length_set]
  constructor
  · rintro ⟨h1, h2⟩
    refine ⟨h1, ?_, ?_⟩
    · intro i x n hi hx hn
      exact h2 i x n hx (by rw [List.getElem?_set, if_neg (fun h => hi h.symm)]; exact hn)
    · intro j hj
      exact h2 ax j m hj (by simp [hax])
  · rintro ⟨h1, h2, h3⟩
    refine ⟨h1, ?_⟩
    intro i x n hx hn
    by_cases hi : i = ax
    · subst hi
      rw [List.getElem?_set, if_pos rfl, if_pos hax] at hn
      cases hn
      exact h3 x hx
    · rw [List.getElem?_set, if_neg (fun h => hi h.symm)] at hn
      exact h2 i x n hi hx hn

theorem shape_of_erase {a b : List Nat} {ax n : Nat} (h1 : b.length = a.length)
    (h2 : b.eraseIdx ax = a.eraseIdx ax) (hn : b[ax]? = some n) : b = a.set ax n := by
  have hlt : ax < b.length := (List.getElem?_eq_some_iff.1 hn).1
  apply List.ext_getElem?
  intro i
  rw [List.getElem?_set]
  by_cases hi : ax = i
  · subst hi
    rw [if_pos rfl, if_pos (by omega), hn]
  · rw [if_neg hi]
    rcases Nat.lt_or_ge i ax with hlt' | hge
    · have := congrArg (·[i]?) h2
      simp only [List.getElem?_eraseIdx, if_pos hlt'] at this
      exact this
    · have := congrArg (·[i - 1]?) h2
      simp only [List.getElem?_eraseIdx, if_neg (show ¬ i - 1 < ax by omega)] at this
      rwa [show i - 1 + 1 = i by omega] at this

theorem concatGet_inside (ax : Nat) (base : List Nat) (hax : ax < base.length)
    (l : List (Arr V)) (hl : ∀ b ∈ l, ArrOk b ∧ ∃ n, b.shape = base.set ax n) (idx : List Nat) :
    (∃ v, concatGet ax l idx = some v) ↔
      Inside (base.set ax (l.filterMap (·.shape[ax]?)).sum) idx := by
  induction l generalizing idx with
  | nil =>
    simp only [concatGet, List.filterMap_nil, List.sum_nil, inside_set hax]
    constructor
    · rintro ⟨_, h⟩; cases h
    · rintro ⟨h1, _, h3⟩
      have : ax < idx.length := by omega
      have := h3 _ (List.getElem?_eq_getElem this)
      omega
  | cons b t ih =>
    obtain ⟨hb, n, hn⟩ := hl b (by simp)
    have hbn : b.shape[ax]? = some n := by rw [hn]; simp [hax]
    have ih := ih fun c hc => hl c (by simp [hc])
    simp only [concatGet, List.filterMap_cons, hbn, List.sum_cons, Option.bind_some]
    cases hj : idx[ax]? with
    | none =>
      simp only [Option.bind_none, reduceCtorEq, exists_false, false_iff]
      rintro ⟨h1, _⟩
      rw [List.getElem?_eq_none_iff] at hj
      rw [List.length_set] at h1
      omega
    | some j =>
      simp only [Option.bind_some]
      by_cases hlt : j < n
      · rw [if_pos hlt, hb idx, hn, inside_set hax, inside_set hax, hj]
        simp only [Option.some.injEq, forall_eq']
        constructor
        · rintro ⟨h1, h2, _⟩; exact ⟨h1, h2, by omega⟩
        · rintro ⟨h1, h2, _⟩; exact ⟨h1, h2, hlt⟩
      · rw [if_neg hlt, ih, inside_set hax, inside_set hax, hj, get_set hj]
        simp only [Option.some.injEq, forall_eq', List.length_set]
        constructor
        · rintro ⟨h1, h2, h3⟩
          refine ⟨h1, fun i x m hi hx hm => h2 i x m hi ?_ hm, by omega⟩
          rw [List.getElem?_set, if_neg (fun h => hi h.symm)]; exact hx
        · rintro ⟨h1, h2, h3⟩
          refine ⟨h1, fun i x m hi hx hm => h2 i x m hi ?_ hm, by omega⟩
          rw [List.getElem?_set, if_neg (fun h => hi h.symm)] at hx; exact hx

/-- The concatenation of well formed arrays is well formed. -/
theorem concatenate_arrOk {ax : Nat} {l : List (Arr V)} {a : Arr V}
    (hl : ∀ b ∈ l, ArrOk b) (h : concatenate ax l = .ok a) : ArrOk a := by
  cases l with
  | nil => simp [concatenate] at h
  | cons b t =>
    simp only [concatenate] at h
    split at h
    · next hc =>
      cases h
      obtain ⟨hax, hall⟩ := hc
      intro idx
      refine concatGet_inside ax b.shape hax (b :: t) ?_ idx
      intro c hc
      refine ⟨hl c hc, ?_⟩
      rcases List.mem_cons.1 hc with rfl | hc2
      · exact ⟨c.shape[ax], (set_self (List.getElem?_eq_getElem hax)).symm⟩
      · obtain ⟨h1, h2⟩ := hall c hc2
        have hlt : ax < c.shape.length := by omega
        exact ⟨c.shape[ax], shape_of_erase h1 h2 (List.getElem?_eq_getElem hlt)⟩
    · cases h

/-- The positions of a slice without step and with natural bounds. -/
theorem positions_nat (n lo hi : Nat) (h : lo ≤ hi) :
    positions n ⟨some (lo : Nat), some (hi : Nat), none⟩ =
      .ok ((List.range (min hi n - lo)).map (lo + ·)) := by
  by_cases h2 : hi ≤ n
  · rw [positions_range n lo hi h h2, Nat.min_eq_left h2]
  · have e2 : adjust n 1 (hi : Int) = n := by
      simp only [adjust]; split
      · omega
      · split <;> omega
    by_cases h3 : lo ≤ n
    · have e1 : adjust n 1 (lo : Int) = lo := by
        simp only [adjust]; split
        · omega
        · split
          · simp; omega
          · rfl
      have := positions_range n lo n h3 (Nat.le_refl n)
      have e3 : adjust n 1 (n : Int) = n := by
        simp only [adjust]; split
        · omega
        · split <;> omega
      simp only [positions, e1, e2, e3] at this ⊢
      rw [this, Nat.min_eq_right (by omega)]
    · have e1 : adjust n 1 (lo : Int) = n := by
        simp only [adjust]; split
        · omega
        · split <;> omega
      simp only [positions, e1, e2]
      rw [show min hi n - lo = 0 by omega]
      simp

/-- The slices used to trim: the whole of all axes but one. -/
def trimKey (n ax : Nat) (ind : Nat × Nat) : List Slice :=
  (List.replicate n Slice.all).set ax ⟨some (ind.1 : Nat), some (ind.2 : Nat), none⟩

theorem trimKey_map (n ax : Nat) (ind : Nat × Nat) :
    (List.replicate n (Ix.slice .all)).set ax (.slice ⟨some ind.1, some ind.2, none⟩) =
      (trimKey n ax ind).map .slice := by
  simp [trimKey, List.map_set]

theorem takeAxis_id {b : Arr V} (hb : ArrOk b) {k m : Nat} (hs : b.shape[k]? = some m) :
    selAxis k (.slice .all) b = .ok b := by
  simp only [selAxis, hs, bind, Except.bind, positions_all, takeAxis_range hb hs]

theorem selAxis_all {b c : Arr V} (hb : ArrOk b) {k : Nat}
    (h : selAxis k (.slice .all) b = .ok c) : c = b := by
  cases hs : b.shape[k]? with
  | none => simp [selAxis, hs] at h
  | some m => rw [takeAxis_id hb hs] at h; cases h; rfl

theorem getitem_all {a b : Arr V} (ha : ArrOk a) (n k : Nat)
    (h : getitem k (List.replicate n (.slice .all)) a = .ok b) : b = a := by
  induction n generalizing k b with
  | zero => simp only [List.replicate_zero, getitem] at h; cases h; rfl
  | succ n ih =>
    simp only [List.replicate_succ, getitem, bind, Except.bind] at h
    split at h
    · cases h
    · next c hc =>
      have := ih (k + 1) hc
      subst this
      exact selAxis_all ha h

/-- Trimming an array keeps the given range of one axis. -/
theorem getitem_trim {a b : Arr V} (ha : ArrOk a) (n k ax : Nat) (ind : Nat × Nat)
    (hind : ind.1 ≤ ind.2) (hax : ax < n)
    (h : getitem k ((List.replicate n (Ix.slice .all)).set ax
      (.slice ⟨some ind.1, some ind.2, none⟩)) a = .ok b) :
    ∃ m, a.shape[k + ax]? = some m ∧
      b = takeAxis (k + ax) ((List.range (min ind.2 m - ind.1)).map (ind.1 + ·)) a := by
  induction n generalizing k ax b with
  | zero => omega
  | succ n ih =>
    cases ax with
    | zero =>
      simp only [List.replicate_succ, List.set_cons_zero, getitem, bind, Except.bind] at h
      split at h
      · cases h
      · next c hc =>
        have := getitem_all ha n (k + 1) hc
        subst this
        simp only [selAxis] at h
        split at h
        · cases h
        · next m hm =>
          simp only [bind, Except.bind, positions_nat m ind.1 ind.2 hind] at h
          cases h
          exact ⟨m, by simpa using hm, rfl⟩
    | succ ax =>
      simp only [List.replicate_succ, List.set_cons_succ, getitem, bind, Except.bind] at h
      split at h
      · cases h
      · next c hc =>
        obtain ⟨m, h1, h2⟩ := ih (k + 1) ax (by omega) hc
        rw [show k + 1 + ax = k + (ax + 1) by omega] at h1 h2
        refine ⟨m, h1, ?_⟩
        rw [← h2]
        refine selAxis_all ?_ h
        rw [h2]
        refine takeAxis_arrOk ha h1 _ fun p hp => ?_
        obtain ⟨q, hq, rfl⟩ := List.mem_map.1 hp
        rw [List.mem_range] at hq
        omega

/-- Two well formed arrays of the same shape with the same values. -/
theorem arr_ext {a b : Arr V} (ha : ArrOk a) (hb : ArrOk b) (hs : a.shape = b.shape)
    (h : ∀ idx, Inside a.shape idx → a.get idx = b.get idx) : a = b := by
  obtain ⟨sa, ga⟩ := a
  obtain ⟨sb, gb⟩ := b
  simp only at hs
  subst hs
  congr 1
  funext idx
  by_cases hi : Inside sa idx
  · exact h idx hi
  · rw [show ga idx = none from get_none ha hi, show gb idx = none from get_none hb hi]

end Verif
