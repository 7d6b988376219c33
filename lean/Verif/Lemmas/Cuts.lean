import Verif.Lemmas.Numpy

/-!
Cutting a list at the positions where a mask is true.  `groups` is the structural
description of what the index arithmetic `indices ++ [n]`, `slice(indices[i],
indices[i+1])` computes.
-/

namespace Verif.Np

variable {α β : Type}

/-- Cut a list in front of each element whose mark is true (and at its start). -/
def groups : List (Bool × α) → List (List α)
  | [] => []
  | [(_, x)] => [[x]]
  | (_, x) :: (b, y) :: t =>
    match groups ((b, y) :: t) with
    | [] => [[x]]
    | g :: gs => if b then [x] :: g :: gs else (x :: g) :: gs

theorem groups_ne_nil (b : Bool) (x : α) (t : List (Bool × α)) :
    groups ((b, x) :: t) ≠ [] := by
  cases t with
  | nil => simp [groups]
  | cons p t =>
    obtain ⟨b', y⟩ := p
    unfold groups
    split
    · simp
    · split <;> simp

theorem groups_cons (b : Bool) (x : α) (b' : Bool) (y : α) (t : List (Bool × α)) :
    ∃ g gs, groups ((b', y) :: t) = g :: gs ∧
      groups ((b, x) :: (b', y) :: t) = if b' then [x] :: g :: gs else (x :: g) :: gs := by
  cases h : groups ((b', y) :: t) with
  | nil => exact absurd h (groups_ne_nil b' y t)
  | cons g gs => exact ⟨g, gs, rfl, by rw [groups, h]⟩

theorem groups_flatten (l : List (Bool × α)) : (groups l).flatten = l.map (·.2) := by
  induction l with
  | nil => rfl
  | cons p t ih =>
    obtain ⟨b, x⟩ := p
    cases t with
    | nil => rfl
    | cons p' t' =>
      obtain ⟨b', y⟩ := p'
      obtain ⟨g, gs, h1, h2⟩ := groups_cons b x b' y t'
      rw [h1] at ih
      rw [h2, List.map_cons, ← ih]
      cases b' <;> simp

theorem groups_nonempty (l : List (Bool × α)) : ∀ g ∈ groups l, g ≠ [] := by
  induction l with
  | nil => simp [groups]
  | cons p t ih =>
    obtain ⟨b, x⟩ := p
    cases t with
    | nil => simp [groups]
    | cons p' t' =>
      obtain ⟨b', y⟩ := p'
      obtain ⟨g, gs, h1, h2⟩ := groups_cons b x b' y t'
      rw [h1] at ih
      rw [h2]
      intro g' hg'
      cases b'
      · simp only [Bool.false_eq_true, if_false, List.mem_cons] at hg'
        rcases hg' with rfl | hg'
        · simp
        · exact ih g' (by simp [hg'])
      · simp only [if_true, List.mem_cons] at hg'
        rcases hg' with rfl | hg'
        · simp
        · exact ih g' (by simpa using hg')

theorem slice_cons_succ (x : α) (l : List α) (i j : Nat) :
    slice (x :: l) (i + 1) (j + 1) = slice l i j := by simp [slice]

theorem slice_cons_zero (x : α) (l : List α) (j : Nat) :
    slice (x :: l) 0 (j + 1) = x :: slice l 0 j := by simp [slice]

/-- The slices between consecutive indices, with indices counted from `k`. -/
def slicesFrom (k : Nat) (l : List α) (idx : List Nat) : List (List α) :=
  (pairs idx).map fun p => slice l (p.1 - k) (p.2 - k)

theorem slicesFrom_shift (k : Nat) (x : α) (l : List α) (idx : List Nat)
    (h : ∀ i ∈ idx, k + 1 ≤ i) :
    slicesFrom k (x :: l) idx = slicesFrom (k + 1) l idx := by
  unfold slicesFrom
  apply List.map_congr_left
  rintro ⟨i, j⟩ hp
  have hij := List.of_mem_zip hp
  have hi := h i hij.1
  have hj := h j (List.mem_of_mem_tail hij.2)
  have e1 : i - k = (i - (k + 1)) + 1 := by omega
  have e2 : j - k = (j - (k + 1)) + 1 := by omega
  simp only [e1, e2, slice_cons_succ]

theorem slicesFrom_groups (k : Nat) (b : Bool) (x : α) (t : List (Bool × α)) :
    slicesFrom k (x :: t.map (·.2))
      (k :: whereFrom (k + 1) (t.map (·.1)) ++ [k + (t.length + 1)]) = groups ((b, x) :: t) := by
  induction t generalizing k b x with
  | nil => simp [slicesFrom, whereFrom, pairs, slice, groups]
  | cons p t ih =>
    obtain ⟨b', y⟩ := p
    obtain ⟨g, gs, h1, h2⟩ := groups_cons b x b' y t
    rw [h2]
    have ih' := ih (k + 1) b' y
    rw [h1] at ih'
    have hlen : k + 1 + (t.length + 1) = k + (t.length + 1 + 1) := by omega
    rw [hlen] at ih'
    have hge : ∀ i ∈ whereFrom (k + 1 + 1) (t.map (·.1)) ++ [k + (t.length + 1 + 1)],
        k + 1 + 1 ≤ i := by
      intro i hi
      rcases List.mem_append.1 hi with hi | hi
      · exact (whereFrom_ge _ _ i hi).1
      · simp only [List.mem_singleton] at hi; omega
    cases b' with
    | true =>
      simp only [List.map_cons, whereFrom, List.length_cons, if_true, List.cons_append]
      have hsh := slicesFrom_shift k x (y :: t.map (·.2))
        ((k + 1) :: (whereFrom (k + 1 + 1) (t.map (·.1)) ++ [k + (t.length + 1 + 1)])) (by
          intro i hi
          rcases List.mem_cons.1 hi with rfl | hi
          · omega
          · have := hge i hi; omega)
      rw [← List.cons_append, ih'] at hsh
      rw [← hsh]
      simp [slicesFrom, pairs, slice]
    | false =>
      simp only [List.map_cons, whereFrom, List.length_cons, Bool.false_eq_true, if_false,
        List.cons_append] at ih' ⊢
      generalize whereFrom (k + 1 + 1) (t.map (·.1)) ++ [k + (t.length + 1 + 1)] = rest at ih' hge ⊢
      cases rest with
      | nil => simp [slicesFrom, pairs] at ih'
      | cons c rest =>
        have hc := hge c (by simp)
        have hsh := slicesFrom_shift k x (y :: t.map (·.2)) (c :: rest) (fun i hi => by
          have := hge i hi; omega)
        simp only [slicesFrom, pairs, List.tail_cons, List.zip_cons_cons, List.map_cons,
          List.cons.injEq] at ih' hsh ⊢
        refine ⟨?_, ?_⟩
        · rw [← ih'.1]
          have e1 : c - k = (c - (k + 1)) + 1 := by omega
          rw [e1, Nat.sub_self, Nat.sub_self, slice_cons_zero]
        · rw [hsh]; exact ih'.2

/-- Slicing at the true positions of a mask that starts with true gives the groups. -/
theorem slices_where (m : List Bool) (l : List α) (h : m.length = l.length) (hm : m ≠ []) :
    (pairs ((0 :: whereFrom 1 m.tail) ++ [l.length])).map (fun p => slice l p.1 p.2)
      = groups (m.zip l) := by
  cases m with
  | nil => exact absurd rfl hm
  | cons b m =>
    cases l with
    | nil => simp at h
    | cons x l =>
      have hlen : m.length = l.length := by simpa using h
      have := slicesFrom_groups 0 b x (m.zip l)
      rw [List.map_fst_zip (by omega), List.map_snd_zip (by omega)] at this
      simp only [slicesFrom, Nat.sub_zero, Nat.zero_add, List.length_zip, hlen, Nat.min_self] at this
      simpa using this

end Verif.Np
