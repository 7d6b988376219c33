import Verif.Model.Numpy
import Verif.Spec.TimeSeries

/-! Lemmas on the numpy primitives. -/

namespace Verif.Np

open Spec

variable {α β : Type}

theorem foldl_min_le (l : List Int) (x : Int) :
    l.foldl min x ≤ x ∧ (∀ y ∈ l, l.foldl min x ≤ y) ∧ (l.foldl min x = x ∨ l.foldl min x ∈ l) := by
  induction l generalizing x with
  | nil => simp
  | cons a l ih =>
    obtain ⟨h1, h2, h3⟩ := ih (min x a)
    simp only [List.foldl_cons, List.mem_cons]
    refine ⟨by omega, ?_, ?_⟩
    · rintro y (rfl | hy)
      · omega
      · exact h2 y hy
    · rcases h3 with h3 | h3
      · rw [h3]
        by_cases h : x ≤ a
        · left; omega
        · right; left; omega
      · exact .inr (.inr h3)

theorem foldl_max_ge (l : List Int) (x : Int) :
    x ≤ l.foldl max x ∧ (∀ y ∈ l, y ≤ l.foldl max x) ∧ (l.foldl max x = x ∨ l.foldl max x ∈ l) := by
  induction l generalizing x with
  | nil => simp
  | cons a l ih =>
    obtain ⟨h1, h2, h3⟩ := ih (max x a)
    simp only [List.foldl_cons, List.mem_cons]
    refine ⟨by omega, ?_, ?_⟩
    · rintro y (rfl | hy)
      · omega
      · exact h2 y hy
    · rcases h3 with h3 | h3
      · rw [h3]
        by_cases h : a ≤ x
        · left; omega
        · right; left; omega
      · exact .inr (.inr h3)

theorem isMin_unique {x y : Int} {l : List Int} (hx : IsMin x l) (hy : IsMin y l) : x = y :=
  Int.le_antisymm (hx.2 _ hy.1) (hy.2 _ hx.1)

theorem isMax_unique {x y : Int} {l : List Int} (hx : IsMax x l) (hy : IsMax y l) : x = y :=
  Int.le_antisymm (hy.2 _ hx.1) (hx.2 _ hy.1)

theorem amin_ok {l : List Int} {x : Int} : amin l = .ok x ↔ IsMin x l := by
  cases l with
  | nil => simp [amin, IsMin]
  | cons a l =>
    obtain ⟨h1, h2, h3⟩ := foldl_min_le l a
    have hm : IsMin (l.foldl min a) (a :: l) := by
      refine ⟨by simpa using h3, ?_⟩
      intro y hy
      rcases List.mem_cons.1 hy with rfl | hy
      · exact h1
      · exact h2 y hy
    simp only [amin, Except.ok.injEq]
    exact ⟨fun h => h ▸ hm, fun h => isMin_unique hm h⟩

theorem amax_ok {l : List Int} {x : Int} : amax l = .ok x ↔ IsMax x l := by
  cases l with
  | nil => simp [amax, IsMax]
  | cons a l =>
    obtain ⟨h1, h2, h3⟩ := foldl_max_ge l a
    have hm : IsMax (l.foldl max a) (a :: l) := by
      refine ⟨by simpa using h3, ?_⟩
      intro y hy
      rcases List.mem_cons.1 hy with rfl | hy
      · exact h1
      · exact h2 y hy
    simp only [amax, Except.ok.injEq]
    exact ⟨fun h => h ▸ hm, fun h => isMax_unique hm h⟩

theorem exists_isMin {l : List Int} (h : l ≠ []) : ∃ x, IsMin x l := by
  cases l with
  | nil => exact absurd rfl h
  | cons a l => exact ⟨_, amin_ok.1 rfl⟩

theorem exists_isMax {l : List Int} (h : l ≠ []) : ∃ x, IsMax x l := by
  cases l with
  | nil => exact absurd rfl h
  | cons a l => exact ⟨_, amax_ok.1 rfl⟩

theorem whereFrom_append (k : Nat) (m n : List Bool) :
    whereFrom k (m ++ n) = whereFrom k m ++ whereFrom (k + m.length) n := by
  induction m generalizing k with
  | nil => simp [whereFrom]
  | cons b m ih =>
    cases b <;> simp [whereFrom, ih, Nat.add_assoc, Nat.add_comm 1]

theorem whereFrom_all_false (k : Nat) (m : List Bool) (h : ∀ b ∈ m, b = false) :
    whereFrom k m = [] := by
  induction m generalizing k with
  | nil => rfl
  | cons b m ih =>
    have hb : b = false := h b (by simp)
    subst hb
    simp only [whereFrom]
    exact ih _ fun b hb => h b (by simp [hb])

theorem whereFrom_all_true (k : Nat) (m : List Bool) (h : ∀ b ∈ m, b = true) :
    whereFrom k m = List.range' k m.length := by
  induction m generalizing k with
  | nil => rfl
  | cons b m ih =>
    have hb : b = true := h b (by simp)
    subst hb
    simp only [whereFrom, List.length_cons, List.range'_succ]
    rw [ih _ fun b hb => h b (by simp [hb])]

theorem whereFrom_ge (k : Nat) (m : List Bool) : ∀ i ∈ whereFrom k m, k ≤ i ∧ i < k + m.length := by
  induction m generalizing k with
  | nil => simp [whereFrom]
  | cons b m ih =>
    intro i hi
    cases b with
    | true =>
      simp only [whereFrom, List.mem_cons] at hi
      rcases hi with rfl | hi
      · simp
      · have := ih _ i hi
        simp only [List.length_cons]; omega
    | false =>
      have := ih _ i hi
      simp only [List.length_cons]; omega

/-- Selecting the indices where a predicate holds is filtering. -/
theorem takeIdx_where (l : List α) (f : α → Bool) :
    takeIdx l («where» (l.map f)) = l.filter f := by
  suffices h : ∀ (pre l : List α),
      (whereFrom pre.length (l.map f)).filterMap ((pre ++ l)[·]?) = l.filter f by
    simpa [takeIdx, «where»] using h [] l
  intro pre l
  induction l generalizing pre with
  | nil => simp [whereFrom]
  | cons x l ih =>
    have h := ih (pre ++ [x])
    simp only [List.length_append, List.length_cons, List.length_nil, List.append_assoc,
      List.cons_append, List.nil_append] at h
    cases hx : f x with
    | true => simp [whereFrom, hx, h]
    | false => simp [whereFrom, hx, h]

theorem last_range' (a n : Nat) : last (List.range' a (n + 1)) = .ok (a + n) := by
  induction n generalizing a with
  | zero => rfl
  | succ n ih =>
    rw [List.range'_succ, List.range'_succ, last, ← List.range'_succ, ih]
    congr 1
    omega

theorem first_range' (a n : Nat) : first (List.range' a (n + 1)) = .ok a := by
  rw [List.range'_succ]; rfl

/-- A list sorted for a monotone predicate is cut in two by it. -/
theorem split_of_pairwise (l : List α) (f : α → Bool)
    (h : l.Pairwise fun a b => f b = true → f a = true) :
    l = l.filter f ++ l.filter (fun x => !f x) := by
  induction l with
  | nil => rfl
  | cons a l ih =>
    have hl := ih (List.pairwise_cons.1 h).2
    cases ha : f a with
    | true =>
      simp only [List.filter_cons, ha, if_true, List.cons_append, Bool.not_true,
        Bool.false_eq_true, if_false]
      rw [← hl]
    | false =>
      have hall : ∀ b ∈ l, f b = false := by
        intro b hb
        have := (List.pairwise_cons.1 h).1 b hb
        rw [ha] at this
        simpa using this
      have h1 : l.filter f = [] := by
        rw [List.filter_eq_nil_iff]; intro b hb; simp [hall b hb]
      have h2 : l.filter (fun x => !f x) = l := by
        rw [List.filter_eq_self]; intro b hb; simp [hall b hb]
      simp [ha, h1, h2]

theorem where_prefix (A B : List α) (f : α → Bool) (hA : ∀ a ∈ A, f a = true)
    (hB : ∀ b ∈ B, f b = false) :
    «where» ((A ++ B).map f) = List.range' 0 A.length := by
  rw [«where», List.map_append, whereFrom_append, whereFrom_all_true _ (A.map f),
    whereFrom_all_false _ (B.map f)]
  · simp
  · simpa using hB
  · simpa using hA

theorem where_suffix (A B : List α) (f : α → Bool) (hA : ∀ a ∈ A, f a = false)
    (hB : ∀ b ∈ B, f b = true) :
    «where» ((A ++ B).map f) = List.range' A.length B.length := by
  rw [«where», List.map_append, whereFrom_append, whereFrom_all_false _ (A.map f),
    whereFrom_all_true _ (B.map f)]
  · simp
  · simpa using hB
  · simpa using hA

end Verif.Np
