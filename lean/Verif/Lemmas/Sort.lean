import Verif.Model.Sort

/-! Lemmas on the stable sort. -/

namespace Verif.Sort

variable {α : Type} {le : α → α → Bool}

theorem insort_perm (x : α) (l : List α) : (insort le x l).Perm (x :: l) := by
  induction l with
  | nil => exact List.Perm.refl _
  | cons y t ih =>
    simp only [insort]
    split
    · exact List.Perm.refl _
    · exact (ih.cons y).trans (List.Perm.swap x y t)

theorem isort_perm (l : List α) : (isort le l).Perm l := by
  induction l with
  | nil => exact List.Perm.refl _
  | cons x t ih => exact (insort_perm x _).trans (ih.cons x)

theorem insort_pairwise (trans : ∀ a b c, le a b = true → le b c = true → le a c = true)
    (total : ∀ a b, (le a b || le b a) = true) (x : α) (l : List α)
    (h : l.Pairwise fun a b => le a b = true) :
    (insort le x l).Pairwise fun a b => le a b = true := by
  induction l with
  | nil => simp [insort]
  | cons y t ih =>
    have hp := List.pairwise_cons.1 h
    simp only [insort]
    split
    · next hxy =>
      refine List.pairwise_cons.2 ⟨?_, h⟩
      intro z hz
      rcases List.mem_cons.1 hz with rfl | hz
      · exact hxy
      · exact trans _ _ _ hxy (hp.1 z hz)
    · next hxy =>
      refine List.pairwise_cons.2 ⟨?_, ih hp.2⟩
      intro z hz
      rw [(insort_perm x t).mem_iff] at hz
      rcases List.mem_cons.1 hz with rfl | hz
      · have := total z y
        simp only [Bool.or_eq_true] at this
        exact this.resolve_left hxy
      · exact hp.1 z hz

theorem isort_pairwise (trans : ∀ a b c, le a b = true → le b c = true → le a c = true)
    (total : ∀ a b, (le a b || le b a) = true) (l : List α) :
    (isort le l).Pairwise fun a b => le a b = true := by
  induction l with
  | nil => simp [isort]
  | cons x t ih => exact insort_pairwise trans total x _ ih

theorem isort_of_pairwise (l : List α) (h : l.Pairwise fun a b => le a b = true) :
    isort le l = l := by
  induction l with
  | nil => rfl
  | cons x t ih =>
    have hp := List.pairwise_cons.1 h
    rw [isort, ih hp.2]
    cases t with
    | nil => rfl
    | cons y t => simp [insort, hp.1 y (by simp)]

/-- A permutation sorted for an antisymmetric order is unique. -/
theorem eq_of_perm_of_sorted (antisymm : ∀ a b, le a b = true → le b a = true → a = b)
    {l₁ l₂ : List α} (hp : l₁.Perm l₂) (h₁ : l₁.Pairwise fun a b => le a b = true)
    (h₂ : l₂.Pairwise fun a b => le a b = true) : l₁ = l₂ := by
  induction l₁ generalizing l₂ with
  | nil => exact hp.nil_eq
  | cons a t ih =>
    cases l₂ with
    | nil => exact absurd hp.symm.nil_eq (by simp)
    | cons b s =>
      have h1 := List.pairwise_cons.1 h₁
      have h2 := List.pairwise_cons.1 h₂
      have hab : a = b := by
        have ha : a ∈ b :: s := hp.mem_iff.1 (by simp)
        have hb : b ∈ a :: t := hp.mem_iff.2 (by simp)
        rcases List.mem_cons.1 ha with h | ha
        · exact h
        · rcases List.mem_cons.1 hb with h | hb
          · exact h.symm
          · exact antisymm _ _ (h1.1 b hb) (h2.1 a ha)
      subst hab
      rw [ih hp.cons_inv h1.2 h2.2]

end Verif.Sort
