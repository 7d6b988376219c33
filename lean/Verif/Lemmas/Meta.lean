import Verif.Lemmas.Sort
import Verif.Spec.Meta

/-! Lemmas on metadata. -/

namespace Verif.Meta

open Spec

theorem sortBy_perm_iff {α : Type} (key : α → String) (l₁ l₂ : List α)
    (h₁ : (l₁.map key).Nodup) :
    Sort.isort (fun a b => decide (key a ≤ key b)) l₁ =
      Sort.isort (fun a b => decide (key a ≤ key b)) l₂ ↔ l₁.Perm l₂ := by
  constructor
  · intro h
    exact (Sort.isort_perm l₁).symm.trans (h ▸ Sort.isort_perm l₂)
  · intro hp
    have hs : ∀ l : List α, (Sort.isort (fun a b => decide (key a ≤ key b)) l).Pairwise
        fun a b => decide (key a ≤ key b) = true := fun l =>
      Sort.isort_pairwise (fun a b c hab hbc => by
        simp only [decide_eq_true_eq] at *
        exact String.le_trans hab hbc) (fun a b => by
        simp only [Bool.or_eq_true, decide_eq_true_eq]
        exact String.le_total _ _) l
    have hp' := (Sort.isort_perm (le := fun a b => decide (key a ≤ key b)) l₁).trans
      (hp.trans (Sort.isort_perm (le := fun a b => decide (key a ≤ key b)) l₂).symm)
    refine List.Perm.eq_of_pairwise ?_ (hs l₁) (hs l₂) hp'
    intro a b ha hb hab hba
    simp only [decide_eq_true_eq] at hab hba
    have hk := String.le_antisymm hab hba
    have ha' := (Sort.isort_perm l₁).mem_iff.1 ha
    have hb' := hp.mem_iff.2 ((Sort.isort_perm l₂).mem_iff.1 hb)
    clear hs hp' ha hb hab hba hp
    induction l₁ with
    | nil => simp at ha'
    | cons x t ih =>
      rw [List.map_cons, List.nodup_cons] at h₁
      rcases List.mem_cons.1 ha' with rfl | ha2
      · rcases List.mem_cons.1 hb' with rfl | hb2
        · rfl
        · exact absurd (List.mem_map.2 ⟨b, hb2, hk.symm⟩) h₁.1
      · rcases List.mem_cons.1 hb' with rfl | hb2
        · exact absurd (List.mem_map.2 ⟨a, ha2, hk⟩) h₁.1
        · exact ih h₁.2 ha2 hb2

theorem getConfig_eq_iff (v w : Var) (hv : (v.attrs.map (·.1)).Nodup) :
    v.getConfig = w.getConfig ↔ SameVarMeta v w := by
  unfold Var.getConfig SameVarMeta
  rw [Var.mk.injEq]
  simp only [sortAttrs]
  rw [sortBy_perm_iff (fun a : Attr => a.1) _ _ hv]

theorem dictOf_nodup (acc vars : List Var) (h : ((acc ++ vars).map (·.name)).Nodup) :
    dictOf acc vars = acc ++ vars := by
  induction vars generalizing acc with
  | nil => simp [dictOf]
  | cons v t ih =>
    have hv : v.name ∉ acc.map (·.name) := by
      rw [List.map_append, List.nodup_append] at h
      intro hm
      exact h.2.2 _ hm _ (by simp) rfl
    rw [dictOf, if_neg hv, ih _ (by simpa using h)]
    simp

theorem dictOf_names_nodup (acc vars : List Var) (h : (acc.map (·.name)).Nodup) :
    ((dictOf acc vars).map (·.name)).Nodup := by
  induction vars generalizing acc with
  | nil => exact h
  | cons v t ih =>
    rw [dictOf]
    split
    · apply ih
      have : (acc.map fun w => if w.name = v.name then v else w).map (·.name) =
          acc.map (·.name) := by
        rw [List.map_map]
        apply List.map_congr_left
        intro w _
        by_cases hw : w.name = v.name <;> simp [hw]
      rw [this]
      exact h
    · next hn =>
      apply ih
      rw [List.map_append, List.nodup_append]
      refine ⟨h, by simp, ?_⟩
      intro a ha b hb hab
      simp only [List.map_cons, List.map_nil, List.mem_singleton] at hb
      subst hab hb
      exact hn ha

theorem getConfig_name (v : Var) : v.getConfig.name = v.name := rfl

/-- Sorting the variables and taking their configurations commute. -/
theorem sortVars_map (vars : List Var) :
    (sortVars vars).map Var.getConfig = sortVars (vars.map Var.getConfig) := by
  unfold sortVars
  induction vars with
  | nil => rfl
  | cons v t ih =>
    simp only [List.map_cons, Sort.isort, ← ih]
    generalize Sort.isort (fun a b : Var => decide (a.name ≤ b.name)) t = u
    induction u with
    | nil => rfl
    | cons y u ihu =>
      simp only [Sort.insort, List.map_cons, getConfig_name]
      by_cases h : v.name ≤ y.name
      · simp [h]
      · simp only [h, decide_false, Bool.false_eq_true, if_false]
        rw [List.map_cons, ihu]

theorem perm_getConfig_iff (l₁ l₂ : List Var) (h₁ : (l₁.map (·.name)).Nodup)
    (h₂ : (l₂.map (·.name)).Nodup) (ha : ∀ v ∈ l₁, (v.attrs.map (·.1)).Nodup) :
    (l₁.map Var.getConfig).Perm (l₂.map Var.getConfig) ↔
      (∀ v ∈ l₁, ∃ w ∈ l₂, SameVarMeta v w) ∧ ∀ w ∈ l₂, ∃ v ∈ l₁, SameVarMeta v w := by
  have nd : ∀ l : List Var, (l.map (·.name)).Nodup → (l.map Var.getConfig).Nodup := by
    intro l hl
    refine List.Pairwise.map _ ?_ (List.pairwise_map.1 hl)
    intro a b hab he
    exact hab (by rw [← getConfig_name a, he, getConfig_name])
  rw [List.perm_ext_iff_of_nodup (nd _ h₁) (nd _ h₂)]
  constructor
  · intro h
    constructor
    · intro v hv
      obtain ⟨w, hw, he⟩ := List.mem_map.1 ((h _).1 (List.mem_map_of_mem hv))
      exact ⟨w, hw, (getConfig_eq_iff v w (ha v hv)).1 he.symm⟩
    · intro w hw
      obtain ⟨v, hv, he⟩ := List.mem_map.1 ((h _).2 (List.mem_map_of_mem hw))
      exact ⟨v, hv, (getConfig_eq_iff v w (ha v hv)).1 he⟩
  · rintro ⟨h1, h2⟩ c
    constructor
    · intro hc
      obtain ⟨v, hv, rfl⟩ := List.mem_map.1 hc
      obtain ⟨w, hw, hs⟩ := h1 v hv
      exact List.mem_map.2 ⟨w, hw, ((getConfig_eq_iff v w (ha v hv)).2 hs).symm⟩
    · intro hc
      obtain ⟨w, hw, rfl⟩ := List.mem_map.1 hc
      obtain ⟨v, hv, hs⟩ := h2 w hw
      exact List.mem_map.2 ⟨v, hv, (getConfig_eq_iff v w (ha v hv)).2 hs⟩

theorem eq_iff_sameMeta (a b : Ds) (ha : WellFormed a) (hb : WellFormed b) :
    a.eq b = true ↔ SameMeta a b := by
  have nc : ((a.vars.map Var.getConfig).map (·.name)).Nodup := by
    rw [List.map_map]
    exact ha.1
  unfold Ds.eq Ds.getConfig SameMeta
  rw [decide_eq_true_eq, Ds.mk.injEq, ← perm_getConfig_iff _ _ ha.1 hb.1 ha.2.2.1, sortVars_map,
    sortVars_map]
  simp only [sortAttrs, sortVars]
  rw [sortBy_perm_iff (fun a : Attr => a.1) _ _ ha.2.1, sortBy_perm_iff (fun v : Var => v.name) _ _ nc]
  constructor
  · rintro ⟨h1, h2, h3, h4, h5⟩
    exact ⟨h1, h4, h5, h3, h2⟩
  · rintro ⟨h1, h4, h5, h3, h2⟩
    exact ⟨h1, h2, h3, h4, h5⟩

end Verif.Meta
