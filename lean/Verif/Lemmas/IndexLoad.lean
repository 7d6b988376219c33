import Verif.Model.IndexLoad
import Verif.Spec.IndexLoad
import Verif.Props.Index
import Verif.Props.IndexQuery
import Verif.Props.Load

/-! Lemmas on the loads of what an index selects. -/

namespace Verif

open Spec Nd Ds Upd Ix

variable {V : Type}

/-! ### The order of the partitions -/

theorem keyLe_total (a b : Row) : (keyLe a b || keyLe b a) = true := by
  induction a generalizing b with
  | nil => simp [keyLe]
  | cons x s ih =>
    cases b with
    | nil => simp [keyLe]
    | cons y t =>
      simp only [keyLe]
      by_cases h : x = y
      · simp only [h, if_true]
        exact ih t
      · have h' : ¬ y = x := fun e => h e.symm
        rw [if_neg h, if_neg h']
        by_cases h1 : x.1 = y.1
        · rw [if_pos h1, if_pos h1.symm]
          have : x.2 ≠ y.2 := fun e => h (Prod.ext h1 e)
          simp only [Bool.or_eq_true, decide_eq_true_eq]
          omega
        · rw [if_neg h1, if_neg (fun e => h1 e.symm)]
          simp only [Bool.or_eq_true, decide_eq_true_eq]
          exact String.le_total _ _

theorem keyLe_trans (a b c : Row) (h1 : keyLe a b = true) (h2 : keyLe b c = true) :
    keyLe a c = true := by
  induction a generalizing b c with
  | nil => simp [keyLe]
  | cons x s ih =>
    cases b with
    | nil => simp [keyLe] at h1
    | cons y t =>
      cases c with
      | nil => simp [keyLe] at h2
      | cons z u =>
        simp only [keyLe] at h1 h2 ⊢
        by_cases hxy : x = y
        · subst hxy
          rw [if_pos rfl] at h1
          by_cases hxz : x = z
          · subst hxz
            rw [if_pos rfl] at h2 ⊢
            exact ih t u h1 h2
          · rw [if_neg hxz] at h2 ⊢
            exact h2
        · rw [if_neg hxy] at h1
          by_cases hyz : y = z
          · subst hyz
            rw [if_neg hxy]
            exact h1
          · rw [if_neg hyz] at h2
            obtain ⟨xn, xv⟩ := x
            obtain ⟨yn, yv⟩ := y
            obtain ⟨zn, zv⟩ := z
            simp only at h1 h2 ⊢
            by_cases e1 : xn = yn
            · subst e1
              rw [if_pos rfl] at h1
              by_cases e2 : xn = zn
              · subst e2
                rw [if_pos rfl] at h2
                simp only [decide_eq_true_eq] at h1 h2
                rw [if_neg (by simp; omega), if_pos rfl]
                simp only [decide_eq_true_eq]
                omega
              · rw [if_neg e2] at h2
                rw [if_neg (by simp [e2]), if_neg e2]
                exact h2
            · rw [if_neg e1] at h1
              by_cases e2 : yn = zn
              · subst e2
                rw [if_neg (by simp [e1]), if_neg e1]
                exact h1
              · rw [if_neg e2] at h2
                simp only [decide_eq_true_eq] at h1 h2
                have h3 := String.le_trans h1 h2
                have e3 : xn ≠ zn := by
                  intro e
                  subst e
                  exact e1 (String.le_antisymm h1 h2)
                rw [if_neg (by simp [e3]), if_neg e3]
                simpa using h3

theorem keyLe_before (p q : Row) (hk : p.map (·.1) = q.map (·.1)) (hne : p ≠ q)
    (h : keyLe p q = true) : Before p q := by
  induction p generalizing q with
  | nil =>
    cases q with
    | nil => exact absurd rfl hne
    | cons _ _ => simp at hk
  | cons x s ih =>
    cases q with
    | nil => simp at hk
    | cons y t =>
      simp only [List.map_cons, List.cons.injEq] at hk
      simp only [keyLe] at h
      by_cases hxy : x = y
      · subst hxy
        rw [if_pos rfl] at h
        obtain ⟨c, n, a, b, s', t', e1, e2, e3⟩ := ih t hk.2 (fun e => hne (by rw [e])) h
        exact ⟨x :: c, n, a, b, s', t', by rw [e1]; rfl, by rw [e2]; rfl, e3⟩
      · rw [if_neg hxy, if_pos hk.1] at h
        refine ⟨[], x.1, x.2, y.2, s, t, rfl, ?_, by simpa using h⟩
        show y :: t = (x.1, y.2) :: t
        rw [hk.1]

/-! ### Conditions on the rows and on the records -/

theorem matching_meets (op : String) (columns : List (String × List Int)) (r : Row) :
    Matching op columns r ↔ Meets op columns (rowValues r) := Iff.rfl

theorem meets_congr (op : String) (columns : List (String × List Int)) (f g : Values)
    (h : ∀ c ∈ columns, f c.1 = g c.1) : Meets op columns f ↔ Meets op columns g := by
  have h1 : ∀ c ∈ columns, (Meets1 f c ↔ Meets1 g c) := by
    intro c hc
    unfold Meets1
    rw [h c hc]
  have h2 : (columns.filter fun c => decide (Meets1 f c)) =
      columns.filter fun c => decide (Meets1 g c) :=
    List.filter_congr fun c hc => by rw [decide_eq_decide]; exact h1 c hc
  unfold Meets
  rw [h2]
  refine or_congr Iff.rfl (or_congr (and_congr_right fun _ => ?_) (or_congr (and_congr_right fun _ => ?_)
    (or_congr (and_congr_right fun _ => ?_) Iff.rfl)))
  · exact ⟨fun k c hc => (h1 c hc).1 (k c hc), fun k c hc => (h1 c hc).2 (k c hc)⟩
  · exact ⟨fun ⟨c, hc, k⟩ => ⟨c, hc, (h1 c hc).1 k⟩, fun ⟨c, hc, k⟩ => ⟨c, hc, (h1 c hc).2 k⟩⟩
  · constructor
    · rintro ⟨c, rest, rfl, k1, k2⟩
      exact ⟨c, rest, rfl, (h1 c (by simp)).1 k1, fun d hd k =>
        k2 d hd ((h1 d (by simp [hd])).2 k)⟩
    · rintro ⟨c, rest, rfl, k1, k2⟩
      exact ⟨c, rest, rfl, (h1 c (by simp)).2 k1, fun d hd k =>
        k2 d hd ((h1 d (by simp [hd])).1 k)⟩

theorem rowCovers_covers (r : Row) (j : Nat) : RowCovers r j ↔ ValuesCover (rowValues r) j := Iff.rfl

/-- A row belongs to one partition. -/
theorem inPart_same {p q : Row} {r : Row} (hk : p.map (·.1) = q.map (·.1)) (hp : InPart p r)
    (hq : InPart q r) : p = q := by
  induction p generalizing q with
  | nil => cases q with
    | nil => rfl
    | cons _ _ => simp at hk
  | cons x s ih =>
    cases q with
    | nil => simp at hk
    | cons y u =>
      simp only [List.map_cons, List.cons.injEq] at hk
      have e1 := hp x (by simp)
      have e2 := hq y (by simp)
      rw [← hk.1, e1, Option.some.injEq] at e2
      have : x = y := Prod.ext hk.1 e2
      rw [this, ih hk.2 (fun c hc => hp c (by simp [hc])) (fun c hc => hq c (by simp [hc]))]

end Verif
