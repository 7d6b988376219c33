import Verif.Spec.Update
import Verif.Lemmas.DatasetOps

/-! Lemmas about the updates of a collection. -/

namespace Verif.Spec

open Spec Nd Ds Upd

variable {P V : Type}

theorem SameVar.refl (names : List String) (v : Var V) : SameVar names v v := by
  simp [SameVar]

theorem SameVars.refl (names : List String) (l : List (Var V)) : SameVars names l l := by
  induction l with
  | nil => trivial
  | cons v t ih => exact ⟨SameVar.refl names v, ih⟩

theorem SameVars.trans {names : List String} {a b c : List (Var V)} (h1 : SameVars names a b)
    (h2 : SameVars names b c) : SameVars names a c := by
  induction a generalizing b c with
  | nil =>
    cases b with
    | nil => exact h2
    | cons _ _ => exact h1.elim
  | cons v t ih =>
    cases b with
    | nil => exact h1.elim
    | cons w u =>
      cases c with
      | nil => exact h2.elim
      | cons x s =>
        obtain ⟨⟨a1, a2, a3, a4, a5, a6, a7⟩, h1⟩ := h1
        obtain ⟨⟨b1, b2, b3, b4, b5, b6, b7⟩, h2⟩ := h2
        exact ⟨⟨a1.trans b1, a2.trans b2, a3.trans b3, a4.trans b4, a5.trans b5, a6.trans b6,
          fun h => (a7 h).trans (b7 (a1 ▸ h))⟩, ih h1 h2⟩

theorem SameVars.mono {names names' : List String} (hs : ∀ n ∈ names, n ∈ names')
    {a b : List (Var V)} (h : SameVars names a b) : SameVars names' a b := by
  induction a generalizing b with
  | nil =>
    cases b with
    | nil => trivial
    | cons _ _ => exact h.elim
  | cons v t ih =>
    cases b with
    | nil => exact h.elim
    | cons w u =>
      obtain ⟨⟨a1, a2, a3, a4, a5, a6, a7⟩, h⟩ := h
      exact ⟨⟨a1, a2, a3, a4, a5, a6, fun h => a7 fun hc => h (hs _ hc)⟩, ih h⟩

theorem SameStore.refl (names : List String) (st : Store P V) : SameStore names st st := by
  intro p
  cases st p with
  | none => trivial
  | some vs => exact SameVars.refl names vs

theorem SameStore.trans {names : List String} {a b c : Store P V} (h1 : SameStore names a b)
    (h2 : SameStore names b c) : SameStore names a c := by
  intro p
  have h1 := h1 p
  have h2 := h2 p
  cases ha : a p <;> cases hb : b p <;> cases hc : c p <;> simp only [ha, hb, hc] at h1 h2 ⊢
  exact h1.trans h2

theorem SameStore.mono {names names' : List String} (hs : ∀ n ∈ names, n ∈ names')
    {a b : Store P V} (h : SameStore names a b) : SameStore names' a b := by
  intro p
  have h := h p
  cases ha : a p <;> cases hb : b p <;> simp only [ha, hb] at h ⊢
  exact h.mono hs

theorem SameVars.getVar {names : List String} {a b : List (Var V)} (h : SameVars names a b)
    (n : String) :
    (getVar a n = none ∧ getVar b n = none) ∨
    ∃ v w, getVar a n = some v ∧ getVar b n = some w ∧ SameVar names v w := by
  induction a generalizing b with
  | nil =>
    cases b with
    | nil => exact .inl ⟨rfl, rfl⟩
    | cons _ _ => exact h.elim
  | cons v t ih =>
    cases b with
    | nil => exact h.elim
    | cons w u =>
      obtain ⟨hv, h⟩ := h
      by_cases hn : v.name = n
      · exact .inr ⟨v, w, by simp [Ds.getVar, hn], by simp [Ds.getVar, ← hv.1, hn], hv⟩
      · have hw : ¬ w.name = n := by rw [← hv.1]; exact hn
        simpa [Ds.getVar, hn, hw] using ih h

end Verif.Spec

namespace Verif

open Spec Nd Ds Upd

variable {P V : Type}

/-! ### Writing -/

theorem getVar_cons (v : Var V) (t : List (Var V)) (n : String) :
    getVar (v :: t) n = if v.name = n then some v else getVar t n := by
  by_cases h : v.name = n <;> simp [getVar, h]

theorem sameVars_setVar {vars : List (Var V)} {n : String} {v : Var V} {a : Arr V}
    (hv : getVar vars n = some v) (hs : a.shape = v.array.shape) :
    SameVars [n] vars (setVar vars { v with array := a }) ∧
      getVar (setVar vars { v with array := a }) n = some { v with array := a } := by
  induction vars with
  | nil => simp [getVar] at hv
  | cons w t ih =>
    rw [getVar_cons] at hv
    split at hv
    · next hn =>
      cases hv
      simp only [setVar, if_true, getVar_cons]
      rw [if_pos hn]
      exact ⟨⟨⟨rfl, rfl, rfl, rfl, rfl, hs.symm, by simp [hn]⟩, SameVars.refl _ _⟩, rfl⟩
    · next hn =>
      have hvn := (getVar_some t n v hv).2
      obtain ⟨h1, h2⟩ := ih hv
      have : ¬ w.name = v.name := by rw [hvn]; exact hn
      simp only [setVar, this, if_false, getVar_cons, hn]
      exact ⟨⟨SameVar.refl _ _, h1⟩, h2⟩

theorem writeVar_spec {vars vars' : List (Var V)} {n : String} {a : Arr V}
    (h : writeVar vars n a = .ok vars') :
    SameVars [n] vars vars' ∧ ∃ v, getVar vars n = some v ∧ a.shape = v.array.shape ∧
      getVar vars' n = some { v with array := a } := by
  unfold writeVar at h
  split at h
  · cases h
  · next v hv =>
    split at h
    · cases h
    · next hs =>
      cases h
      have hs : a.shape = v.array.shape := Classical.byContradiction hs
      obtain ⟨h1, h2⟩ := sameVars_setVar hv hs
      exact ⟨h1, v, hv, hs, h2⟩

theorem setVar_self {vars : List (Var V)} {v : Var V} {n : String}
    (h : getVar vars n = some v) : setVar vars v = vars := by
  induction vars with
  | nil => simp [getVar] at h
  | cons w t ih =>
    rw [getVar_cons] at h
    split at h
    · cases h; simp [setVar]
    · next hn =>
      have hvn := (getVar_some t n v h).2
      have : ¬ w.name = v.name := by rw [hvn]; exact hn
      simp [setVar, this, ih h]

/-- Writing the array that is stored changes nothing. -/
theorem writeVar_self {vars vars' : List (Var V)} {n : String} {v : Var V}
    (hv : getVar vars n = some v) (h : writeVar vars n v.array = .ok vars') : vars' = vars := by
  unfold writeVar at h
  rw [hv] at h
  simp only [ne_eq, not_true_eq_false, if_false] at h
  cases h
  exact setVar_self hv

variable [DecidableEq P]

theorem writeItem_spec {st st' : Store P V} {p : P} {x : String × Py (Arr V)}
    (h : writeItem st p x = .ok st') :
    (∀ q, q ≠ p → st' q = st q) ∧ SameStore [x.1] st st' ∧
      ∃ a, x.2 = .ok a ∧ stored st' p x.1 = some a := by
  unfold writeItem at h
  simp only [bind, Except.bind] at h
  split at h
  · cases h
  · next a ha =>
    split at h
    · cases h
    · next vars hvars =>
      split at h
      · cases h
      · next vars' hw =>
        cases h
        obtain ⟨h1, v, h2, h3, h4⟩ := writeVar_spec hw
        refine ⟨fun q hq => by simp [setPart, hq], ?_, a, ha, ?_⟩
        · intro q
          by_cases hq : q = p
          · subst hq; simpa [setPart, hvars] using h1
          · simp only [setPart, hq, if_false]
            exact SameStore.refl [x.1] st q
        · simp only [stored, setPart, if_true]
          unfold getVar at h4
          rw [h4]
          rfl

/-- The result of a write depends on the partition only. -/
theorem writeItem_local {st st1 : Store P V} {p : P} (x : String × Py (Arr V))
    (h : st p = st1 p) :
    (∀ e, writeItem st p x = .error e → writeItem st1 p x = .error e) ∧
    ∀ st', writeItem st p x = .ok st' →
      ∃ st1', writeItem st1 p x = .ok st1' ∧ st1' p = st' p := by
  unfold writeItem
  simp only [bind, Except.bind]
  rw [h]
  cases x.2 with
  | error e => simp
  | ok a =>
    cases st1 p with
    | none => simp
    | some vars =>
      cases hw : writeVar vars x.1 a with
      | error e => simp [hw]
      | ok vars' =>
        refine ⟨fun e h => ?_, fun st' h => ?_⟩
        · simp only [hw] at h; cases h
        · simp only [hw] at h ⊢
          cases h
          exact ⟨_, rfl, by simp [setPart]⟩

theorem writeAll_spec {l : List (String × Py (Arr V))} {st st' : Store P V} {p : P}
    {r : Py Unit} (h : writeAll st p l = (st', r)) :
    (∀ q, q ≠ p → st' q = st q) ∧ SameStore (l.map (·.1)) st st' ∧
    (r = .ok () → (l.map (·.1)).Nodup → ∀ x ∈ l, ∃ a, x.2 = .ok a ∧
      stored st' p x.1 = some a) := by
  induction l generalizing st with
  | nil =>
    cases h
    exact ⟨fun _ _ => rfl, SameStore.refl _ _, by simp⟩
  | cons x t ih =>
    simp only [writeAll] at h
    split at h
    · cases h
      exact ⟨fun _ _ => rfl, SameStore.refl _ _, by simp⟩
    · next st1 hx =>
      obtain ⟨a1, a2, a, a3, a4⟩ := writeItem_spec hx
      obtain ⟨b1, b2, b3⟩ := ih h
      refine ⟨fun q hq => (b1 q hq).trans (a1 q hq), ?_, ?_⟩
      · exact (a2.mono (by simp)).trans (b2.mono (by simp +contextual))
      · intro hr hnd y hy
        rw [List.map_cons, List.nodup_cons] at hnd
        rcases List.mem_cons.1 hy with rfl | hy
        · refine ⟨a, a3, ?_⟩
          rw [← a4]
          have := b2 p
          unfold stored
          cases hs : st1 p <;> cases hs' : st' p <;> simp only [hs, hs'] at this ⊢
          rcases this.getVar y.1 with ⟨g1, g2⟩ | ⟨v, w, g1, g2, g3⟩
          · unfold getVar at g1 g2; rw [g1, g2]
          · have hvn := (getVar_some _ _ _ g1).2
            unfold getVar at g1 g2
            rw [g1, g2]
            simp only [Option.map_some, Option.some.injEq]
            exact (g3.2.2.2.2.2.2 (by rw [hvn]; exact hnd.1)).symm
        · exact b3 hr hnd.2 y hy

theorem writeAll_local {l : List (String × Py (Arr V))} {st st1 : Store P V} {p : P}
    (h : st p = st1 p) :
    (writeAll st p l).1 p = (writeAll st1 p l).1 p ∧
      (writeAll st p l).2 = (writeAll st1 p l).2 := by
  induction l generalizing st st1 with
  | nil => exact ⟨h, rfl⟩
  | cons x t ih =>
    obtain ⟨h1, h2⟩ := writeItem_local x h
    simp only [writeAll]
    cases hx : writeItem st p x with
    | error e => rw [h1 e hx]; exact ⟨h, rfl⟩
    | ok st' =>
      obtain ⟨st1', h3, h4⟩ := h2 st' hx
      rw [h3]
      exact ih h4.symm

end Verif
