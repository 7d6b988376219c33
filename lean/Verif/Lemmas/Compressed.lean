import Verif.Spec.Compressed
import Verif.Props.Chunks
import Verif.Props.Item
import Verif.Props.DatasetEffects

/-! Lemmas on compressed arrays. -/

namespace Verif

open Spec Nd Chunk Ca

variable {V : Type}

theorem selShape_ok {key : List Ix} {shape s : List Nat} (h : SelectionShape key shape s) :
    selShape key shape = .ok s := by
  induction h with
  | done shape => cases shape <;> rfl
  | int i n key shape s h1 h2 _ ih =>
    obtain ⟨p, hp, _⟩ := indexPositions_one h1 h2
    simp only [selShape, hp, bind, Except.bind, ih]
  | slice sl n pos key shape s h1 h2 _ ih =>
    have hs : forward sl = .ok () := by
      unfold forward
      cases hk : sl.step with
      | none => rfl
      | some k =>
        have := h1 k hk
        simp only
        rw [if_neg (by omega)]
    simp only [selShape, hs, h2, bind, Except.bind, ih]

theorem selShape_spec {key : List Ix} {shape s : List Nat} (h : selShape key shape = .ok s) :
    SelectionShape key shape s := by
  induction key generalizing shape s with
  | nil => simp only [selShape] at h; cases h; exact .done _
  | cons x key ih =>
    cases shape with
    | nil => cases x <;> simp [selShape] at h
    | cons n shape =>
      cases x with
      | int i =>
        simp only [selShape, bind, Except.bind] at h
        by_cases hi : -(n : Int) ≤ i ∧ i < n
        · obtain ⟨p, hp, _⟩ := indexPositions_one hi.1 hi.2
          simp only [hp] at h
          exact .int i n key shape s hi.1 hi.2 (ih h)
        · rw [indexPositions_bad hi] at h
          cases h
      | slice sl =>
        have key' : ∀ u, (∀ k, sl.step = some k → 0 ≤ k) → (do
            let pos ← positions n sl
            let rest ← selShape key shape
            .ok (pos.length :: rest) : Py (List Nat)) = .ok u →
            SelectionShape (.slice sl :: key) (n :: shape) u := by
          intro u hpos h
          cases hp : positions n sl with
          | error e => rw [hp] at h; cases h
          | ok pos =>
            simp only [hp, bind, Except.bind] at h
            cases hr : selShape key shape with
            | error e => rw [hr] at h; cases h
            | ok r =>
              simp only [hr] at h
              cases h
              refine .slice sl n pos key shape r ?_ hp (ih hr)
              intro k hk
              have h0 := hpos k hk
              have hne : k ≠ 0 := by
                rintro rfl
                simp [positions, hk] at hp
              omega
        cases hk : sl.step with
        | none =>
          simp only [selShape, forward, hk] at h
          exact key' s (fun k hk' => by rw [hk] at hk'; cases hk') h
        | some k =>
          by_cases hneg : k < 0
          · simp [selShape, forward, hk, hneg, bind, Except.bind] at h
          · simp only [selShape, forward, hk, if_neg hneg] at h
            exact key' s (fun k' hk' => by rw [hk] at hk'; cases hk'; omega) h

theorem selShape_error {key : List Ix} {shape : List Nat} {e : PyErr}
    (h : selShape key shape = .error e) : e = .valueError ∨ e = .indexError := by
  induction key generalizing shape with
  | nil => simp only [selShape] at h; cases h
  | cons x key ih =>
    cases shape with
    | nil => simp only [selShape] at h; cases h; exact .inr rfl
    | cons n shape =>
      cases x with
      | int i =>
        simp only [selShape, bind, Except.bind] at h
        by_cases hi : -(n : Int) ≤ i ∧ i < n
        · obtain ⟨p, hp, _⟩ := indexPositions_one hi.1 hi.2
          simp only [hp] at h
          exact ih h
        · rw [indexPositions_bad hi] at h
          cases h
          exact .inr rfl
      | slice sl =>
        simp only [selShape, bind, Except.bind] at h
        split at h
        · next hf =>
          cases h
          unfold forward at hf
          split at hf
          · cases hf
          · split at hf
            · cases hf; exact .inr rfl
            · cases hf
        · split at h
          · next hp =>
            cases h
            simp only [positions] at hp
            split at hp
            · split at hp
              · cases hp; exact .inl rfl
              · cases hp
            · split at hp
              · cases hp; exact .inl rfl
              · cases hp
          · split at h
            · next hs => cases h; exact ih hs
            · cases h

theorem steps_forward (n : Nat) {lo hi st : Int} (hst : 0 < st) (hlo : 0 ≤ lo) (hhi : hi ≤ n) :
    let pos := (List.range (if lo < hi then (hi - lo - 1) / st + 1 else 0).toNat).map
      fun (k : Nat) => (lo + (k : Int) * st).toNat
    pos.Nodup ∧ ∀ p ∈ pos, p < n := by
  intro pos
  constructor
  · apply List.pairwise_map.2
    refine List.Pairwise.imp ?_ List.nodup_range
    intro a b hab heq
    have h1 : (0 : Int) ≤ (a : Int) * st := Int.mul_nonneg (by omega) (by omega)
    have h2 : (0 : Int) ≤ (b : Int) * st := Int.mul_nonneg (by omega) (by omega)
    have h3 : (a : Int) * st = (b : Int) * st := by omega
    have := Int.eq_of_mul_eq_mul_right (by omega) h3
    omega
  · intro p hp
    simp only [pos, List.mem_map, List.mem_range] at hp
    obtain ⟨k, hk, rfl⟩ := hp
    split at hk
    · next hlt =>
      have h1 : (k : Int) ≤ (hi - lo - 1) / st := by omega
      have h2 : (k : Int) * st ≤ hi - lo - 1 :=
        Int.le_trans (Int.mul_le_mul_of_nonneg_right h1 (by omega)) (Int.ediv_mul_le _ (by omega))
      have h3 : (0 : Int) ≤ (k : Int) * st := Int.mul_nonneg (by omega) (by omega)
      omega
    · simp at hk

/-- The positions of a slice that goes forward are distinct and within the bounds. -/
theorem positions_forward {n : Nat} {sl : Slice} {pos : List Nat}
    (hk : ∀ k, sl.step = some k → 0 < k) (h : positions n sl = .ok pos) :
    pos.Nodup ∧ ∀ p ∈ pos, p < n := by
  obtain ⟨start, stop, step⟩ := sl
  have key : ∀ st : Int, 0 < st → positions n ⟨start, stop, some st⟩ = .ok pos →
      pos.Nodup ∧ ∀ p ∈ pos, p < n := by
    intro st hst h
    simp only [positions] at h
    rw [if_neg (by omega)] at h
    simp only [show ¬ st < 0 by omega, if_false] at h
    have hb : ∀ x, 0 ≤ adjust n st x ∧ adjust n st x ≤ n := by
      intro x
      rw [adjust_up hst]
      omega
    cases start with
    | none =>
      cases stop with
      | none => cases h; exact steps_forward n hst (Int.le_refl _) (Int.le_refl _)
      | some y => cases h; exact steps_forward n hst (Int.le_refl _) (hb y).2
    | some x =>
      cases stop with
      | none => cases h; exact steps_forward n hst (hb x).1 (Int.le_refl _)
      | some y => cases h; exact steps_forward n hst (hb x).1 (hb y).2
  cases step with
  | none => exact key 1 (by omega) h
  | some st => exact key st (hk st rfl) h

theorem idxOf?_iff {l : List Nat} (h : l.Nodup) (p x : Nat) :
    l.idxOf? p = some x ↔ l[x]? = some p := by
  induction l generalizing x with
  | nil => simp
  | cons a t ih =>
    rw [List.nodup_cons] at h
    rw [List.idxOf?_cons]
    by_cases hap : a = p
    · subst hap
      simp only [beq_self_eq_true, if_true]
      cases x with
      | zero => simp
      | succ x =>
        simp only [List.getElem?_cons_succ]
        constructor
        · intro hh; cases hh
        · intro hh
          exact absurd (List.mem_of_getElem? hh) h.1
    · have : (a == p) = false := by simpa using hap
      simp only [this]
      cases x with
      | zero => simp [hap]
      | succ x =>
        simp only [List.getElem?_cons_succ, ← ih h.2 x]
        cases t.idxOf? p <;> simp

/-- The designated elements. -/
theorem project_iff {key : List Ix} {shape s : List Nat} (h : SelectionShape key shape s)
    {idx : List Nat} (hi : Inside shape idx) (j : List Nat) :
    project key shape idx = some j ↔ Designates key shape j idx := by
  induction h generalizing idx j with
  | done shape =>
    simp only [project]
    constructor
    · intro h; cases h; exact .done _ _
    · intro h; cases h; rfl
  | int i n key shape s h1 h2 _ ih =>
    cases idx with
    | nil => exact absurd hi (inside_cons_nil _ _)
    | cons p idx =>
      obtain ⟨hp, hi⟩ := (inside_cons _ _ _ _).1 hi
      simp only [project]
      by_cases hip : (if i < 0 then i + n else i) = (p : Int)
      · rw [if_pos hip, ih hi]
        constructor
        · intro h
          refine .int i n p key shape j idx hp ?_ h
          split at hip <;> omega
        · intro h
          cases h with
          | int _ _ _ _ _ _ _ _ _ h => exact h
      · rw [if_neg hip]
        constructor
        · intro h; cases h
        · intro h
          cases h with
          | int _ _ _ _ _ _ _ _ h3 h =>
            exfalso
            apply hip
            split <;> omega
  | slice sl n pos key shape s h1 h2 _ ih =>
    cases idx with
    | nil => exact absurd hi (inside_cons_nil _ _)
    | cons p idx =>
      obtain ⟨hp, hi⟩ := (inside_cons _ _ _ _).1 hi
      have hnd := (positions_forward h1 h2).1
      simp only [project, h2]
      cases hx : pos.idxOf? p with
      | none =>
        constructor
        · intro h; cases h
        · intro h
          cases h with
          | slice _ _ x _ pos' _ _ j' _ e1 e2 h =>
            rw [h2] at e1
            cases e1
            rw [← idxOf?_iff hnd, hx] at e2
            cases e2
      | some x =>
        simp only [Option.map_eq_some_iff]
        constructor
        · rintro ⟨j', h3, rfl⟩
          exact .slice sl n x p pos key shape j' idx h2 ((idxOf?_iff hnd p x).1 hx) ((ih hi _).1 h3)
        · intro h
          cases h with
          | slice _ _ y _ pos' _ _ j' _ e1 e2 h =>
            rw [h2] at e1
            cases e1
            rw [← idxOf?_iff hnd, hx] at e2
            cases e2
            exact ⟨j', (ih hi _).2 h, rfl⟩

/-- A designated element has an index within the shape of the selection. -/
theorem designates_inside {key : List Ix} {shape s : List Nat} (h : SelectionShape key shape s)
    {src j : List Nat} (hi : Inside shape src) (hd : Designates key shape j src) : Inside s j := by
  induction h generalizing src j with
  | done shape => cases hd; exact hi
  | int i n key shape s h1 h2 _ ih =>
    cases hd with
    | int _ _ p _ _ _ src _ _ hd => exact ih ((inside_cons _ _ _ _).1 hi).2 hd
  | slice sl n pos key shape s h1 h2 _ ih =>
    cases hd with
    | slice _ _ x p pos' _ _ j src e1 e2 hd =>
      rw [h2] at e1
      cases e1
      refine (inside_cons _ _ _ _).2 ⟨?_, ih ((inside_cons _ _ _ _).1 hi).2 hd⟩
      exact (List.getElem?_eq_some_iff.1 e2).1

/-- And every index within the shape of the selection designates an element. -/
theorem designates_total {key : List Ix} {shape s : List Nat} (h : SelectionShape key shape s)
    {j : List Nat} (hj : Inside s j) : ∃ src, Inside shape src ∧ Designates key shape j src := by
  induction h generalizing j with
  | done shape => exact ⟨j, hj, .done _ _⟩
  | int i n key shape s h1 h2 _ ih =>
    obtain ⟨src, e1, e2⟩ := ih hj
    obtain ⟨p, _, p2, p3⟩ := indexPositions_one h1 h2
    exact ⟨p :: src, (inside_cons _ _ _ _).2 ⟨p2, e1⟩, .int i n p key shape j src p2 p3 e2⟩
  | slice sl n pos key shape s h1 h2 _ ih =>
    cases j with
    | nil => exact absurd hj (inside_cons_nil _ _)
    | cons x j =>
      obtain ⟨hx, hj⟩ := (inside_cons _ _ _ _).1 hj
      obtain ⟨src, e1, e2⟩ := ih hj
      refine ⟨pos[x] :: src, (inside_cons _ _ _ _).2
        ⟨(positions_forward h1 h2).2 _ (List.getElem_mem hx), e1⟩, ?_⟩
      exact .slice sl n x _ pos key shape j src h2 (List.getElem?_eq_getElem hx) e2

theorem selection_allowed {key : List Ix} {shape s : List Nat} (h : SelectionShape key shape s) :
    Allowed key shape := by
  induction h with
  | done shape => exact .done _
  | int i n key shape s h1 h2 _ ih => exact .int i n key shape h1 h2 ih
  | slice sl n pos key shape s h1 h2 _ ih =>
    refine .slice sl n key shape ?_ ih
    intro h0
    have := h1 0 h0
    omega

/-- What is read after an assignment. -/
theorem read_assigned (z : ZArray V) (key : List Ix) (v : Value V) (idx : List Nat)
    (hl : idx.length = z.chunk.length) (hp : ∀ c ∈ z.chunk, 0 < c) :
    (assigned z key v).read idx = match target key z.shape idx with
      | some j => v.get j
      | none => z.read idx := by
  have hg := globalIdx_self z.chunk idx hl
  have hm := within_mem z.chunk idx hl hp
  unfold ZArray.read assigned
  simp only
  by_cases hany : (indices z.chunk).any (fun l => (target key z.shape (globalIdx z.chunk
      (chunkOf z.chunk idx) l)).isSome) = true
  · rw [if_pos hany]
    simp only [hg]
    rfl
  · rw [if_neg hany]
    have : target key z.shape idx = none := by
      cases ht : target key z.shape idx with
      | none => rfl
      | some j =>
        exfalso
        apply hany
        rw [List.any_eq_true]
        exact ⟨_, hm, by rw [hg, ht]; rfl⟩
    rw [this]

end Verif
