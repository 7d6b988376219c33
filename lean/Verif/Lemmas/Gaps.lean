import Verif.Lemmas.TimeSeries
import Verif.Lemmas.Cuts

/-! Lemmas on the merge with a gap tolerance. -/

namespace Verif.TS

open Spec

variable {α : Type}

/-- The records of the dataset, marked where a gap precedes them. -/
def marked (tol : Int) (i : List (Rec α)) : List (Bool × Rec α) :=
  ((false :: (Np.diff (axis i)).map fun d => decide (d > tol)).zip i)

theorem diff_length (x : Int) (l : List Int) : (Np.diff (x :: l)).length = l.length := by
  induction l generalizing x with
  | nil => rfl
  | cons y l ih => simp [Np.diff, ih]

theorem gapIndex_slices (tol : Int) (htol : 0 ≤ tol) (i : List (Rec α)) (hi : i ≠ []) :
    (Np.pairs (gapIndex tol i)).map (fun p => iselSlice i p.1 p.2)
      = Np.groups (marked tol i) ∧ gapIndex tol i ≠ [] := by
  cases i with
  | nil => exact absurd rfl hi
  | cons x l =>
    have h0 : ¬ (0 > tol) := by omega
    refine ⟨?_, by simp [gapIndex]⟩
    have := Np.slices_where
      (false :: (Np.diff (axis (x :: l))).map fun d => decide (d > tol)) (x :: l)
      (by simp [axis, diff_length]) (by simp)
    unfold marked
    rw [← this]
    simp [gapIndex, h0, Np.where, Np.whereFrom, iselSlice]

theorem marked_cons_cons (tol : Int) (x y : Rec α) (l : List (Rec α)) :
    ∃ t, marked tol (y :: l) = (false, y) :: t ∧
      marked tol (x :: y :: l) = (false, x) :: (decide (y.1 - x.1 > tol), y) :: t := by
  refine ⟨((Np.diff (axis (y :: l))).map fun d => decide (d > tol)).zip l, by simp [marked], ?_⟩
  simp [marked, axis, Np.diff]

/-- The first mark does not matter. -/
theorem groups_mark (b b' : Bool) (x : α) (t : List (Bool × α)) :
    Np.groups ((b, x) :: t) = Np.groups ((b', x) :: t) := by
  cases t with
  | nil => rfl
  | cons p t => obtain ⟨c, y⟩ := p; simp [Np.groups]

/-- How the pieces of `x :: y :: l` arise from those of `y :: l`. -/
theorem pieces_step (tol : Int) (x y : Rec α) (l : List (Rec α)) :
    ∃ g gs, Np.groups (marked tol (y :: l)) = (y :: g) :: gs ∧
      Np.groups (marked tol (x :: y :: l)) =
        if y.1 - x.1 > tol then [x] :: (y :: g) :: gs else (x :: y :: g) :: gs := by
  obtain ⟨t, h1, h2⟩ := marked_cons_cons tol x y l
  obtain ⟨g, gs, h3, h4⟩ := Np.groups_cons false x (decide (y.1 - x.1 > tol)) y t
  rw [groups_mark _ false] at h3
  have hfl := Np.groups_flatten (marked tol (y :: l))
  have hne := Np.groups_nonempty (marked tol (y :: l))
  rw [h1, h3] at hfl hne
  have hg := hne g (by simp)
  cases g with
  | nil => exact absurd rfl hg
  | cons z g =>
    simp only [List.flatten_cons, List.map_cons, List.cons_append, List.cons.injEq] at hfl
    obtain ⟨rfl, _⟩ := hfl
    refine ⟨g, gs, by rw [h1, h3], ?_⟩
    rw [h2, h4]
    simp only [decide_eq_true_eq]

/-- The instants between two records of a piece. -/
def Span (g : List (Rec α)) (t : Int) : Prop := (∃ a ∈ g, a.1 ≤ t) ∧ ∃ b ∈ g, t ≤ b.1

theorem covered_cons_cons (tol x y : Int) (l : List Int) (t : Int) :
    Covered tol (x :: y :: l) t ↔
      t = x ∨ (x < t ∧ t < y ∧ y - x ≤ tol) ∨ Covered tol (y :: l) t := by
  constructor
  · rintro (h | ⟨pre, a, b, post, h, h1, h2, h3⟩)
    · rcases List.mem_cons.1 h with h | h
      · exact .inl h
      · exact .inr (.inr (.inl h))
    · cases pre with
      | nil =>
        simp only [List.nil_append, List.cons.injEq] at h
        obtain ⟨rfl, rfl, rfl⟩ := h
        exact .inr (.inl ⟨h1, h2, h3⟩)
      | cons p pre =>
        simp only [List.cons_append, List.cons.injEq] at h
        exact .inr (.inr (.inr ⟨pre, a, b, post, h.2, h1, h2, h3⟩))
  · rintro (rfl | h | h | ⟨pre, a, b, post, h, h1, h2, h3⟩)
    · exact .inl (by simp)
    · exact .inr ⟨[], x, y, l, rfl, h⟩
    · exact .inl (List.mem_cons_of_mem _ h)
    · exact .inr ⟨x :: pre, a, b, post, by rw [h]; rfl, h1, h2, h3⟩

theorem spans_covered (tol : Int) (i : List (Rec α)) (hs : StrictSorted i) (t : Int) :
    (∃ g ∈ Np.groups (marked tol i), Span g t) ↔ Covered tol (axis i) t := by
  induction i with
  | nil => simp [marked, Np.groups, Covered, axis]
  | cons x i ih =>
    cases i with
    | nil =>
      simp only [marked, axis, Np.diff, List.map_cons, List.map_nil, List.zip_cons_cons,
        List.zip_nil_right, Np.groups, List.mem_singleton, Span, exists_eq_left, Covered]
      constructor
      · intro h; left; omega
      · rintro (h | ⟨pre, a, b, post, h, -⟩)
        · omega
        · have := congrArg List.length h
          simp at this
          omega
    | cons y l =>
      have hs' := (List.pairwise_cons.1 hs).2
      have hxy : x.1 < y.1 := (List.pairwise_cons.1 hs).1 y (by simp)
      have hyl := (List.pairwise_cons.1 hs').1
      have ih := ih hs'
      obtain ⟨g, gs, h1, h2⟩ := pieces_step tol x y l
      have hfl := Np.groups_flatten (marked tol (y :: l))
      have hmapsnd : (marked tol (y :: l)).map (·.2) = y :: l := by
        simp only [marked]
        rw [List.map_snd_zip]
        simp [axis, diff_length]
      rw [hmapsnd, h1] at hfl
      simp only [List.flatten_cons, List.cons_append, List.cons.injEq, true_and] at hfl
      have hg : ∀ r ∈ g, y.1 < r.1 := fun r hr => hyl r (by rw [← hfl]; simp [hr])
      have hax : axis (x :: y :: l) = x.1 :: y.1 :: axis l := rfl
      rw [hax, covered_cons_cons]
      have hax' : axis (y :: l) = y.1 :: axis l := rfl
      rw [← hax', ← ih, h1, h2]
      have hspan : Span (y :: g) t ↔ y.1 ≤ t ∧ ∃ b ∈ y :: g, t ≤ b.1 := by
        unfold Span
        constructor
        · rintro ⟨⟨a, ha, hat⟩, hb⟩
          refine ⟨?_, hb⟩
          rcases List.mem_cons.1 ha with rfl | ha
          · exact hat
          · have := hg a ha; omega
        · rintro ⟨h, hb⟩
          exact ⟨⟨y, by simp, h⟩, hb⟩
      by_cases hgap : y.1 - x.1 > tol
      · simp only [hgap, if_true, List.mem_cons, exists_eq_or_imp]
        have : Span [x] t ↔ t = x.1 := by simp [Span]; omega
        rw [this]
        have hno : ¬ (x.1 < t ∧ t < y.1 ∧ y.1 - x.1 ≤ tol) := by omega
        simp [hno]
      · simp only [hgap, if_false, List.mem_cons, exists_eq_or_imp]
        have : Span (x :: y :: g) t ↔ t = x.1 ∨ (x.1 < t ∧ t < y.1 ∧ y.1 - x.1 ≤ tol) ∨
            Span (y :: g) t := by
          rw [hspan]
          constructor
          · rintro ⟨⟨a, ha, hat⟩, ⟨b, hb, hbt⟩⟩
            have hxt : x.1 ≤ t := by
              rcases List.mem_cons.1 ha with rfl | ha
              · exact hat
              rcases List.mem_cons.1 ha with rfl | ha
              · omega
              · have := hg a ha; omega
            by_cases e1 : t = x.1
            · exact .inl e1
            by_cases e2 : t < y.1
            · exact .inr (.inl (by omega))
            · refine .inr (.inr ⟨by omega, b, ?_, hbt⟩)
              rcases List.mem_cons.1 hb with rfl | hb
              · omega
              · exact hb
          · rintro (rfl | h | ⟨h, b, hb, hbt⟩)
            · exact ⟨⟨x, by simp, by omega⟩, ⟨x, by simp, by omega⟩⟩
            · exact ⟨⟨x, by simp, by omega⟩, ⟨y, by simp, by omega⟩⟩
            · exact ⟨⟨x, by simp, by omega⟩, ⟨b, List.mem_cons_of_mem _ hb, hbt⟩⟩
        rw [this]
        simp only [or_assoc]

theorem pieceEnd_cons (tol x : Int) (l : List Int) (a : Int) (h : PieceEnd tol l a) :
    PieceEnd tol (x :: l) a := by
  obtain ⟨pre, post, rfl, h⟩ := h
  exact ⟨x :: pre, post, rfl, h⟩

theorem groups_ends (tol : Int) (i : List (Rec α)) (hs : StrictSorted i) :
    ∀ g ∈ Np.groups (marked tol i), ∀ hi, IsMax hi (axis g) → PieceEnd tol (axis i) hi := by
  induction i with
  | nil => simp [marked, Np.groups]
  | cons x i ih =>
    cases i with
    | nil =>
      simp only [marked, axis, Np.diff, List.map_nil, List.map_cons, List.zip_cons_cons,
        List.zip_nil_right, Np.groups, List.mem_singleton]
      rintro g rfl hi hhi
      have : hi = x.1 := by simpa [axis] using hhi.1
      exact ⟨[], [], by simp [this], by simp⟩
    | cons y l =>
      have hs' := (List.pairwise_cons.1 hs).2
      have hxy : x.1 < y.1 := (List.pairwise_cons.1 hs).1 y (by simp)
      have ih := ih hs'
      obtain ⟨g, gs, h1, h2⟩ := pieces_step tol x y l
      rw [h1] at ih
      rw [h2]
      intro g' hg' hi hhi
      by_cases hgap : y.1 - x.1 > tol
      · simp only [hgap, if_true, List.mem_cons] at hg'
        rcases hg' with rfl | hg'
        · have : hi = x.1 := by simpa [axis] using hhi.1
          refine ⟨[], axis (y :: l), by simp [this, axis], ?_⟩
          intro b hb
          simp only [axis, List.map_cons, List.head?_cons, Option.some.injEq] at hb
          omega
        · exact pieceEnd_cons _ _ _ _ (ih g' (by simpa using hg') hi hhi)
      · simp only [hgap, if_false, List.mem_cons] at hg'
        rcases hg' with rfl | hg'
        · refine pieceEnd_cons _ _ _ _ (ih (y :: g) (by simp) hi ?_)
          have hy : y.1 ≤ hi := hhi.2 _ (by simp [axis])
          refine ⟨?_, fun z hz => hhi.2 z (List.mem_cons_of_mem _ hz)⟩
          have := hhi.1
          simp only [axis, List.map_cons, List.mem_cons] at this ⊢
          rcases this with h | h | h
          · omega
          · exact .inl h
          · exact .inr h
        · exact pieceEnd_cons _ _ _ _ (ih g' (by simp [hg']) hi hhi)

/-- Merging a list of pieces one after the other. -/
def mergeAll : List (List (Rec α)) → List (Rec α) → Py (List (Rec α))
  | [], e => .ok e
  | g :: gs, e => do
    let e ← mergeOne e g
    mergeAll gs e

theorem mergePieces_eq (i : List (Rec α)) (ps : List (Nat × Nat)) (e : List (Rec α)) :
    mergePieces i ps e = mergeAll (ps.map fun p => iselSlice i p.1 p.2) e := by
  induction ps generalizing e with
  | nil => rfl
  | cons p ps ih =>
    obtain ⟨a, b⟩ := p
    simp only [mergePieces, List.map_cons, mergeAll, bind, Except.bind]
    cases mergeOne e (iselSlice i a b) with
    | error _ => rfl
    | ok e' => exact ih e'

theorem axis_ne_nil {l : List (Rec α)} (h : l ≠ []) : axis l ≠ [] := by
  simpa [axis] using h

/-- One merge into a strictly sorted dataset without a record one tick after the piece. -/
theorem mergeOne_step (e g : List (Rec α)) (he : StrictSorted e) (hg : StrictSorted g)
    (hne : e ≠ []) (hgne : g ≠ []) (hend : ∀ hi, IsMax hi (axis g) → ∀ r ∈ e, r.1 ≠ hi + 1) :
    ∃ m, mergeOne e g = .ok m ∧ StrictSorted m ∧
      ∀ r, r ∈ m ↔ r ∈ g ∨ (r ∈ e ∧ ¬ Span g r.1) := by
  obtain ⟨lo, hlo⟩ := Np.exists_isMin (axis_ne_nil hgne)
  obtain ⟨hi, hhi⟩ := Np.exists_isMax (axis_ne_nil hgne)
  obtain ⟨elo, helo⟩ := Np.exists_isMin (axis_ne_nil hne)
  obtain ⟨ehi, hehi⟩ := Np.exists_isMax (axis_ne_nil hne)
  have hsorted : Sorted e := he.imp fun h => by omega
  have hend := hend hi hhi
  have hspan : ∀ t, Span g t ↔ lo ≤ t ∧ t ≤ hi := by
    intro t
    constructor
    · rintro ⟨⟨a, ha, hat⟩, ⟨b, hb, hbt⟩⟩
      have := hlo.2 _ (mem_axis ha)
      have := hhi.2 _ (mem_axis hb)
      omega
    · rintro ⟨h1, h2⟩
      obtain ⟨a, ha, rfl⟩ := List.mem_map.1 hlo.1
      obtain ⟨b, hb, rfl⟩ := List.mem_map.1 hhi.1
      exact ⟨⟨a, ha, h1⟩, ⟨b, hb, h2⟩⟩
  have hgl : ∀ r ∈ g, lo ≤ r.1 ∧ r.1 ≤ hi := fun r hr =>
    ⟨hlo.2 _ (mem_axis hr), hhi.2 _ (mem_axis hr)⟩
  have hel : ∀ r ∈ e, elo ≤ r.1 ∧ r.1 ≤ ehi := fun r hr =>
    ⟨helo.2 _ (mem_axis hr), hehi.2 _ (mem_axis hr)⟩
  rw [mergeOne_char e g hsorted lo hi elo ehi hlo hhi helo hehi]
  split
  · next hb =>
    refine ⟨_, rfl, ?_, ?_⟩
    · refine List.pairwise_append.2 ⟨hg, he, fun a ha b hb' => ?_⟩
      have := hgl a ha
      have := hel b hb'
      omega
    · intro r
      simp only [List.mem_append, hspan]
      constructor
      · rintro (h | h)
        · exact .inl h
        · have := hel r h
          exact .inr ⟨h, by omega⟩
      · rintro (h | h)
        · exact .inl h
        · exact .inr h.1
  · next hnb =>
    split
    · next hbad =>
      exfalso
      obtain ⟨r, hr, hrr⟩ := List.mem_map.1 hehi.1
      have h1 := hend r hr
      have h2 : r ∈ e.filter (fun r => decide (hi + 1 < r.1)) :=
        List.mem_filter.2 ⟨hr, by simp only [decide_eq_true_eq]; omega⟩
      rw [hbad.2.2] at h2
      simp at h2
    · refine ⟨_, rfl, ?_, ?_⟩
      · refine List.pairwise_append.2 ⟨List.pairwise_append.2 ⟨he.filter _, hg, ?_⟩,
          he.filter _, ?_⟩
        · intro a ha b hb
          have := hgl b hb
          have := (List.mem_filter.1 ha).2
          simp only [decide_eq_true_eq] at this
          omega
        · intro a ha b hb
          have hb := (List.mem_filter.1 hb).2
          simp only [decide_eq_true_eq] at hb
          rcases List.mem_append.1 ha with ha | ha
          · have ha := (List.mem_filter.1 ha).2
            simp only [decide_eq_true_eq] at ha
            have := hlo.2 _ hhi.1
            omega
          · have := hgl a ha
            omega
      · intro r
        simp only [List.mem_append, List.mem_filter, decide_eq_true_eq, hspan]
        constructor
        · rintro ((h | h) | h)
          · exact .inr ⟨h.1, by omega⟩
          · exact .inl h
          · exact .inr ⟨h.1, by omega⟩
        · rintro (h | ⟨h, h'⟩)
          · exact .inl (.inr h)
          · have := hend r h
            by_cases hlt : r.1 < lo
            · exact .inl (.inl ⟨h, hlt⟩)
            · exact .inr ⟨h, by omega⟩

theorem mergeAll_spec (gs : List (List (Rec α))) (e : List (Rec α)) (he : StrictSorted e)
    (hne : e ≠ []) (hgs : StrictSorted gs.flatten) (hgne : ∀ g ∈ gs, g ≠ [])
    (hend : ∀ g ∈ gs, ∀ hi, IsMax hi (axis g) → ∀ r ∈ e, r.1 ≠ hi + 1) :
    ∃ m, mergeAll gs e = .ok m ∧ StrictSorted m ∧
      ∀ r, r ∈ m ↔ r ∈ gs.flatten ∨ (r ∈ e ∧ ∀ g ∈ gs, ¬ Span g r.1) := by
  induction gs generalizing e with
  | nil => exact ⟨e, rfl, he, by simp⟩
  | cons g gs ih =>
    rw [List.flatten_cons] at hgs
    have hg := (List.pairwise_append.1 hgs).1
    have hcross := (List.pairwise_append.1 hgs).2.2
    obtain ⟨m, hm, hms, hmem⟩ := mergeOne_step e g he hg hne (hgne g (by simp))
      (hend g (by simp))
    have hmne : m ≠ [] := by
      intro h
      obtain ⟨r, hr⟩ := List.exists_mem_of_ne_nil g (hgne g (by simp))
      have := (hmem r).2 (.inl hr)
      rw [h] at this
      simp at this
    obtain ⟨m', hm', hms', hmem'⟩ := ih m hms hmne (List.pairwise_append.1 hgs).2.1
      (fun g' h => hgne g' (by simp [h])) (by
        intro g' hg' hi hhi r hr
        rcases (hmem r).1 hr with hr | ⟨hr, -⟩
        · obtain ⟨b, hb, hbh⟩ := List.mem_map.1 hhi.1
          have := hcross r hr b (List.mem_flatten.2 ⟨g', hg', hb⟩)
          omega
        · exact hend g' (by simp [hg']) hi hhi r hr)
    refine ⟨m', ?_, hms', ?_⟩
    · simp [mergeAll, hm, hm', bind, Except.bind]
    · intro r
      rw [hmem', hmem, List.flatten_cons, List.mem_append]
      constructor
      · rintro (h | ⟨h | ⟨h1, h2⟩, h3⟩)
        · exact .inl (.inr h)
        · exact .inl (.inl h)
        · refine .inr ⟨h1, ?_⟩
          intro g' hg'
          rcases List.mem_cons.1 hg' with rfl | hg'
          · exact h2
          · exact h3 g' hg'
      · rintro ((h | h) | ⟨h1, h2⟩)
        · refine .inr ⟨.inl h, ?_⟩
          rintro g' hg' ⟨⟨a, ha, hat⟩, -⟩
          have := hcross r h a (List.mem_flatten.2 ⟨g', hg', ha⟩)
          omega
        · exact .inl h
        · exact .inr ⟨.inr ⟨h1, h2 g (by simp)⟩, fun g' hg' => h2 g' (by simp [hg'])⟩

end Verif.TS
