import Verif.Spec.Period

/-!
C06, C07, C08: periods.
-/

namespace Verif

open Spec

private theorem mul_lt_add {u a b : Int} (hu : 0 < u) (ha : u ∣ a) (hb : u ∣ b) (h : a < b) :
    a + u ≤ b := by
  obtain ⟨x, rfl⟩ := ha
  obtain ⟨y, rfl⟩ := hb
  have hxy : x < y := Int.lt_of_mul_lt_mul_left h (Int.le_of_lt hu)
  have h1 : u * (x + 1) ≤ u * y := Int.mul_le_mul_of_nonneg_left hxy (Int.le_of_lt hu)
  rw [Int.mul_add, Int.mul_one] at h1
  exact h1

/-! ### C06: the relation between two periods -/

private theorem relation_sound (p q : Period) (hp : NonEmpty p) (hq : NonEmpty q) :
    ∃ r, p.relation q = .ok r ∧ RelHolds p.begin.t p.last.t q.begin.t q.last.t r := by
  unfold NonEmpty at hp hq
  simp only [Period.relation, Period.directRelation, Period.contains, Period.containsDate,
    Bool.and_eq_true, decide_eq_true_eq]
  split
  · next r h =>
    refine ⟨r, rfl, ?_⟩
    (repeat' split at h) <;> simp only [Option.some.injEq, reduceCtorEq] at h <;> subst h <;>
      simp only [RelHolds] <;> omega
  · next h =>
    (repeat' split at h) <;> simp only [reduceCtorEq] at h
    (repeat' split) <;> first
      | (refine ⟨_, rfl, ?_⟩; simp only [RelHolds]; omega)
      | omega

private theorem relHolds_unique {b1 l1 b2 l2 : Int} (h1 : b1 ≤ l1) (h2 : b2 ≤ l2) {r r' : Rel}
    (h : RelHolds b1 l1 b2 l2 r) (h' : RelHolds b1 l1 b2 l2 r') : r = r' := by
  cases r <;> cases r' <;> simp only [RelHolds] at h h' <;> first | rfl | (exfalso; omega)

/-- C06: for non-empty periods the computed relation is the one and only relation that
describes the two intervals. -/
theorem C06_relation_correct (p q : Period) (hp : NonEmpty p) (hq : NonEmpty q) (r : Rel) :
    p.relation q = .ok r ↔ RelHolds p.begin.t p.last.t q.begin.t q.last.t r := by
  obtain ⟨r', h1, h2⟩ := relation_sound p q hp hq
  constructor
  · intro h
    rw [h1] at h
    cases h
    exact h2
  · intro h
    rw [h1, relHolds_unique hp hq h h2]

/-- C06: the assertion inside the computation of the relation never fires, not even for
null periods. -/
theorem C06_relation_total (p q : Period) : ∃ r, p.relation q = .ok r := by
  simp only [Period.relation, Period.directRelation, Period.contains, Period.containsDate,
    Bool.and_eq_true, decide_eq_true_eq]
  split
  · exact ⟨_, rfl⟩
  · next h =>
    (repeat' split at h) <;> simp only [reduceCtorEq] at h
    (repeat' split) <;> first
      | exact ⟨_, rfl⟩
      | (exfalso; omega)

/-- C06: exchanging the arguments gives the converse relation. -/
theorem C06_relation_converse (p q : Period) (hp : NonEmpty p) (hq : NonEmpty q) (r : Rel) :
    p.relation q = .ok r ↔ q.relation p = .ok (converse r) := by
  rw [C06_relation_correct p q hp hq, C06_relation_correct q p hq hp]
  cases r <;> simp only [RelHolds, converse] <;> omega

/-- C06: the five groups of relations used by the callers are the ones of the interval
order: every relation falls in exactly one group, and the group says which part of the
second interval lies outside of the first. -/
theorem C06_groups (p q : Period) (hp : NonEmpty p) (hq : NonEmpty q) (r : Rel)
    (h : p.relation q = .ok r) :
    (r.isBefore = true ↔ p.last.t < q.begin.t) ∧
    (r.isAfter = true ↔ q.last.t < p.begin.t) ∧
    (r.contains = true → p.begin.t ≤ q.begin.t ∧ q.last.t ≤ p.last.t) ∧
    (r.isBeforeOverlapping = true →
      p.begin.t ≤ q.begin.t ∧ q.begin.t ≤ p.last.t ∧ p.last.t ≤ q.last.t) ∧
    (r.isAfterOverlapping = true →
      q.begin.t ≤ p.begin.t ∧ p.begin.t ≤ q.last.t ∧ q.last.t ≤ p.last.t) ∧
    (r.isInside = true ↔ q.begin.t < p.begin.t ∧ p.last.t < q.last.t) ∧
    ([r.isBefore, r.isAfter, r.contains, r.isBeforeOverlapping, r.isAfterOverlapping,
      r.isInside].count true = 1) := by
  have h' := (C06_relation_correct p q hp hq r).1 h
  unfold NonEmpty at hp hq
  cases r <;> simp only [RelHolds] at h' <;>
    simp [Rel.isBefore, Rel.isAfter, Rel.contains, Rel.isBeforeOverlapping,
      Rel.isAfterOverlapping, Rel.isInside] <;> omega

example : NonEmpty (.mk' ⟨0, 1⟩ ⟨5, 1⟩ true) ∧ NonEmpty (.mk' ⟨5, 1⟩ ⟨5, 1⟩ true) ∧
    Period.relation (.mk' ⟨0, 1⟩ ⟨5, 1⟩ true) (.mk' ⟨5, 1⟩ ⟨5, 1⟩ true) = .ok .endTouching := by
  refine ⟨by unfold NonEmpty; decide, by unfold NonEmpty; decide, by decide⟩

/-! ### C07: intersection -/

private theorem isNull_iff (p : Period) :
    p.isNull = true ↔ p.last.t + p.durationUnit ≤ p.begin.t := by
  unfold Period.isNull
  rw [decide_eq_true_eq]
  rfl

/-- C07: `is_null` recognises the periods without instants. -/
theorem C07_is_null (u : Int) (p : Period) (hp : InUnit u p) :
    p.isNull = true ↔ ∀ x, ¬ Mem p x := by
  have hd := mul_lt_add hp.pos hp.last_dvd hp.begin_dvd
  have hu := hp.pos
  have hdu := hp.dur_u
  rw [isNull_iff]
  simp only [Mem]
  constructor
  · intro h x hx
    omega
  · intro h
    have := h p.begin.t
    omega

/-- C07: for periods of the same unit, an instant belongs to the intersection exactly when
it belongs to both periods.  Null periods are included. -/
theorem C07_intersection_mem (u : Int) (p q : Period) (hp : InUnit u p) (hq : InUnit u q)
    (x : Int) : Mem (p.intersection q) x ↔ Mem p x ∧ Mem q x := by
  have h1 := hp.dur_u
  have h2 := hq.dur_u
  have h3 := hp.begin_u
  have h4 := hq.begin_u
  have h5 := hp.last_u
  have h6 := hq.last_u
  simp only [Period.intersection, Period.mk', Period.end, Mem]
  (repeat' split) <;> simp_all <;> omega

/-- C07: the intersection of two periods of the same unit is a period of that unit. -/
theorem C07_intersection_unit (u : Int) (p q : Period) (hp : InUnit u p) (hq : InUnit u q) :
    InUnit u (p.intersection q) := by
  obtain ⟨pos, a1, a2, a3, a4, a5⟩ := hp
  obtain ⟨_, b1, b2, b3, b4, b5⟩ := hq
  unfold Period.intersection
  (repeat' split)
  · exact ⟨pos, a1, a2, a3, a4, a5⟩
  · refine ⟨pos, a1, ?_, ?_, a4, ?_⟩ <;> simp [Period.mk', Period.end, *]
  · refine ⟨pos, b1, ?_, ?_, b4, ?_⟩ <;> simp [Period.mk', Period.end, *]
  · exact ⟨pos, b1, b2, b3, b4, b5⟩

/-- C07: the intersection is null exactly when the periods share no instant. -/
theorem C07_intersection_null (u : Int) (p q : Period) (hp : InUnit u p) (hq : InUnit u q) :
    (p.intersection q).isNull = true ↔ ∀ x, ¬ (Mem p x ∧ Mem q x) := by
  rw [C07_is_null u _ (C07_intersection_unit u p q hp hq)]
  exact forall_congr' fun x => not_congr (C07_intersection_mem u p q hp hq x)

/-- C07: `intersects` tells whether two non-empty periods share an instant (any units). -/
theorem C07_intersects (p q : Period) (hp : NonEmpty p) (hq : NonEmpty q) :
    p.intersects q = true ↔ ∃ x, Mem p x ∧ Mem q x := by
  unfold NonEmpty at hp hq
  simp only [Period.intersects, Period.containsDate, Bool.or_eq_true, Bool.and_eq_true,
    decide_eq_true_eq, Mem]
  constructor
  · intro h
    by_cases hx : p.begin.t ≤ q.begin.t
    · exact ⟨q.begin.t, by omega, by omega⟩
    · exact ⟨p.begin.t, by omega, by omega⟩
  · rintro ⟨x, hx⟩
    omega

/-- C07, limit of validity: when the two periods have different units, the intersection can
contain instants that are not in the first period. -/
theorem C07_mixed_units_counterexample :
    ∃ p q : Period, NonEmpty p ∧ NonEmpty q ∧
      (∀ x, x ∈ [p.begin.t, p.last.t] → p.begin.u ∣ x) ∧
      ∃ x, Mem (p.intersection q) x ∧ ¬ Mem p x := by
  -- p: three days (unit: 10 ticks), q: an interval with unit 1
  refine ⟨.mk' ⟨0, 10⟩ ⟨20, 10⟩ true, .mk' ⟨5, 1⟩ ⟨100, 1⟩ true, by unfold NonEmpty; decide,
    by unfold NonEmpty; decide, by decide, 25, ?_⟩
  unfold Mem
  decide

/-- C07, limit of validity: with a null period `intersects` can answer `True`. -/
theorem C07_intersects_null_counterexample :
    ∃ p q : Period, q.isNull = true ∧ p.intersects q = true := by
  refine ⟨.mk' ⟨0, 1⟩ ⟨5, 1⟩ true, .mk' ⟨2, 1⟩ ⟨2, 1⟩, ?_⟩
  decide

example : InUnit 10 (.mk' ⟨0, 10⟩ ⟨20, 10⟩ true) ∧ InUnit 10 (.mk' ⟨10, 10⟩ ⟨50, 10⟩) ∧
    (Period.intersection (.mk' ⟨0, 10⟩ ⟨20, 10⟩ true) (.mk' ⟨10, 10⟩ ⟨50, 10⟩)).last.t = 20 := by
  refine ⟨?_, ?_, by decide⟩ <;> constructor <;> decide

/-! ### C08: union, span, adjacency -/

/-- C08: if two non-empty periods of the same unit share an instant, the instants of the
merged period are those of one or the other; otherwise the merged period is null. -/
theorem C08_merge (u : Int) (p q : Period) (hp : InUnit u p) (hq : InUnit u q)
    (np : NonEmpty p) (nq : NonEmpty q) :
    ((∃ x, Mem p x ∧ Mem q x) → ∀ x, Mem (p.merge q) x ↔ Mem p x ∨ Mem q x) ∧
    ((p.merge q).isNull = true ↔ ∀ x, ¬ (Mem p x ∧ Mem q x)) := by
  have hi := C07_intersects p q np nq
  have h0 := hp.pos
  have h1 := hp.dur_u
  have h2 := hq.dur_u
  have h3 := hp.begin_u
  have h4 := hq.begin_u
  have h5 := hp.last_u
  have h6 := hq.last_u
  unfold NonEmpty at np nq
  cases hb : p.intersects q with
  | true =>
    have hex := hi.1 hb
    refine ⟨fun _ x => ?_, ?_⟩
    · obtain ⟨y, hy⟩ := hex
      simp only [Mem] at *
      simp only [Period.merge, hb, if_true, Period.mk', Period.end]
      (repeat' split) <;> simp_all <;> omega
    · obtain ⟨y, hy⟩ := hex
      constructor
      · intro h
        simp only [Mem] at *
        simp only [Period.merge, hb, if_true, Period.mk', Period.end, Period.isNull] at h
        (repeat' split at h) <;> simp_all <;> omega
      · intro h
        exact absurd hy (h y)
  | false =>
    have hno : ¬ ∃ x, Mem p x ∧ Mem q x := fun h => by simp [hi.2 h] at hb
    refine ⟨fun h => absurd h hno, ?_⟩
    constructor
    · intro _ x hx
      exact hno ⟨x, hx⟩
    · intro _
      simp [Period.merge, hb, Period.mk', Period.end, Period.isNull, h3]

/-- C08: the span of two non-empty periods of the same unit contains both, and is contained
in each interval that contains both. -/
theorem C08_span (u : Int) (p q : Period) (hp : InUnit u p) (hq : InUnit u q)
    (np : NonEmpty p) (nq : NonEmpty q) :
    (∀ x, Mem p x ∨ Mem q x → Mem (p.span q) x) ∧
    (∀ a b, (∀ x, Mem p x ∨ Mem q x → a ≤ x ∧ x ≤ b) →
      ∀ x, Mem (p.span q) x → a ≤ x ∧ x ≤ b) := by
  have h1 := hp.dur_u
  have h2 := hq.dur_u
  have h3 := hp.begin_u
  have h4 := hq.begin_u
  have h5 := hp.last_u
  have h6 := hq.last_u
  unfold NonEmpty at np nq
  constructor
  · intro x hx
    simp only [Mem] at *
    simp only [Period.span, Period.mk', Period.end]
    (repeat' split) <;> simp_all <;> omega
  · intro a b hab x hx
    have e1 := hab p.begin.t
    have e2 := hab p.last.t
    have e3 := hab q.begin.t
    have e4 := hab q.last.t
    simp only [Mem] at *
    simp only [Period.span, Period.mk', Period.end, h1, h2, h5, h6, Int.min_self] at hx
    by_cases c1 : p.begin.t < q.begin.t <;> by_cases c2 : p.last.t < q.last.t <;>
      simp only [c1, c2, if_true, if_false, h3, h4, Int.min_self, Bool.false_eq_true] at hx <;>
      omega

/-- C08: `contains`, `is_before`, `is_after`, `is_adjacent` and `<` agree with the sets of
instants. -/
theorem C08_order (u : Int) (p q : Period) (hp : InUnit u p) (hq : InUnit u q)
    (np : NonEmpty p) (nq : NonEmpty q) (d : Dt) :
    (p.containsDate d = true ↔ Mem p d.t) ∧
    (p.contains q = true ↔ ∀ x, Mem q x → Mem p x) ∧
    (p.isAfter d = true ↔ ∀ x, Mem p x → d.t < x) ∧
    (p.isBefore d = true ↔ ∀ x, Mem p x → x < d.t) ∧
    (p.lt q = true ↔ ∀ x y, Mem p x → Mem q y → x < y) ∧
    (p.isAdjacent q = true ↔ q.begin.t = p.last.t + u ∨ p.begin.t = q.last.t + u) := by
  have h0 := hp.pos
  have h1 := hp.dur_u
  have h2 := hq.dur_u
  unfold NonEmpty at np nq
  refine ⟨by simp [Period.containsDate, Mem], ?_, ?_, ?_, ?_, ?_⟩
  · simp only [Period.contains, Mem, Bool.and_eq_true, decide_eq_true_eq]
    exact ⟨fun h x hx => by omega, fun h => by have := h q.begin.t; have := h q.last.t; omega⟩
  · have hnull : p.isNull = false := by
      rw [Bool.eq_false_iff, Ne, isNull_iff]
      omega
    simp only [Period.isAfter, hnull, Mem, Bool.false_eq_true, if_false, decide_eq_true_eq]
    exact ⟨fun h x hx => by omega, fun h => h p.begin.t (by omega)⟩
  · have hnull : p.isNull = false := by
      rw [Bool.eq_false_iff, Ne, isNull_iff]
      omega
    simp only [Period.isBefore, hnull, Mem, Bool.false_eq_true, if_false, decide_eq_true_eq]
    exact ⟨fun h x hx => by omega, fun h => h p.last.t (by omega)⟩
  · simp only [Period.lt, Mem, decide_eq_true_eq]
    exact ⟨fun h x y hx hy => by omega, fun h => h p.last.t q.begin.t (by omega) (by omega)⟩
  · simp only [Period.isAdjacent, Period.end, Bool.or_eq_true, decide_eq_true_eq, h1, h2]

example : InUnit 1 (.mk' ⟨0, 1⟩ ⟨5, 1⟩ true) ∧ NonEmpty (.mk' ⟨0, 1⟩ ⟨5, 1⟩ true) ∧
    InUnit 1 (.mk' ⟨3, 1⟩ ⟨9, 1⟩) ∧ NonEmpty (.mk' ⟨3, 1⟩ ⟨9, 1⟩) := by
  refine ⟨?_, by unfold NonEmpty; decide, ?_, by unfold NonEmpty; decide⟩ <;>
    constructor <;> decide

/-- C08: the length of a non-empty period is its number of instants, counted in its unit. -/
theorem C08_length (u : Int) (p : Period) (hp : InUnit u p) (np : NonEmpty p) :
    ∃ n : Nat, 0 < n ∧ p.length = n * u ∧
      ∀ x, u ∣ x → (Mem p x ↔ ∃ i : Nat, i < n ∧ x = p.begin.t + i * u) := by
  have h0 := hp.pos
  have h1 := hp.dur_u
  obtain ⟨a, ha⟩ := hp.begin_dvd
  obtain ⟨b, hb⟩ := hp.last_dvd
  unfold NonEmpty at np
  have hab : a ≤ b := by
    rw [ha, hb] at np
    exact Int.le_of_mul_le_mul_left np h0
  refine ⟨(b - a + 1).toNat, by omega, ?_, ?_⟩
  · have hn : ((b - a + 1).toNat : Int) = b - a + 1 := by omega
    rw [hn, Period.length, if_neg (by omega)]
    simp only [Period.end, h1, ha, hb]
    rw [Int.add_mul, Int.sub_mul, Int.mul_comm b, Int.mul_comm a]
    omega
  · rintro x ⟨c, rfl⟩
    simp only [Mem, ha, hb]
    constructor
    · rintro ⟨hac, hcb⟩
      have hac := Int.le_of_mul_le_mul_left hac h0
      have hcb := Int.le_of_mul_le_mul_left hcb h0
      refine ⟨(c - a).toNat, by omega, ?_⟩
      have hn : ((c - a).toNat : Int) = c - a := by omega
      rw [hn, Int.sub_mul, Int.mul_comm c, Int.mul_comm a]
      omega
    · rintro ⟨i, hi, hx⟩
      have hc : c = a + i := by
        apply Int.eq_of_mul_eq_mul_left (Int.ne_of_gt h0)
        rw [hx, Int.mul_add, Int.mul_comm (i : Int)]
      subst hc
      exact ⟨Int.mul_le_mul_of_nonneg_left (by omega) (by omega),
        Int.mul_le_mul_of_nonneg_left (by omega) (by omega)⟩

/-- C08: `shift` moves the instants of a period and keeps its length; `expand` adds the given
duration on both sides. -/
theorem C08_shift_expand (p : Period) (d : Int) :
    (∀ x, Mem (p.shift d) x ↔ Mem p (x - d)) ∧
    (p.shift d).length = p.length ∧
    (∀ x, Mem (p.expand d) x ↔ p.begin.t - d ≤ x ∧ x ≤ p.last.t + d) ∧
    (p.expand d).length = p.length + 2 * d := by
  refine ⟨fun x => ?_, ?_, fun x => Iff.rfl, ?_⟩
  · simp only [Mem, Period.shift]
    omega
  · simp only [Period.length, Period.shift, Period.end]
    (repeat' split) <;> omega
  · simp only [Period.length, Period.expand, Period.end]
    (repeat' split) <;> omega

/-- C08: a period made from a beginning and a positive duration, both in the unit `u`, has this
length and holds the instants from the beginning, without the end. -/
theorem C08_from_duration (u : Int) (begin : Dt) (duration : Int) (h0 : 0 < u)
    (hu : begin.u = u) (hd : u ∣ duration) (hpos : 0 < duration) :
    (Period.fromDuration begin duration u).length = duration ∧
    (Period.fromDuration begin duration u).isNull = false ∧
    ∀ x, u ∣ x → u ∣ begin.t →
      (Mem (Period.fromDuration begin duration u) x ↔
        begin.t ≤ x ∧ x < begin.t + duration) := by
  obtain ⟨k, rfl⟩ := hd
  have hk : 0 < k := by
    refine Classical.byContradiction fun hc => ?_
    have := Int.mul_le_mul_of_nonneg_left (show k ≤ 0 by omega) (show 0 ≤ u by omega)
    omega
  have huk : u ≤ u * k := by
    have := Int.mul_le_mul_of_nonneg_left (show 1 ≤ k by omega) (show 0 ≤ u by omega)
    omega
  refine ⟨?_, ?_, ?_⟩
  · simp only [Period.fromDuration, Period.mk', Period.length, Period.end, hu, Int.min_self]
    simp only [Bool.false_eq_true, if_false]
    (repeat' split) <;> omega
  · simp only [Period.fromDuration, Period.mk', Period.isNull, Period.end, hu, Int.min_self]
    simp only [Bool.false_eq_true, if_false, decide_eq_false_iff_not]
    omega
  · rintro x ⟨c, rfl⟩ ⟨b, hb⟩
    simp only [Period.fromDuration, Period.mk', Mem, hu, Int.min_self, Bool.false_eq_true,
      if_false, hb]
    refine and_congr_right fun _ => ?_
    rw [← Int.mul_add]
    constructor
    · intro h
      omega
    · intro h
      have := Int.lt_of_mul_lt_mul_left h (by omega)
      have := Int.mul_le_mul_of_nonneg_left (show c + 1 ≤ b + k by omega) (show 0 ≤ u by omega)
      rw [Int.mul_add] at this
      omega

/-- C08: two non-empty periods are equal exactly when they have the same instants. -/
theorem C08_eq (p q : Period) (np : NonEmpty p) (nq : NonEmpty q) :
    p.eq q = true ↔ ∀ x, Mem p x ↔ Mem q x := by
  unfold NonEmpty at np nq
  simp only [Period.eq, Bool.and_eq_true, decide_eq_true_eq, Mem]
  constructor
  · rintro ⟨h1, h2⟩ x
    rw [h1, h2]
  · intro h
    have a := h p.begin.t
    have b := h q.begin.t
    have c := h p.last.t
    have d := h q.last.t
    omega

example : (Period.fromDuration ⟨20, 10⟩ 30 10).length = 30 ∧
    (Period.fromDuration ⟨20, 10⟩ 30 10).last.t = 40 ∧
    ((Period.fromDuration ⟨20, 10⟩ 30 10).expand 10).length = 50 := by decide

end Verif
