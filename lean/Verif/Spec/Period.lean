import Verif.Model.Period

/-!
Specification of periods: a period is the set of the instants between its first and its
last instant.  Nothing here uses the operations of the model.
-/

namespace Verif.Spec

/-- The instant `x` belongs to the period. -/
def Mem (p : Period) (x : Int) : Prop := p.begin.t ≤ x ∧ x ≤ p.last.t

/-- The period has at least one instant. -/
def NonEmpty (p : Period) : Prop := p.begin.t ≤ p.last.t

/-- The period is expressed in the unit `u`: both bounds have dtype unit `u` and hence are
multiples of `u`. -/
structure InUnit (u : Int) (p : Period) : Prop where
  pos : 0 < u
  begin_u : p.begin.u = u
  last_u : p.last.u = u
  dur_u : p.durationUnit = u
  begin_dvd : u ∣ p.begin.t
  last_dvd : u ∣ p.last.t

/-- What each relation says about two closed intervals `[b1, l1]` and `[b2, l2]`, read off
the drawings in the documentation of the enumeration (merging/period.py:46-154). -/
def RelHolds (b1 l1 b2 l2 : Int) : Rel → Prop
  | .after => l2 < b1
  | .before => l1 < b2
  | .exactMatch => b1 = b2 ∧ l1 = l2
  | .startTouching => b1 = l2 ∧ (b2 < b1 ∨ l2 < l1)
  | .endTouching => l1 = b2 ∧ (b1 < l1 ∨ b2 < l2)
  | .startInside => b2 < b1 ∧ b1 < l2 ∧ l2 < l1
  | .endInside => b1 < b2 ∧ b2 < l1 ∧ l1 < l2
  | .insideStartTouching => b1 = b2 ∧ b1 < l1 ∧ l1 < l2
  | .insideEndTouching => l1 = l2 ∧ b2 < b1 ∧ b1 < l1
  | .inside => b2 < b1 ∧ l1 < l2
  | .enclosingStartTouching => b1 = b2 ∧ b2 < l2 ∧ l2 < l1
  | .enclosingEndTouching => l1 = l2 ∧ b1 < b2 ∧ b2 < l2
  | .enclosing => b1 < b2 ∧ l2 < l1

/-- The relation of the second period with the first one. -/
def converse : Rel → Rel
  | .after => .before
  | .before => .after
  | .exactMatch => .exactMatch
  | .startTouching => .endTouching
  | .endTouching => .startTouching
  | .startInside => .endInside
  | .endInside => .startInside
  | .insideStartTouching => .enclosingStartTouching
  | .insideEndTouching => .enclosingEndTouching
  | .inside => .enclosing
  | .enclosingStartTouching => .insideStartTouching
  | .enclosingEndTouching => .insideEndTouching
  | .enclosing => .inside

end Verif.Spec
