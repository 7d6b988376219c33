import Verif.Model.Py

/-!
Model of `zcollection/merging/period.py`.
-/

namespace Verif

/-- A `numpy.datetime64`: `t` is the instant in ticks of a resolution at least as fine as
every unit in use, `u` the length of the unit of its dtype in the same ticks.
Simplification: the calendar units `M` and `Y` have no fixed length and are left out;
NaT and int64 overflow are not modelled. -/
structure Dt where
  t : Int
  u : Int
  deriving DecidableEq, Repr

/-- merging/period.py:206: the slots of `Period` (`_begin`, `_duration_unit`, `_last`).
Comparisons between datetimes of different units compare instants, as numpy does. -/
structure Period where
  begin : Dt
  durationUnit : Int
  last : Dt
  deriving DecidableEq, Repr

namespace Period

/-- merging/period.py:208-222 (`__init__`) with 36-39 (`_min_time64_unit`): the unit is the
finer of the units of the two bounds; the last instant is `end` if `within`, else `end`
minus one unit (numpy gives the difference the finer unit). -/
def mk' (begin «end» : Dt) (within : Bool := false) : Period :=
  let du := min begin.u «end».u
  { begin := begin, durationUnit := du,
    last := if within then «end» else ⟨«end».t - du, min «end».u du⟩ }

/-- merging/period.py:234-245 (`from_duration`): the duration has a value and a unit. -/
def fromDuration (begin : Dt) (duration durationU : Int) : Period :=
  mk' begin ⟨begin.t + duration, min begin.u durationU⟩

/-- merging/period.py:257-259 (`end`): one past the last element. -/
def «end» (p : Period) : Dt := ⟨p.last.t + p.durationUnit, min p.last.u p.durationUnit⟩

/-- merging/period.py:261-263 (`is_null`). -/
def isNull (p : Period) : Bool := decide (p.end.t ≤ p.begin.t)

/-- merging/period.py:265-270 (`length`). -/
def length (p : Period) : Int :=
  if p.last.t < p.begin.t then p.last.t + p.durationUnit - p.begin.t
  else p.end.t - p.begin.t

/-- merging/period.py:282-285 (`__lt__`). -/
def lt (p q : Period) : Bool := decide (p.last.t < q.begin.t)

/-- merging/period.py:272-275 (`__eq__`). -/
def eq (p q : Period) : Bool := decide (p.begin.t = q.begin.t) && decide (p.last.t = q.last.t)

/-- merging/period.py:287-294 (`shift`), returning the new value. -/
def shift (p : Period) (d : Int) : Period :=
  { p with begin := ⟨p.begin.t + d, p.begin.u⟩, last := ⟨p.last.t + d, p.last.u⟩ }

/-- merging/period.py:296-319 (`expand`), returning the new value. -/
def expand (p : Period) (d : Int) : Period :=
  { p with begin := ⟨p.begin.t - d, p.begin.u⟩, last := ⟨p.last.t + d, p.last.u⟩ }

/-- merging/period.py:336-337 (`contains`, argument is a date). -/
def containsDate (p : Period) (x : Dt) : Bool :=
  decide (p.begin.t ≤ x.t) && decide (x.t ≤ p.last.t)

/-- merging/period.py:338-339 (`contains`, argument is a period). -/
def contains (p q : Period) : Bool :=
  decide (p.begin.t ≤ q.begin.t) && decide (p.last.t ≥ q.last.t)

/-- merging/period.py:360 (`is_adjacent`). -/
def isAdjacent (p q : Period) : Bool :=
  decide (q.begin.t = p.end.t) || decide (p.begin.t = q.end.t)

/-- merging/period.py:379-382 (`is_after`). -/
def isAfter (p : Period) (x : Dt) : Bool :=
  if p.isNull then false else decide (x.t < p.begin.t)

/-- merging/period.py:402-405 (`is_before`). -/
def isBefore (p : Period) (x : Dt) : Bool :=
  if p.isNull then false else decide (p.last.t < x.t)

/-- merging/period.py:427-429 (`intersects`). -/
def intersects (p q : Period) : Bool :=
  p.containsDate q.begin || q.containsDate p.begin
    || (decide (q.begin.t < p.begin.t) && decide (q.last.t ≥ p.begin.t))

/-- merging/period.py:440-447 (`intersection`). -/
def intersection (p q : Period) : Period :=
  if p.begin.t > q.begin.t then
    if p.last.t ≤ q.last.t then p else mk' p.begin q.end
  else if p.last.t ≤ q.last.t then mk' q.begin p.end
  else q

/-- merging/period.py:458-467 (`merge`). -/
def merge (p q : Period) : Period :=
  if p.intersects q then
    if p.begin.t < q.begin.t then
      mk' p.begin (if p.last.t > q.last.t then p.end else q.end)
    else mk' q.begin (if p.last.t > q.last.t then p.end else q.end)
  else mk' p.begin p.begin

/-- merging/period.py:493-497 (`span`). -/
def span (p q : Period) : Period :=
  mk' (if p.begin.t < q.begin.t then p.begin else q.begin)
    (if p.last.t < q.last.t then q.end else p.end)

end Period

/-- merging/period.py:42-154: the thirteen relations, in the order of their values. -/
inductive Rel where
  | after
  | startTouching
  | startInside
  | insideStartTouching
  | enclosingStartTouching
  | enclosing
  | enclosingEndTouching
  | exactMatch
  | inside
  | insideEndTouching
  | endInside
  | endTouching
  | before
  deriving DecidableEq, Repr

namespace Rel

/-- merging/period.py:156-160. -/
def isAfter (r : Rel) : Bool := r = .after

/-- merging/period.py:162-166. -/
def isBefore (r : Rel) : Bool := r = .before

/-- merging/period.py:168-173. -/
def contains (r : Rel) : Bool :=
  r ∈ [Rel.enclosingEndTouching, .enclosingStartTouching, .enclosing, .exactMatch]

/-- merging/period.py:175-180. -/
def isBeforeOverlapping (r : Rel) : Bool :=
  r ∈ [Rel.endInside, .endTouching, .insideStartTouching]

/-- merging/period.py:182-187. -/
def isAfterOverlapping (r : Rel) : Bool :=
  r ∈ [Rel.startInside, .startTouching, .insideEndTouching]

/-- merging/period.py:189-193. -/
def isInside (r : Rel) : Bool := r = .inside

end Rel

namespace Period

/-- merging/period.py:502-525 (`_get_direct_relation`). -/
def directRelation (p q : Period) : Option Rel :=
  if q.last.t < p.begin.t then some .after
  else if q.begin.t > p.last.t then some .before
  else if q.begin.t = p.begin.t ∧ q.last.t = p.last.t then some .exactMatch
  else if q.last.t = p.begin.t then some .startTouching
  else if q.begin.t = p.last.t then some .endTouching
  else if p.contains q then
    if q.begin.t = p.begin.t then some .enclosingStartTouching
    else if q.last.t = p.last.t then some .enclosingEndTouching
    else some .enclosing
  else none

/-- merging/period.py:528-554 (`get_relation`); the `assert` of line 553 is the error. -/
def relation (p q : Period) : Py Rel :=
  match p.directRelation q with
  | some r => .ok r
  | none =>
    let s := q.containsDate p.begin
    let e := q.containsDate p.last
    if s && e then
      if q.begin.t = p.begin.t then .ok .insideStartTouching
      else if q.last.t = p.last.t then .ok .insideEndTouching
      else .ok .inside
    else if s then .ok .startInside
    else if e then .ok .endInside
    else .error .assertionError

end Period

end Verif
