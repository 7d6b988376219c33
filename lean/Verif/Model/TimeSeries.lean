import Verif.Model.Period
import Verif.Model.Numpy

/-!
Model of `zcollection/merging/time_series.py`.

A dataset is modelled by the list of its records along the partitioning dimension; a
record is a pair of its time on the merging axis and the content `α` of all its variables.
Simplifications: the two axes have the same dtype (one tick is one unit of it), which the
metadata check of the insertion enforces; the axis has no masked value; variables that do
not have the partitioning dimension are left out (they are removed from the dataset before
the insertion, collection/__init__.py:377-386).
-/

namespace Verif.TS

variable {α : Type}

/-- A record: time and content. -/
abbrev Rec (α : Type) := Int × α

/-- `ds.variables[axis].values`. -/
def axis (ds : List (Rec α)) : List Int := ds.map (·.1)

/-- `ds.isel({dim: indices})` (dataset.py:533-556). -/
def iselIdx (ds : List (Rec α)) (idx : List Nat) : List (Rec α) := Np.takeIdx ds idx

/-- `ds.isel({dim: slice(i, j)})` (dataset.py:533-556). -/
def iselSlice (ds : List (Rec α)) (i j : Nat) : List (Rec α) := Np.slice ds i j

/-- merging/time_series.py:16-89 (`_merge_time_series`). -/
def mergeOne (existing inserted : List (Rec α)) : Py (List (Rec α)) := do
  let emin ← Np.amin (axis existing)
  let emax ← Np.amax (axis existing)
  let existingPeriod := Period.mk' ⟨emin, 1⟩ ⟨emax, 1⟩ true
  let imin ← Np.amin (axis inserted)
  let imax ← Np.amax (axis inserted)
  let insertedPeriod := Period.mk' ⟨imin, 1⟩ ⟨imax, 1⟩ true
  let relation ← insertedPeriod.relation existingPeriod
  if relation.isBefore then
    return inserted ++ existing
  if relation.isAfter then
    return existing ++ inserted
  if relation.contains then
    return inserted
  let intersection := insertedPeriod.intersection existingPeriod
  if relation.isBeforeOverlapping then
    let indices := Np.where ((axis existing).map fun t => decide (t > intersection.end.t))
    return inserted ++ iselIdx existing indices
  if relation.isAfterOverlapping then
    let indices := Np.where ((axis existing).map fun t => decide (t < intersection.begin.t))
    return iselIdx existing indices ++ inserted
  if !relation.isInside then
    throw .assertionError
  let index := Np.where ((axis existing).map fun t => decide (t < intersection.begin.t))
  let before := iselSlice existing 0 ((← Np.last index) + 1)
  let index := Np.where ((axis existing).map fun t => decide (t > intersection.end.t))
  let after := iselSlice existing (← Np.first index) ((← Np.last index) + 1)
  return before ++ (inserted ++ after)

/-- merging/time_series.py:133-139: positions where the inserted axis is cut.  The array
`delta` starts with 0 and `numpy.roll(_, 0)` is the identity. -/
def gapIndex (tolerance : Int) (inserted : List (Rec α)) : List Nat :=
  let delta := 0 :: Np.diff (axis inserted)
  0 :: Np.where (delta.map fun d => decide (d > tolerance)) ++ [inserted.length]

/-- merging/time_series.py:146-152: the pieces are merged one after the other. -/
def mergePieces (inserted : List (Rec α)) :
    List (Nat × Nat) → List (Rec α) → Py (List (Rec α))
  | [], existing => .ok existing
  | (i, j) :: rest, existing => do
    let existing ← mergeOne existing (iselSlice inserted i j)
    mergePieces inserted rest existing

/-- merging/time_series.py:92-153 (`merge_time_series`).  With a tolerance the index array
has at least two elements, so the test of line 143 is true; without it the array is
empty and the test is false. -/
def mergeTimeSeries (existing inserted : List (Rec α)) (tolerance : Option Int) :
    Py (List (Rec α)) :=
  match tolerance with
  | some tol => mergePieces inserted (Np.pairs (gapIndex tol inserted)) existing
  | none => mergeOne existing inserted

end Verif.TS
