import Verif.Model.TimeSeries
import Verif.Model.Pipeline

/-!
`merge_time_series` on datasets (zcollection/merging/time_series.py), above the operations of
Model/Dataset.  Model/TimeSeries is the same function on lists of records.

Simplifications: the axis has one dimension; the axes of the two datasets have the same dtype
(one tick is one unit of it), which the metadata check of the insertion enforces; the axis has
no masked value.
-/

namespace Verif.TSD

open Nd Ds

variable {V : Type}

/-- What a merge works on: the times of the values of the axis (`none` is a value that cannot be
compared with dates), the name of the axis and the dimension of the partitioning. -/
structure Axis (V : Type) where
  asTime : V → Option Int
  axis : String
  dim : String

/-- One value of the axis as a date. -/
def timeOf (x : Axis V) (y : V) : Py Int :=
  match x.asTime y with
  | none => .error .typeError
  | some t => .ok t

/-- `ds.variables[axis].values` (merging/time_series.py:27-28, 135). -/
def times (x : Axis V) (ds : Dataset V) : Py (List Int) := do
  let v ← getVarE ds.vars x.axis
  mapPy (timeOf x) (Pipe.column v.array)

/-- The array of one variable in `isel` with an array of indices; the other axes are taken
whole. -/
def takeVar (dim : String) (indices : List Nat) (v : Var V) : Py (Var V) :=
  match v.dims.idxOf? dim with
  | none => .ok v
  | some ax =>
    match v.array.shape[ax]? with
    | none => .error .indexError
    | some n => do
      let pos ← indexPositions n (indices.map Int.ofNat)
      .ok { v with array := takeAxis ax pos v.array }

/-- dataset.py:533-556 `Dataset.isel` with an array of indices
(merging/time_series.py:61-62, 72-74). -/
def iselIndices (ds : Dataset V) (dim : String) (indices : List Nat) : Py (Dataset V) :=
  if ds.dims.lookup dim = none then .error .valueError
  else do
    let vars ← mapPy (takeVar dim indices) ds.vars
    derive ds vars (some ds.delayed)

/-- dataset.py:533-556 `Dataset.isel` with one slice. -/
def iselSlice (ds : Dataset V) (dim : String) (i j : Nat) : Py (Dataset V) :=
  isel ds [(dim, .slice ⟨some i, some j, none⟩)]

/-- merging/time_series.py:16-89 `_merge_time_series` -/
def mergeOne (x : Axis V) (existing inserted : Dataset V) : Py (Dataset V) := do
  let existingAxis ← times x existing
  let insertedAxis ← times x inserted
  let emin ← Np.amin existingAxis
  let emax ← Np.amax existingAxis
  let existingPeriod := Period.mk' ⟨emin, 1⟩ ⟨emax, 1⟩ true
  let imin ← Np.amin insertedAxis
  let imax ← Np.amax insertedAxis
  let insertedPeriod := Period.mk' ⟨imin, 1⟩ ⟨imax, 1⟩ true
  let relation ← insertedPeriod.relation existingPeriod
  if relation.isBefore then
    concat inserted [existing] x.dim
  else if relation.isAfter then
    concat existing [inserted] x.dim
  else if relation.contains then
    .ok inserted
  else
    let intersection := insertedPeriod.intersection existingPeriod
    if relation.isBeforeOverlapping then do
      let indices := Np.where (existingAxis.map fun t => decide (t > intersection.end.t))
      let kept ← iselIndices existing x.dim indices
      concat inserted [kept] x.dim
    else if relation.isAfterOverlapping then do
      let indices := Np.where (existingAxis.map fun t => decide (t < intersection.begin.t))
      let kept ← iselIndices existing x.dim indices
      concat kept [inserted] x.dim
    else if !relation.isInside then
      .error .assertionError
    else do
      let index := Np.where (existingAxis.map fun t => decide (t < intersection.begin.t))
      let last ← Np.last index
      let before ← iselSlice existing x.dim 0 (last + 1)
      let index := Np.where (existingAxis.map fun t => decide (t > intersection.end.t))
      let first ← Np.first index
      let last ← Np.last index
      let after ← iselSlice existing x.dim first (last + 1)
      concat before [inserted, after] x.dim

/-- merging/time_series.py:133-139: positions where the inserted axis is cut. -/
def gapIndex (tolerance : Int) (axis : List Int) : List Nat :=
  0 :: Np.where ((0 :: Np.diff axis).map fun d => decide (d > tolerance)) ++ [axis.length]

/-- merging/time_series.py:146-152: the pieces are merged one after the other. -/
def mergePieces (x : Axis V) (inserted : Dataset V) :
    List (Nat × Nat) → Dataset V → Py (Dataset V)
  | [], existing => .ok existing
  | (i, j) :: rest, existing => do
    let piece ← iselSlice inserted x.dim i j
    let existing ← mergeOne x existing piece
    mergePieces x inserted rest existing

/-- merging/time_series.py:92-153 `merge_time_series` -/
def mergeTimeSeries (x : Axis V) (tolerance : Option Int) (existing inserted : Dataset V) :
    Py (Dataset V) :=
  match tolerance with
  | some tol => do
    let axis ← times x inserted
    mergePieces x inserted (Np.pairs (gapIndex tol axis)) existing
  | none => mergeOne x existing inserted

end Verif.TSD
