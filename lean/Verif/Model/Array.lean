import Verif.Model.Py

/-!
The numpy (and dask) operations on arrays of any rank that zcollection uses.  These
definitions model numpy itself (a trusted reading of its documentation); each comment names
a place in `/repo` where the operation is used.
-/

namespace Verif.Nd

variable {V : Type}

/-- An array: its shape, and the value at an index, `none` outside of the bounds.
Simplification: dtypes are not modelled, `V` is the type of the values; a dask array is the
array it computes. -/
structure Arr (V : Type) where
  shape : List Nat
  get : List Nat → Option V

/-- The index lies within the bounds of the shape. -/
def inBounds : List Nat → List Nat → Bool
  | [], [] => true
  | x :: idx, n :: shape => decide (x < n) && inBounds idx shape
  | _, _ => false

/-- `numpy.full(shape, value)` (used in dataset.py:337-340). -/
def full (shape : List Nat) (v : V) : Arr V where
  shape := shape
  get idx := if inBounds idx shape then some v else none

/-- The array whose value at each index of `shape` is given by a function. -/
def tabulate (shape : List Nat) (f : List Nat → V) : Arr V where
  shape := shape
  get idx := if inBounds idx shape then some (f idx) else none

/-- A Python slice; `none` is `None`. -/
structure Slice where
  start : Option Int
  stop : Option Int
  step : Option Int
  deriving DecidableEq

/-- `slice(None)`. -/
def Slice.all : Slice := ⟨none, none, none⟩

/-- A bound of a slice for an axis of length `n` (CPython `PySlice_AdjustIndices`): negative
bounds count from the end, all bounds are clipped. -/
def adjust (n : Nat) (step : Int) (x : Int) : Int :=
  if x < 0 then
    if x + n < 0 then (if step < 0 then -1 else 0) else x + n
  else if x ≥ n then (if step < 0 then n - 1 else n) else x

/-- The positions designated by a slice of an axis of length `n`; a step of zero raises
`ValueError`. -/
def positions (n : Nat) (s : Slice) : Py (List Nat) :=
  let step := match s.step with | none => 1 | some k => k
  if step = 0 then .error .valueError
  else
    let start := match s.start with
      | none => if step < 0 then (n : Int) - 1 else 0
      | some x => adjust n step x
    let stop := match s.stop with
      | none => if step < 0 then -1 else (n : Int)
      | some x => adjust n step x
    let len : Int :=
      if step < 0 then (if stop < start then (start - stop - 1) / (-step) + 1 else 0)
      else (if start < stop then (stop - start - 1) / step + 1 else 0)
    .ok ((List.range len.toNat).map fun (k : Nat) => (start + (k : Int) * step).toNat)

/-- The positions of an index array; negative indices count from the end and an index out
of bounds raises `IndexError` (used in dataset.py:160-162). -/
def indexPositions (n : Nat) : List Int → Py (List Nat)
  | [] => .ok []
  | i :: t => do
    let rest ← indexPositions n t
    if -(n : Int) ≤ i ∧ i < n then
      .ok ((if i < 0 then i + n else i).toNat :: rest)
    else .error .indexError

/-- The positions `pos` of the axis `ax`, in the order of `pos`. -/
def takeAxis (ax : Nat) (pos : List Nat) (a : Arr V) : Arr V where
  shape := a.shape.set ax pos.length
  get idx := idx[ax]?.bind fun j => pos[j]?.bind fun p => a.get (idx.set ax p)

/-- The array at the position `p` of the axis `ax`, which disappears. -/
def dropAxis (ax : Nat) (p : Nat) (a : Arr V) : Arr V where
  shape := a.shape.eraseIdx ax
  get idx := a.get (idx.take ax ++ p :: idx.drop ax)

/-- The index of one axis: an integer or a slice. -/
inductive Ix where
  | int (i : Int)
  | slice (s : Slice)
  deriving DecidableEq

/-- `array[..., ix, ...]` at the axis `ax`. -/
def selAxis (ax : Nat) (ix : Ix) (a : Arr V) : Py (Arr V) :=
  match a.shape[ax]? with
  | none => .error .indexError
  | some n =>
    match ix with
    | .int i => do
      match ← indexPositions n [i] with
      | p :: _ => .ok (dropAxis ax p a)
      | [] => .error .indexError
    | .slice s => do
      let pos ← positions n s
      .ok (takeAxis ax pos a)

/-- `array[key]` for a tuple of integers and slices, the axis of the first one given: the
last axes first, so that the axes that disappear do not renumber the others (used in
variable/abc.py:406). -/
def getitem (ax : Nat) : List Ix → Arr V → Py (Arr V)
  | [], a => .ok a
  | ix :: key, a => do
    let b ← getitem (ax + 1) key a
    selAxis ax ix b

/-- The value at an index of the concatenation along the axis `ax`. -/
def concatGet (ax : Nat) : List (Arr V) → List Nat → Option V
  | [], _ => none
  | a :: t, idx =>
    idx[ax]?.bind fun j => a.shape[ax]?.bind fun n =>
      if j < n then a.get idx else concatGet ax t (idx.set ax (j - n))

/-- `numpy.concatenate(arrays, axis)`: raises `ValueError` when there is no array, when the
axis is out of bounds (`AxisError` is a `ValueError`) and when the shapes differ on another
axis (used in variable/abc.py:85-86). -/
def concatenate (ax : Nat) : List (Arr V) → Py (Arr V)
  | [] => .error .valueError
  | a :: t =>
    if ax < a.shape.length ∧
        ∀ b ∈ t, b.shape.length = a.shape.length ∧ b.shape.eraseIdx ax = a.shape.eraseIdx ax then
      .ok { shape := a.shape.set ax ((a :: t).filterMap (·.shape[ax]?)).sum
            get := concatGet ax (a :: t) }
    else .error .valueError

/-- What to remove: a slice or a list of integers. -/
inductive Indexer where
  | slice (s : Slice)
  | list (l : List Int)

/-- `numpy.delete(array, indexer, axis)` (used in dataset.py:160-162); an axis out of bounds
is an `AxisError`, which is a `ValueError`. -/
def delete (ax : Nat) (ixs : Indexer) (a : Arr V) : Py (Arr V) :=
  match a.shape[ax]? with
  | none => .error .valueError
  | some n => do
    let pos ← match ixs with
      | .slice s => positions n s
      | .list l => indexPositions n l
    .ok (takeAxis ax ((List.range n).filter fun p => decide (p ∉ pos)) a)

end Verif.Nd
