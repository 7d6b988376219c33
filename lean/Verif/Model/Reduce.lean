import Verif.Model.Split
import Verif.Model.Dataset

/-!
The comparison of rows on dask arrays: `zcollection/partitioning/abc.py` (`_logical_or_reduce`,
`unique`) as `Sequence._split` uses it.  `Verif/Model/Split.lean` takes the result of the
comparison for granted (`uniqueDelayed`).

The behaviour of `dask.array.reductions.reduction` is a trusted reading of its source: the blocks
along the axis are reduced by groups of `split_every` (4 by default), and the results again,
until one group is left.  Simplification: the blocks along the rows, which the reduction does
not mix, are one block.
-/

namespace Verif.Red

/-- A block of booleans: rows and columns, or a single dimension. -/
inductive Block where
  | matrix (rows : List (List Bool))
  | vector (values : List Bool)
  deriving DecidableEq, Repr

/-- `numpy.concatenate(blocks, axis=1)`: an array of one dimension has no axis 1
(`numpy.AxisError`, which is a `ValueError`), nor have no arrays. -/
def concat1 : List Block → Py (List (List Bool))
  | [] => .error .valueError
  | .vector _ :: _ => .error .valueError
  | [.matrix rows] => .ok rows
  | .matrix rows :: b :: t => do
    let rest ← concat1 (b :: t)
    if rows.length = rest.length then .ok (List.zipWith (· ++ ·) rows rest)
    else .error .valueError

/-- partitioning/abc.py:71-72 `aggregate`: `numpy.logical_or.reduce(block, axis=1)`.  The
argument `keepdims` is not used, so that the result has one dimension. -/
def aggregate (rows : List (List Bool)) : Block := .vector (rows.map fun r => r.any id)

/-- `toolz.partition_all(n, l)`, with a bound on the number of groups. -/
def groups {α : Type} (n : Nat) : Nat → List α → List (List α)
  | 0, _ => []
  | _ + 1, [] => []
  | fuel + 1, x :: t => (x :: t).take n :: groups n fuel ((x :: t).drop n)

/-- dask `partial_reduce`: each group of `n` blocks is concatenated and reduced
(partitioning/abc.py:68-72; `chunk` returns the block as it is). -/
def partialReduce (n : Nat) (blocks : List Block) : Py (List Block) :=
  Ds.mapPy (fun g => do
    let m ← concat1 g
    .ok (aggregate m)) (groups n blocks.length blocks)

/-- dask `_tree_reduce`: `combine` is `aggregate` for all levels but the last one. -/
def treeReduce (n : Nat) : Nat → List Block → Py Block
  | 0, _ => .error .valueError
  | fuel + 1, blocks => do
    let r ← partialReduce n blocks
    match r with
    | [b] => .ok b
    | r => treeReduce n fuel r

/-- `column[1:] != column[:-1]`, a block of one column. -/
def changed (column : List Int) : Block :=
  .matrix ((column.zip (column.drop 1)).map fun p => [decide (p.2 ≠ p.1)])

/-- partitioning/abc.py:47-81 `_logical_or_reduce(arr, axis=1)` of the stacked columns, each of
which is a block. -/
def logicalOrReduce (n : Nat) (columns : List (List Int)) : Py (List Bool) := do
  let b ← treeReduce n columns.length (columns.map changed)
  match b with
  | .vector v => .ok v
  | .matrix _ => .error .valueError

/-- `arr[mask]` -/
def masked {α : Type} (l : List α) (mask : List Bool) : List α :=
  (l.zip mask).filterMap fun p => if p.2 then some p.1 else none

/-- partitioning/abc.py:84-109 `unique` of a matrix: `mask[0] = True` raises `IndexError` on an
empty array. -/
def unique (n : Nat) (columns : List (List Int)) (rows : List (List Int)) :
    Py (List (List Int) × List Nat) :=
  match rows with
  | [] => .error .indexError
  | _ :: _ => do
    let v ← logicalOrReduce n columns
    .ok (masked rows (true :: v), masked (List.range rows.length) (true :: v))

/-- partitioning/sequence.py:91-124 `Sequence._split` of dask arrays. -/
def sequenceSplit (n : Nat) (variables : List (String × List Int)) (isInt : Bool) :
    Py (List (List (String × Int) × (Nat × Nat))) := do
  let matrix ← Split.vstackT (variables.map (·.2))
  if !isInt then throw .typeError
  let u ← unique n (variables.map (·.2)) matrix
  if Split.isMonotonic u.1 then
    .ok ((Split.slices u matrix.length).map fun p => ((variables.map (·.1)).zip p.1, p.2))
  else .error .valueError

end Verif.Red
