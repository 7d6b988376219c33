import Verif.Model.Numpy
import Verif.Model.Sort

/-!
Model of the splitting of a dataset into partitions: `zcollection/partitioning/abc.py`
(`unique`, `unique_and_check_monotony`), `zcollection/partitioning/sequence.py`
(`_is_monotonic`, `_unique`, `Sequence._split`), `zcollection/partitioning/date.py`
(`_unique`, the index arithmetic of `Date._split`).

The key column is a list of keys `κ`: rows of the key matrix (`List Int`, compared
lexicographically) for `Sequence`, truncated dates (`Int`) for `Date`.
-/

namespace Verif.Split

variable {κ : Type} [DecidableEq κ]

/-- The elements that follow an element of key `prev` and differ from the key before
them. -/
def keepNew (prev : κ) : List (κ × Nat) → List (κ × Nat)
  | [] => []
  | (x, i) :: t => if x = prev then keepNew prev t else (x, i) :: keepNew x t

/-- Selection by the mask `mask[0] = True; mask[1:] = arr[1:] != arr[:-1]`
(partitioning/abc.py:99-101; the same mask is used inside `numpy.unique`) on an array
paired with its indices. -/
def changes : List (κ × Nat) → List (κ × Nat)
  | [] => []
  | (x, i) :: t => (x, i) :: keepNew x t

/-- partitioning/abc.py:84-109 (`unique`, dask): elements that differ from their
predecessor, and their indices.  Line 99 (`mask[0] = True`) raises `IndexError` on an
empty array.  Simplification: rows are compared at once; the reduction that dask makes of the
comparisons of the columns, which fails for more columns than it reduces at once, is in
`Verif/Model/Reduce.lean`. -/
def uniqueDelayed (arr : List κ) : Py (List κ × List Nat) :=
  match arr with
  | [] => .error .indexError
  | _ :: _ =>
    let u := changes arr.zipIdx
    .ok (u.map (·.1), u.map (·.2))

/-- The order of a stable argsort: by key, then by position. -/
def leIdx (le : κ → κ → Bool) (a b : κ × Nat) : Bool :=
  le a.1 b.1 && (decide (a.1 ≠ b.1) || decide (a.2 ≤ b.2))

/-- A stable argsort paired with the sorted keys (`numpy.argsort(kind='mergesort')` inside
`numpy.unique`, `numpy.lexsort`). -/
def argsort (le : κ → κ → Bool) (arr : List κ) : List (κ × Nat) :=
  Sort.isort (leIdx le) arr.zipIdx

/-- `numpy.unique(arr, axis=0, return_index=True)` (used in partitioning/abc.py:124): stable
argsort, then the elements that differ from their predecessor. -/
def npUnique (le : κ → κ → Bool) (arr : List κ) : List κ × List Nat :=
  let u := changes (argsort le arr)
  (u.map (·.1), u.map (·.2))

/-- `numpy.all(numpy.diff(indices) > 0)`. -/
def increasing (indices : List Nat) : Bool :=
  (Np.pairs indices).all fun p => decide (p.1 < p.2)

/-- partitioning/abc.py:112-127 (`unique_and_check_monotony`). -/
def uniqueAndCheckMonotony (le : κ → κ → Bool) (arr : List κ) : Py (List κ × List Nat) :=
  let u := npUnique le arr
  if increasing u.2 then .ok u else .error .valueError

/-- partitioning/sequence.py:21-39 (`_is_monotonic`): `numpy.lexsort` of the columns in
reverse order is a stable argsort of the rows in lexicographic order. -/
def isMonotonic (arr : List (List Int)) : Bool :=
  increasing ((argsort (fun a b => decide (a ≤ b)) arr).map (·.2))

/-- partitioning/sequence.py:42-59 (`_unique`). -/
def seqUnique (arr : List (List Int)) (isDelayed : Bool) : Py (List (List Int) × List Nat) :=
  if isDelayed then do
    let u ← uniqueDelayed arr
    if isMonotonic u.1 then .ok u else .error .valueError
  else uniqueAndCheckMonotony (fun a b => decide (a ≤ b)) arr

/-- partitioning/date.py:40-62 (`_unique`). -/
def dateUnique (arr : List Int) (isDelayed : Bool) : Py (List Int × List Nat) :=
  if isDelayed then do
    let u ← uniqueDelayed arr
    if (Np.diff u.1).all fun d => decide (d ≥ 0) then .ok u else .error .valueError
  else uniqueAndCheckMonotony (fun a b => decide (a ≤ b)) arr

/-- partitioning/sequence.py:111 and 122-124, partitioning/date.py:143-146: the keys with
the slices between consecutive indices, the last one ending at the size of the array. -/
def slices (u : List κ × List Nat) (n : Nat) : List (κ × (Nat × Nat)) :=
  u.1.zip (Np.pairs (u.2 ++ [n]))

/-- Split of a matrix of rows (partitioning/sequence.py:110-124). -/
def splitRows (rows : List (List Int)) (isDelayed : Bool) :
    Py (List (List Int × (Nat × Nat))) := do
  let u ← seqUnique rows isDelayed
  return slices u rows.length

/-- Split of a column of truncated dates (partitioning/date.py:141-146). -/
def splitDates (dates : List Int) (isDelayed : Bool) : Py (List (Int × (Nat × Nat))) := do
  let u ← dateUnique dates isDelayed
  return slices u dates.length

/-- partitioning/sequence.py:104-106: `vstack(columns).transpose()`.  Arrays of different
lengths raise `ValueError`; so does an empty tuple of columns. -/
def vstackT (columns : List (List Int)) : Py (List (List Int)) :=
  match columns with
  | [] => .error .valueError
  | c :: cs =>
    if cs.all fun d => decide (d.length = c.length) then
      .ok ((List.range c.length).map fun i => (c :: cs).filterMap (·[i]?))
    else .error .valueError

/-- partitioning/sequence.py:91-124 (`Sequence._split`): `isInt` tells whether the dtype of
the stacked matrix is an integer type (line 107).  The pair `(name, value)` of each field
is kept as a pair (lines 113-119: with one field the concatenation of the 1-tuples, else
`zip`, give the same pairs). -/
def sequenceSplit (variables : List (String × List Int)) (isInt isDelayed : Bool) :
    Py (List (List (String × Int) × (Nat × Nat))) := do
  let matrix ← vstackT (variables.map (·.2))
  if !isInt then throw .typeError
  let pieces ← splitRows matrix isDelayed
  return pieces.map fun p => ((variables.map (·.1)).zip p.1, p.2)

/-- partitioning/date.py:122-146 (`Date._split`): `isDate` tells whether the dtype of the
column is a datetime64 (line 138), `trunc` is the cast to the resolution of the
partitioning (line 142, modelled in `Verif/Model/Calendar.lean`). -/
def dateSplit (values : List Int) (isDate isDelayed : Bool) (trunc : Int → Int) :
    Py (List (Int × (Nat × Nat))) := do
  if !isDate then throw .typeError
  splitDates (values.map trunc) isDelayed

/-- partitioning/abc.py:312-334 (`split_dataset`) before the split: the number of dimensions
of each partitioning variable must be one. -/
def checkDims (ndims : List Nat) : Py Unit :=
  if ndims.all fun d => decide (d = 1) then .ok () else .error .valueError

end Verif.Split
