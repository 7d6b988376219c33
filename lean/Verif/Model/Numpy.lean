import Verif.Model.Py

/-!
The numpy primitives on one-dimensional arrays that zcollection uses.  These definitions
model numpy itself (a trusted reading of its documentation); each comment names a place in
`/repo` where the primitive is used.
-/

namespace Verif.Np

variable {α : Type}

/-- `numpy.where(mask)[0]` with the index of the first element given: increasing indices
of the true elements (used in merging/time_series.py:57-59). -/
def whereFrom (k : Nat) : List Bool → List Nat
  | [] => []
  | true :: m => k :: whereFrom (k + 1) m
  | false :: m => whereFrom (k + 1) m

/-- `numpy.where(mask)[0]`. -/
def «where» (m : List Bool) : List Nat := whereFrom 0 m

/-- `a[indices]` for an array of indices that are in range (used in
merging/time_series.py:61-62 through `Dataset.isel`, dataset.py:533-556).  Out of range
indices do not occur in the modelled uses, where the indices come from `where`. -/
def takeIdx (l : List α) (idx : List Nat) : List α := idx.filterMap (l[·]?)

/-- `a[i:j]` for non-negative bounds (used in merging/time_series.py:79-87). -/
def slice (l : List α) (i j : Nat) : List α := (l.take j).drop i

/-- The pairs of consecutive elements `(l[i], l[i+1])` (loop of
merging/time_series.py:146-151, partitioning/sequence.py:110-120). -/
def pairs (l : List α) : List (α × α) := l.zip l.tail

/-- `numpy.diff` (used in merging/time_series.py:136). -/
def diff : List Int → List Int
  | a :: b :: l => (b - a) :: diff (b :: l)
  | _ => []

/-- `a.min()`: raises `ValueError` on an empty array (used in
merging/time_series.py:29). -/
def amin : List Int → Py Int
  | [] => .error .valueError
  | x :: l => .ok (l.foldl min x)

/-- `a.max()`: raises `ValueError` on an empty array (used in
merging/time_series.py:30). -/
def amax : List Int → Py Int
  | [] => .error .valueError
  | x :: l => .ok (l.foldl max x)

/-- `index[0]`: raises `IndexError` on an empty array (used in
merging/time_series.py:87). -/
def first : List α → Py α
  | [] => .error .indexError
  | x :: _ => .ok x

/-- `index[-1]`: raises `IndexError` on an empty array (used in
merging/time_series.py:80, 87). -/
def last : List α → Py α
  | [] => .error .indexError
  | [x] => .ok x
  | _ :: y :: l => last (y :: l)

end Verif.Np
