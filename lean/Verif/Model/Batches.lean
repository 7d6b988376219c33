import Verif.Model.Py

/-! Model of `split_sequence` (`zcollection/dask_utils.py`) and of the batches of
`Collection.insert` (`zcollection/collection/__init__.py`). -/

namespace Verif.Batches

variable {α : Type}

/-- `itertools.accumulate`. -/
def accumulate (s : Nat) : List Nat → List Nat
  | [] => []
  | x :: t => (s + x) :: accumulate (s + x) t

/-- The slices between consecutive divisions (dask_utils.py:84). -/
def slices (l : List α) : List Nat → List (List α)
  | a :: b :: t => (l.take b).drop a :: slices l (b :: t)
  | _ => []

/-- dask_utils.py:59-84 (`split_sequence`), consumed entirely. -/
def splitSequence (l : List α) (sections : Option Int) : Py (List (List α)) :=
  let sections := sections.getD l.length
  if sections ≤ 0 then .error .valueError
  else
    let sections := min sections.toNat l.length
    if sections = 0 then .error .zeroDivisionError
    else
      let size := l.length / sections
      let extras := l.length % sections
      .ok (slices l (accumulate 0 ([0] ++ List.replicate extras (size + 1) ++
        List.replicate (sections - extras) size)))

/-- collection/__init__.py:393-399: the batches of partitions of an insertion. -/
def insertBatches (partitions : List α) (npartitions : Option Int) : Py (List (List α)) :=
  match npartitions with
  | none => splitSequence partitions none
  | some n =>
    if n < 1 then .error .valueError
    else splitSequence partitions (some ((partitions.length : Int) / n + 1))

end Verif.Batches
