import Verif.Model.Index
import Verif.Model.Load
import Verif.Model.Update

/-!
The use of an index: `collection.load(indexer=index.query(...))` (collection/abc.py:561-658 with
indexing/abc.py:404-464), and the update of an index on a collection (indexing/abc.py:251-332).
-/

namespace Verif.Ix

open Nd Ds Upd

variable {V : Type}

/-- The order of Python on tuples of pairs, used by `sorted` in collection/abc.py:85 and 127. -/
def keyLe : Row → Row → Bool
  | [], _ => true
  | _ :: _, [] => false
  | a :: s, b :: t =>
    if a = b then keyLe s t
    else if a.1 = b.1 then decide (a.2 < b.2)
    else decide (a.1 ≤ b.1)

/-- The slice of an entry of the indexer.  Simplification: the slices with a negative bound,
which count from the end of the partition, raise here. -/
def natSlice (x : Row × (Int × Int)) : Py (Row × (Nat × Nat)) :=
  if x.2.1 < 0 ∨ x.2.2 < 0 then .error .indexError
  else .ok (x.1, (x.2.1.toNat, x.2.2.toNat))

/-- `collection.load(filters=..., indexer=index.query(columns, logical_op=..., mask=...))`
(collection/abc.py:613-658, indexing/abc.py:404-464). -/
def queryLoad (o : Ld.Opts V) (st : State) (columns : List (String × List Int))
    (op : Option String) (mask : Option (List Bool)) (parts : Store Row V) (filters : Row → Bool) :
    Py (Option (Dataset V)) := do
  let entries ← query st columns op mask true
  let indexer ← mapPy natSlice entries
  Ld.loadIndexed o keyLe parts filters indexer

/-- indexing/abc.py:251-332 `_update`: the function is called with the dataset of each of the
partitions of the collection (lines 264-268), whose keys are those of its path. -/
def updateAll (st : State) (c : Cfg Row V) (func : Callback V Data) (parts : Store Row V) :
    State × Py Unit :=
  update st (mapParts c (fun p => .ok p) func parts)

end Verif.Ix
