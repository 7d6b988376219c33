import Verif.Model.Listing

/-!
Model of the validation of partitions: `zcollection/storage.py` (`check_zarr_group`) and
`zcollection/collection/__init__.py` (`_check_partition`, `validate_partitions`).
-/

namespace Verif.Validate

/-- An array of a group: its dimensions with their sizes, and the error raised when its
chunks are read, if any. -/
structure StoredArray where
  name : String
  dims : List (String × Nat)
  read : Option PyErr

/-- The consolidated metadata of a directory. -/
inductive Meta where
  /-- no file `.zmetadata` -/
  | absent
  /-- a file that is not valid JSON -/
  | torn
  | arrays (l : List StoredArray)

/-- `zarr.open_consolidated`: a missing file raises `KeyError`, a torn one
`json.JSONDecodeError`, which is a `ValueError`. -/
def openConsolidated : Meta → Py (List StoredArray)
  | .absent => .error .keyError
  | .torn => .error .valueError
  | .arrays l => .ok l

/-- storage.py:468-470: the arrays are read one after the other. -/
def readAll : List StoredArray → Py Unit
  | [] => .ok ()
  | a :: t =>
    match a.read with
    | some e => .error e
    | none => readAll t

/-- The exceptions caught by storage.py:471. -/
def caught : PyErr → Bool
  | .valueError => true
  | .typeError => true
  | .runtimeError => true
  | _ => false

/-- storage.py:450-473 (`check_zarr_group`). -/
def checkGroup (m : Meta) : Py Bool :=
  match openConsolidated m >>= readAll with
  | .ok _ => .ok true
  | .error e => if caught e then .ok false else .error e

/-- collection/__init__.py:108-128 (`_check_partition`). -/
def checkPartition (keys : List String) (p : List Char × Meta) : Py (List Char × Bool) :=
  match Path.parse keys p.1 with
  | .error e => if e = .valueError then .ok (p.1, false) else .error e
  | .ok _ => do
    let v ← checkGroup p.2
    return (p.1, v)

/-- collection/__init__.py:785-791: the results in the order of their completion; `result()`
raises the exception of the worker. -/
def collect (keys : List String) : List (List Char × Meta) → Py (List (List Char))
  | [] => .ok []
  | p :: t => do
    let r ← checkPartition keys p
    let l ← collect keys t
    return if r.2 then l else r.1 :: l

/-- collection/__init__.py:760-797 (`validate_partitions`): `selected` are the partitions
returned by `partitions`, in the order of completion of the checks, `store` all the
partitions of the collection.  The returned store is the one after the call. -/
def validate (keys : List String) (store selected : List (List Char × Meta)) (fix : Bool) :
    Py (List (List Char)) × List (List Char × Meta) :=
  match collect keys selected with
  | .error e => (.error e, store)
  | .ok l => (.ok l, if fix then store.filter (fun p => !l.contains p.1) else store)

end Verif.Validate
