import Verif.Model.Split
import Verif.Model.Batches

/-!
Model of the operations of a collection on its partitions: `zcollection/collection/__init__.py`
(`insert`, `drop_partitions`), `zcollection/collection/detail.py` (`_insert`),
`zcollection/merging/__init__.py` (`perform`) and `zcollection/collection/abc.py` (`load`).

The store maps the values of the partition keys to the records of the partition.  Reading
and writing the arrays of a partition is modelled in `Verif/Model/Chunks.lean`, the files in
`Verif/Model/Storage.lean`.
-/

namespace Verif.Coll

variable {R : Type}

/-- Values of the keys of a partition. -/
abbrev Key := List Int

/-- The stored partitions. -/
abbrev Store (R : Type) := Key → Option (List R)

/-- Replace the content of a partition. -/
def put (st : Store R) (k : Key) (rows : List R) : Store R :=
  fun q => if q = k then some rows else st q

/-- A merge callback: old records, inserted records. -/
abbrev Merge (R : Type) := List R → List R → Py (List R)

/-- merging/__init__.py:166-174: the records to write. -/
def merged (merge : Option (Merge R)) (old inserted : List R) : Py (List R) :=
  match merge with
  | none => .ok inserted
  | some f => f old inserted

/-- collection/detail.py:388-442 (`_insert`).  If it raises, the partition is as before (see
C24 and C25). -/
def insertOne (merge : Option (Merge R)) (st : Store R) (task : Key × List R) : Py (Store R) :=
  match st task.1 with
  | none => .ok (put st task.1 task.2)
  | some old => do
    let rows ← merged merge old task.2
    return put st task.1 rows

/-- storage.py:47-82 (`execute_transaction`): all the tasks of a batch are executed; the first
exception is raised when all are finished. -/
def runBatch (merge : Option (Merge R)) (st : Store R) :
    List (Key × List R) → Store R × Option PyErr
  | [] => (st, none)
  | task :: t =>
    match insertOne merge st task with
    | .ok st' => runBatch merge st' t
    | .error e => ((runBatch merge st t).1, some e)

/-- collection/__init__.py:399-411: the batches, until one raises. -/
def runBatches (merge : Option (Merge R)) (st : Store R) :
    List (List (Key × List R)) → Store R × Option PyErr
  | [] => (st, none)
  | b :: t =>
    match runBatch merge st b with
    | (st', none) => runBatches merge st' t
    | (st', some e) => (st', some e)

/-- The records of a slice (`zds.isel(indexer)`). -/
def task (rows : List R) (piece : Key × (Nat × Nat)) : Key × List R :=
  (piece.1, Np.slice rows piece.2.1 piece.2.2)

/-- collection/__init__.py:388-414 (`insert`, once the variables are prepared): `column` holds
the keys of the records.  The result is the list of the inserted partitions. -/
def insert (merge : Option (Merge R)) (npartitions : Option Int) (delayed : Bool)
    (column : List Key) (rows : List R) (st : Store R) : Store R × Py (List Key) :=
  match Split.splitRows column delayed with
  | .error e => (st, .error e)
  | .ok pieces =>
    match Batches.insertBatches pieces npartitions with
    | .error e => (st, .error e)
    | .ok batches =>
      match runBatches merge st (batches.map fun b => b.map (task rows)) with
      | (st', none) => (st', .ok (pieces.map (·.1)))
      | (st', some e) => (st', .error e)

/-- collection/abc.py:599-650 (`load` without indexer): the partitions given by the listing
are read in order and concatenated; `None` if there is none.  Opening a directory that is not
a partition raises `KeyError`. -/
def readAll (st : Store R) : List Key → Py (List R)
  | [] => .ok []
  | k :: t =>
    match st k with
    | none => .error .keyError
    | some rows => do
      let l ← readAll st t
      return rows ++ l

/-- collection/abc.py:599-658 (`load`). -/
def load (st : Store R) (listing : List Key) : Py (Option (List R)) :=
  match listing with
  | [] => .ok none
  | _ :: _ => do
    let l ← readAll st listing
    return some l

/-- How the file system gives the time of creation. -/
inductive Clock where
  /-- an aware `datetime`, in UTC -/
  | utc
  /-- a naive `datetime`, in local time -/
  | localTime

/-- collection/__init__.py:449-456 (`is_created_before`): `now` is the local time without
time zone; the time zone of the creation time is dropped.  Instants are seconds since the
epoch, `offset` is the offset of the local time zone from UTC. -/
def createdBefore (clock : Clock) (offset now created delta : Int) : Bool :=
  let naiveNow := now + offset
  let naiveCreated := match clock with
    | .utc => created
    | .localTime => created + offset
  decide (naiveNow - naiveCreated > delta)

/-- collection/__init__.py:465-467: `fs.rm` of each folder, in parallel; `fails` are the
exceptions raised by the file system (the partition is then unchanged). -/
def removeFolders (fails : Key → Option PyErr) (st : Store R) :
    List Key → Store R × Option PyErr
  | [] => (st, none)
  | k :: t =>
    match fails k with
    | none => removeFolders fails (fun q => if q = k then none else st q) t
    | some e => ((removeFolders fails st t).1, some e)

/-- collection/__init__.py:417-475 (`drop_partitions`): `folders` is the result of
`partitions(filters)`. -/
def dropPartitions (folders : List Key) (timedelta : Option Int) (clock : Clock) (offset now : Int)
    (created : Key → Int) (fails : Key → Option PyErr) (st : Store R) :
    Store R × Py (List Key) :=
  match folders with
  | [] => (st, .ok [])
  | _ :: _ =>
    let selected := match timedelta with
      | none => folders
      | some d => folders.filter fun k => createdBefore clock offset now (created k) d
    match removeFolders fails st selected with
    | (st', none) => (st', .ok selected)
    | (st', some e) => (st', .error e)

end Verif.Coll
