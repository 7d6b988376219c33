import Verif.Model.Storage
import Verif.Model.Collection

/-!
Model of the parallel execution of the tasks of an insertion: `zcollection/storage.py`
(`execute_transaction`), `zcollection/collection/__init__.py` (`insert`) and
`zcollection/collection/detail.py` (`_insert`).

Each partition of a batch is handled by one task, executed by one worker of the cluster.  The
workers run at the same time on the same file system.  A worker reads the stored partition and
computes the group to write at its first turn; it then executes one step of
`Verif/Model/Storage.lean` at each turn.  The turns are given in any order, and a cluster killed
at some moment has executed the first turns.  Simplifications: the reading of a partition is a
single turn; the steps of a task are executed in the order of a single thread.
-/

namespace Verif.Work

open Storage

variable {C R : Type}

/-- What a worker has to do. -/
inductive Status (C : Type) where
  /-- the task has not started -/
  | waiting
  /-- the steps that remain to be executed -/
  | running (rest : List (Step C))

/-- The file system and the workers. -/
structure State (C : Type) where
  fs : FS C
  workers : List (Status C)

/-- The steps of a task, from what it finds on the file system. -/
abbrev Program (C : Type) := FS C → List (Step C)

/-- One turn of a worker. -/
def turn (programs : List (Program C)) (st : State C) (i : Nat) : State C :=
  match st.workers[i]?, programs[i]? with
  | some .waiting, some f => { st with workers := st.workers.set i (.running (f st.fs)) }
  | some (.running (s :: t)), _ =>
    { fs := apply st.fs s, workers := st.workers.set i (.running t) }
  | _, _ => st

/-- storage.py:47-82 (`execute_transaction`): the tasks are submitted together. -/
def start (programs : List (Program C)) (fs : FS C) : State C :=
  ⟨fs, programs.map fun _ => .waiting⟩

/-- The turns of a schedule. -/
def exec (programs : List (Program C)) (fs : FS C) (schedule : List Nat) : State C :=
  schedule.foldl (turn programs) (start programs fs)

/-- All the tasks are finished: `client.gather` returns (storage.py:67-71). -/
def finished (st : State C) : Prop := ∀ s ∈ st.workers, s = .running []

/-- The file system on which the workers run: are the writes of a file atomic, the SHA-256 of
a path, and the order in which `rmtree` removes the nodes of a tree (relative paths). -/
structure Machine (C : Type) where
  atomic : Bool
  hash : Path → String
  order : (Path → Option (Node C)) → List Path

/-- The nodes of a directory in the order of their removal. -/
def Machine.removal (m : Machine C) (d : Path) (fs : FS C) : List Path :=
  (m.order (sub fs d)).map (d ++ ·)

/-- The task of a partition: its directory below that of the collection, the group of the
inserted records, and the group to write over an existing partition. -/
structure Job (C : Type) where
  parts : Path
  inserted : Group C
  merged : (Path → Option (Node C)) → Py (Group C)

/-- collection/detail.py:388-442 (`_insert`) as steps: the replacement of an existing partition
(merging/__init__.py:136-175; nothing is written if the merge raises), the removal of a
directory that holds a group without consolidated metadata (`init_group` raises, detail.py:
438-442, the first attempt of `_rm` succeeds), or the creation of the partition.  The writes do
not fail. -/
def Job.program (m : Machine C) (root : Path) (t : Job C) : Program C := fun fs =>
  let d := root ++ t.parts
  if partitionExists d fs then
    match t.merged (sub fs d) with
    | .error _ => []
    | .ok g =>
      let temp := tempDir m.hash d
      replaceSteps m.atomic temp d g (m.removal temp fs) (m.removal d fs)
  else if (fs (d ++ [".zarray"])).isSome ∨ (fs (d ++ [".zgroup"])).isSome then
    removeSteps (m.removal d fs)
  else groupSteps m.atomic d t.inserted

/-- collection/detail.py:388-442: the exception raised by the task of a partition. -/
def Job.raises (root : Path) (t : Job C) (fs : FS C) : Option PyErr :=
  let d := root ++ t.parts
  if partitionExists d fs then
    match t.merged (sub fs d) with
    | .error e => some e
    | .ok _ => none
  else if (fs (d ++ [".zarray"])).isSome ∨ (fs (d ++ [".zgroup"])).isSome then some .valueError
  else none

/-- How the records of a partition are stored: the group that holds them, what is read from a
tree (`open_zarr_group`, `none` if it raises), and the directory of a partition. -/
structure Codec (C R : Type) where
  encode : List R → Group C
  decode : (Path → Option (Node C)) → Option (List R)
  path : Coll.Key → Path

/-- merging/__init__.py:166-175: the group to write over an existing partition; without merge
callback the partition is not read. -/
def Codec.merged (c : Codec C R) (merge : Option (Coll.Merge R)) (rows : List R)
    (tree : Path → Option (Node C)) : Py (Group C) :=
  match merge with
  | none => .ok (c.encode rows)
  | some f =>
    match c.decode tree with
    | none => .error .keyError
    | some old => do
      let l ← f old rows
      return c.encode l

/-- collection/__init__.py:399-411: the task of a piece of the inserted records. -/
def Codec.job (c : Codec C R) (merge : Option (Coll.Merge R)) (t : Coll.Key × List R) : Job C :=
  ⟨c.path t.1, c.encode t.2, c.merged merge t.2⟩

/-- The partitions that a reader finds: those that have consolidated metadata
(collection/detail.py:417) and that can be read. -/
def Codec.store (c : Codec C R) (root : Path) (fs : FS C) : Coll.Store R := fun k =>
  if partitionExists (root ++ c.path k) fs then c.decode (sub fs (root ++ c.path k)) else none

/-- collection/__init__.py:399-411: the batches of an insertion are executed one after the other,
each with its own order of the turns, until one raises (storage.py:47-82: the first exception,
in the order of the tasks, when all the tasks are finished). -/
inductive Batches (m : Machine C) (c : Codec C R) (root : Path) (merge : Option (Coll.Merge R)) :
    FS C → List (List (Coll.Key × List R)) → FS C → Option PyErr → Prop where
  | done (fs : FS C) : Batches m c root merge fs [] fs none
  | next (fs fs' : FS C) (b : List (Coll.Key × List R)) (t : List (List (Coll.Key × List R)))
      (schedule : List Nat) (e : Option PyErr)
      (hfin : finished (exec ((b.map (c.job merge)).map (Job.program m root)) fs schedule))
      (hok : (b.map (c.job merge)).findSome? (fun j => j.raises root fs) = none)
      (hrest : Batches m c root merge
        (exec ((b.map (c.job merge)).map (Job.program m root)) fs schedule).fs t fs' e) :
      Batches m c root merge fs (b :: t) fs' e
  | stop (fs : FS C) (b : List (Coll.Key × List R)) (t : List (List (Coll.Key × List R)))
      (schedule : List Nat) (e : PyErr)
      (hfin : finished (exec ((b.map (c.job merge)).map (Job.program m root)) fs schedule))
      (herr : (b.map (c.job merge)).findSome? (fun j => j.raises root fs) = some e) :
      Batches m c root merge fs (b :: t)
        (exec ((b.map (c.job merge)).map (Job.program m root)) fs schedule).fs (some e)

/-- collection/__init__.py:388-414 (`insert`, once the variables are prepared) on the file system
of a cluster: `column` holds the keys of the records. -/
inductive Insert (m : Machine C) (c : Codec C R) (root : Path) (merge : Option (Coll.Merge R))
    (npartitions : Option Int) (delayed : Bool) (column : List Coll.Key) (rows : List R)
    (fs : FS C) : FS C → Py (List Coll.Key) → Prop where
  | split (e : PyErr) (h : Split.splitRows column delayed = .error e) :
      Insert m c root merge npartitions delayed column rows fs fs (.error e)
  | batches (pieces : List (Coll.Key × (Nat × Nat))) (e : PyErr)
      (h : Split.splitRows column delayed = .ok pieces)
      (hb : Verif.Batches.insertBatches pieces npartitions = .error e) :
      Insert m c root merge npartitions delayed column rows fs fs (.error e)
  | raised (pieces : List (Coll.Key × (Nat × Nat))) (batches : List (List (Coll.Key × (Nat × Nat))))
      (fs' : FS C) (e : PyErr) (h : Split.splitRows column delayed = .ok pieces)
      (hb : Verif.Batches.insertBatches pieces npartitions = .ok batches)
      (hr : Batches m c root merge fs (batches.map fun b => b.map (Coll.task rows)) fs' (some e)) :
      Insert m c root merge npartitions delayed column rows fs fs' (.error e)
  | finished (pieces : List (Coll.Key × (Nat × Nat)))
      (batches : List (List (Coll.Key × (Nat × Nat)))) (fs' : FS C)
      (h : Split.splitRows column delayed = .ok pieces)
      (hb : Verif.Batches.insertBatches pieces npartitions = .ok batches)
      (hr : Batches m c root merge fs (batches.map fun b => b.map (Coll.task rows)) fs' none) :
      Insert m c root merge npartitions delayed column rows fs fs' (.ok (pieces.map (·.1)))

end Verif.Work
