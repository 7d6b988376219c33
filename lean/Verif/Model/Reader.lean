import Verif.Model.Workers

/-!
Model of the reading of a partition file by file, while other processes write:
`zcollection/storage.py` (`open_zarr_group`, `update_zarr_array`), called by
`zcollection/collection/abc.py` (`load`) and by
`zcollection/collection/__init__.py` (`drop_partitions`, `update`).

`load` takes no lock (collection/abc.py:561-658: the synchronizer is used by the methods that
write only).  The reader first reads the consolidated metadata, then the file of each chunk, at
moments that increase.  The chunks of a delayed dataset are read when it is computed: the moments
are any.  Simplifications: the reading of one file is atomic; the caches of fsspec are not
modelled; the listing of the partitions is that of `Verif/Model/Listing.lean`.
-/

namespace Verif.Read

open Storage

variable {C A : Type}

/-- What zarr does with the files: the files of the chunks of the selected variables, in the order
in which they are read, and the dataset made of the metadata and of the contents of these files.
A chunk without file is `none`: zarr gives the fill value. -/
structure Format (C A : Type) where
  chunks : C → List Path
  decode : C → List (Option C) → Py A

/-- The reading of the file of a chunk (zarr 2, `Array._chunk_getitems`): a missing file is not an
error, a torn file cannot be decompressed. -/
def readChunk (fs : FS C) (p : Path) : Py (Option C) :=
  match fs p with
  | some (.file (some c)) => .ok (some c)
  | some (.file none) => .error .runtimeError
  | some .dir => .ok none
  | none => .ok none

/-- The chunks, the first one when the file system is `view i`, the next ones later. -/
def readChunks (view : Nat → FS C) (d : Path) : Nat → List Path → Py (List (Option C))
  | _, [] => .ok []
  | i, p :: t => do
    let c ← readChunk (view i) (d ++ p)
    let l ← readChunks view d (i + 1) t
    .ok (c :: l)

/-- storage.py:305-343 (`open_zarr_group`): `zarr.open_consolidated` raises `KeyError` without
consolidated metadata; `view i` is the file system when the file of number `i` is read.  For a
delayed dataset, followed by its computation. -/
def openGroup (f : Format C A) (d : Path) (view : Nat → FS C) : Py A :=
  match view 0 (d ++ [".zmetadata"]) with
  | some (.file (some m)) => do
    let l ← readChunks view d 1 (f.chunks m)
    f.decode m l
  | some (.file none) => .error .valueError
  | some .dir => .error .keyError
  | none => .error .keyError

/-- What a reader sees of the work of a cluster: the file number `i` is read after `moments i`
turns. -/
def watch (programs : List (Work.Program C)) (fs : FS C) (schedule : List Nat)
    (moments : Nat → Nat) (i : Nat) : FS C :=
  (Work.exec programs fs (schedule.take (moments i))).fs

/-- What a reader sees of the work of one process. -/
def follow (steps : List (Step C)) (fs : FS C) (moments : Nat → Nat) (i : Nat) : FS C :=
  run fs (steps.take (moments i))

/-- storage.py:346-377 (`update_zarr_array`): the files of the chunks are replaced in place, in any
order. -/
def updateSteps (atomic : Bool) (d : Path) (files : List (Path × C)) : List (Step C) :=
  files.flatMap fun w => fileSteps atomic (d ++ w.1) w.2

end Verif.Read
