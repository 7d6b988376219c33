import Verif.Model.Py

/-!
Model of the files of a partition and of the operations that write, replace and remove them:
`zcollection/storage.py` (`write_zarr_group`), `zcollection/merging/__init__.py` (`_rename`,
`_extract_root_dirname`, `_update_fs`, `perform`) and `zcollection/collection/detail.py`
(`_rm`, `_insert`), on a local file system.

An operation is a list of steps; a process killed during the operation has executed a prefix
of the list.  Simplifications: the arrays of a group are the list of the files written by
zarr, in the (arbitrary) order in which the threads write them; permissions, links and
caches of the file system are not modelled.
-/

namespace Verif.Storage

variable {C : Type}

/-- Components of a path, from the root. -/
abbrev Path := List String

/-- A node of the file system; the content of a file is `none` after a torn write. -/
inductive Node (C : Type) where
  | dir
  | file (c : Option C)
  deriving DecidableEq

/-- State of the file system. -/
abbrev FS (C : Type) := Path → Option (Node C)

/-- Steps executed by the operating system. -/
inductive Step (C : Type) where
  /-- `os.makedirs(p, exist_ok=True)` -/
  | mkdirs (p : Path)
  /-- the content of a file is (re)placed -/
  | write (p : Path) (c : Option C)
  /-- `os.unlink` or `os.rmdir` -/
  | remove (p : Path)
  /-- `shutil.move(source, dest)`: into `dest` if this directory exists -/
  | move (source dest : Path)

/-- Rename a tree. -/
def rename (s d : Path) (fs : FS C) : FS C := fun q =>
  if d <+: q then fs (s ++ q.drop d.length)
  else if s <+: q then none
  else fs q

/-- Effect of a step. -/
def apply (fs : FS C) : Step C → FS C
  | .mkdirs p => fun q => if q <+: p ∧ (fs q).isNone then some .dir else fs q
  | .write p c => fun q => if q = p then some (.file c) else fs q
  | .remove p => fun q => if q = p then none else fs q
  | .move s d =>
    match fs d with
    | some .dir =>
      match s.getLast? with
      | some n => rename s (d ++ [n]) fs
      | none => fs
    | _ => rename s d fs

/-- Execute steps. -/
def run (fs : FS C) (steps : List (Step C)) : FS C := steps.foldl apply fs

/-- Writing a file through the mapper: the directory is created first.  If writes are not
atomic, there is a state in which the file is torn. -/
def fileSteps (atomic : Bool) (p : Path) (c : C) : List (Step C) :=
  [.mkdirs p.dropLast] ++ (if atomic then [] else [.write p none]) ++ [.write p (some c)]

/-- The files of a group; `body` holds the arrays, `.zattrs` and `.zgroup` in the order in
which they are written (storage.py:250-280 with `_write_meta` storage.py:196-219). -/
structure Group (C : Type) where
  zgroup : C
  body : List (Path × C)
  zmetadata : C

/-- `init_group` and then `write_zarr_group`: the consolidated metadata are written last. -/
def Group.writes (g : Group C) : List (Path × C) :=
  ([".zgroup"], g.zgroup) :: (g.body ++ [([".zmetadata"], g.zmetadata)])

/-- The steps that write a group into a directory. -/
def groupSteps (atomic : Bool) (dir : Path) (g : Group C) : List (Step C) :=
  g.writes.flatMap fun w => fileSteps atomic (dir ++ w.1) w.2

/-- The steps of `rmtree`, in the order in which the entries are removed. -/
def removeSteps (order : List Path) : List (Step C) := order.map .remove

/-- Everything below a directory disappears: the effect of a complete `fs.rm(recursive=True)`. -/
def removeTree (d : Path) (fs : FS C) : FS C := fun q => if d <+: q then none else fs q

/-- merging/__init__.py:90-93 (`_extract_root_dirname`). -/
def extractRoot (dirname : Path) : Path := dirname.filter fun c => '=' ∉ c.toList

/-- merging/__init__.py:113-115: the temporary directory of a partition.  `hash` stands for
the hexadecimal SHA-256 of the path. -/
def tempDir (hash : Path → String) (dirname : Path) : Path := extractRoot dirname ++ [hash dirname]

/-- merging/__init__.py:96-133 and 65-84 (`_update_fs` without exception, `_rename`): remove an
old temporary directory (`orderTemp`), write the new one, remove the partition
(`orderDest`), rename. -/
def replaceSteps (atomic : Bool) (temp dest : Path) (g : Group C) (orderTemp orderDest : List Path) :
    List (Step C) :=
  removeSteps orderTemp ++ groupSteps atomic temp g ++ removeSteps orderDest ++ [.move temp dest]

/-- Outcome of one attempt of `_rm` to remove a directory: everything is removed, or the
directory remains (with or without `OSError`) after some of its nodes were removed. -/
inductive Attempt where
  | complete
  | incomplete (removed : List Path)

/-- collection/detail.py:368-385 (`_rm`): the loop ends without error in all cases. -/
def rmLoop (d : Path) : Nat → List Attempt → FS C → FS C
  | 0, _, fs => fs
  | _ + 1, [], fs => fs
  | _ + 1, .complete :: _, fs => removeTree d fs
  | n + 1, .incomplete removed :: t, fs => rmLoop d n t (run fs (removeSteps removed))

/-- `_rm` with its ten tries. -/
def rm (d : Path) (attempts : List Attempt) (fs : FS C) : FS C := rmLoop d 10 attempts fs

/-- collection/detail.py:417: a partition exists if it has consolidated metadata. -/
def partitionExists (d : Path) (fs : FS C) : Bool := (fs (d ++ [".zmetadata"])).isSome

/-- collection/detail.py:430-442 (`_insert` of a new partition, no exception raised by the
writes): `init_group` raises `ContainsGroupError` (a `ValueError`) if the directory already
holds a group or an array; the directory is then removed. -/
def insertNew (atomic : Bool) (d : Path) (g : Group C) (fs : FS C) : FS C × Option PyErr :=
  if (fs (d ++ [".zarray"])).isSome ∨ (fs (d ++ [".zgroup"])).isSome then
    (removeTree d fs, some .valueError)
  else (run fs (groupSteps atomic d g), none)

/-- collection/detail.py:430-442 (`_insert` of a new partition) when an exception is raised
after `done` steps of the writes: `extra` are the steps of the threads still running, of the
torn write and of the handler `del_zarr_array` (storage.py:380-400), which removes the
directory of the variable and writes the consolidated metadata; then `_rm` is called and the
exception is raised again. -/
def failedInsertNew (atomic : Bool) (d : Path) (g : Group C) (done : Nat) (extra : List (Step C))
    (attempts : List Attempt) (e : PyErr) (fs : FS C) : FS C × Option PyErr :=
  (rm d attempts (run fs ((groupSteps atomic d g).take done ++ extra)), some e)

/-- The steps of `_update_fs` before its `try` block: an old temporary directory is removed
and the group is initialised (merging/__init__.py:116-120). -/
def prepareSteps (atomic : Bool) (temp : Path) (g : Group C) (orderTemp : List Path) :
    List (Step C) :=
  removeSteps orderTemp ++ fileSteps atomic (temp ++ [".zgroup"]) g.zgroup

/-- The steps inside the `try` block of `_update_fs` (merging/__init__.py:123-125). -/
def bodySteps (atomic : Bool) (temp : Path) (g : Group C) : List (Step C) :=
  (g.body ++ [([".zmetadata"], g.zmetadata)]).flatMap fun w => fileSteps atomic (temp ++ w.1) w.2

/-- Where an exception is raised during the replacement of a partition. -/
inductive Failure where
  /-- by `open_zarr_group` or by the merge callback (merging/__init__.py:169-174) -/
  | merge
  /-- after some steps of merging/__init__.py:116-120 -/
  | prepare (done : Nat)
  /-- after some steps of `write_zarr_group` -/
  | body (done : Nat)
  /-- by `shutil.move` -/
  | move

/-- merging/__init__.py:136-175 with an exception: only the failure of `write_zarr_group` is
followed by the removal of the temporary directory (merging/__init__.py:126-130), supposed
to succeed. -/
def failedReplace (atomic : Bool) (temp : Path) (g : Group C) (orderTemp orderDest : List Path)
    (extra : List (Step C)) (e : PyErr) (fs : FS C) : Failure → FS C × Option PyErr
  | .merge => (fs, some e)
  | .prepare n => (run fs ((prepareSteps atomic temp g orderTemp).take n), some e)
  | .body n =>
    (removeTree temp (run fs (prepareSteps atomic temp g orderTemp ++
      ((bodySteps atomic temp g).take n ++ extra))), some e)
  | .move =>
    (run fs (prepareSteps atomic temp g orderTemp ++ bodySteps atomic temp g ++
      removeSteps orderDest), some e)

/-- What is stored below a directory. -/
def sub (fs : FS C) (d : Path) : Path → Option (Node C) := fun rel => fs (d ++ rel)

/-- collection/detail.py:388-442 (`_insert`) when nothing fails: `merged` gives the group to
write from the stored one (merging/__init__.py:136-175).  The replacement is given by its
complete effect. -/
def insertPartition (atomic : Bool) (hash : Path → String) (d : Path) (inserted : Group C)
    (merged : (Path → Option (Node C)) → Group C) (fs : FS C) : FS C × Option PyErr :=
  if partitionExists d fs then
    let temp := tempDir hash d
    let fs1 := run (removeTree temp fs) (groupSteps atomic temp (merged (sub fs d)))
    (apply (removeTree d fs1) (.move temp d), none)
  else insertNew atomic d inserted fs

end Verif.Storage
