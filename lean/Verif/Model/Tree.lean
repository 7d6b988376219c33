import Verif.Model.Py
import Verif.Model.Sort
import Verif.Model.Dataset
import Verif.Model.Batches

/-!
Model of the walks and copies of directory trees: `zcollection/fs_utils.py` and
`Collection.copy` (`zcollection/collection/__init__.py`).

A path is the list of its components.  Two file systems are two directories of the same state, so
that a copy from one file system to another is a copy between two directories that do not contain
each other.
-/

namespace Verif.Tree

open Ds (mapPy)

/-- The components of a path. -/
abbrev Path := List String

/-- What is stored at a path. -/
inductive Entry (C : Type) where
  | file (c : C)
  | dir
deriving DecidableEq

/-- A file system: what is stored at each path, and the names in each directory, in the order in
which the file system lists them. -/
structure FS (C : Type) where
  content : Path → Option (Entry C)
  names : Path → List String

variable {C : Type}

/-- Is there a directory at this path? -/
def isDir (fs : FS C) (p : Path) : Bool :=
  match fs.content p with
  | some .dir => true
  | _ => false

/-- Add an entry to a directory. -/
def addEntry (fs : FS C) (parent : Path) (n : String) (e : Entry C) : FS C where
  content := fun x => if x = parent ++ [n] then some e else fs.content x
  names := fun x => if x = parent ∧ n ∉ fs.names x then fs.names x ++ [n] else fs.names x

/-- `os.makedirs(path, exist_ok=True)`, the directories of `done` exist. -/
def makedirs (fs : FS C) (done : Path) : Path → Py (FS C)
  | [] => .ok fs
  | n :: t => match fs.content (done ++ [n]) with
    | none => makedirs (addEntry fs done n .dir) (done ++ [n]) t
    | some .dir => makedirs fs (done ++ [n]) t
    | some (.file _) => .error .osError

/-- `fs.mkdir(path)` of fsspec, with `create_parents=True` (its default). -/
def mkdir (fs : FS C) (p : Path) : Py (FS C) :=
  if fs.content p ≠ none then .error .osError
  else makedirs fs [] p

/-- `fs.open(path, 'wb')` followed by the writing of the whole file. -/
def writeFile (fs : FS C) (p : Path) (c : C) : Py (FS C) :=
  match p.getLast? with
  | none => .error .osError
  | some n =>
    if isDir fs p.dropLast = false then .error .osError
    else if isDir fs p then .error .osError
    else .ok (addEntry fs p.dropLast n (.file c))

/-- fs_utils.py:111-127 `copy_file` -/
def copyFile (fs : FS C) (source target : Path) : Py (FS C) :=
  match fs.content source with
  | some (.file c) => writeFile fs target c
  | _ => .error .osError

/-- `fs.ls(path)`: the names of a directory, the file itself, or nothing when there is nothing at
this path (`FileNotFoundError`). -/
def ls (fs : FS C) (p : Path) : Option (List Path) :=
  match fs.content p with
  | none => none
  | some (.file _) => some [p]
  | some .dir => some ((fs.names p).map fun n => p ++ [n])

/-- The last component of a path (`name.rsplit(SEPARATOR, 1)[-1]`, `os.path.basename`). -/
def baseName (p : Path) : String :=
  match p.getLast? with
  | none => ""
  | some n => n

/-- Sorted strings (fs_utils.py:99-101). -/
def sortNames (sort : Bool) (l : List String) : List String :=
  if sort then Sort.isort (fun a b => decide (a ≤ b)) l else l

/-- Sorted paths of a same directory: the order of the strings is that of the last components. -/
def sortPaths (sort : Bool) (l : List Path) : List Path :=
  if sort then Sort.isort (fun a b => decide (baseName a ≤ baseName b)) l else l

/-- fs_utils.py:67-108 `fs_walk`.  The number is the recursion limit of Python
(`RecursionError`).  The generator is consumed entirely. -/
def walk (fs : FS C) (sort : Bool) : Nat → Path → Py (List (Path × List Path × List String))
  | 0, _ => .error .runtimeError
  | k + 1, p => match ls fs p with
    | none => .ok [([], [], [])]
    | some listing =>
      let dirs := sortPaths sort (listing.filter (isDir fs))
      let files := sortNames sort ((listing.filter fun x => !isDir fs x).map baseName)
      match mapPy (walk fs sort k) dirs with
      | .error e => .error e
      | .ok rest => .ok ((p, dirs, files) :: rest.flatten)

/-- `os.path.relpath(path, start)`. -/
def relpath : Path → Path → Path
  | a :: p, b :: s => if a = b then relpath p s else (b :: s).map (fun _ => "..") ++ (a :: p)
  | [], b :: s => (b :: s).map fun _ => ".."
  | p, [] => if p = [] then ["."] else p

/-- A loop that modifies the file system. -/
def forEach {α : Type} (f : FS C → α → Py (FS C)) (fs : FS C) : List α → Py (FS C)
  | [] => .ok fs
  | a :: t => match f fs a with
    | .error e => .error e
    | .ok fs => forEach f fs t

/-- fs_utils.py:171-179, one directory of the walk: the files are copied, the directories are
created. -/
def copyItem (source target : Path) (fs : FS C) (item : Path × List Path × List String) :
    Py (FS C) :=
  match forEach (fun fs name => copyFile fs (item.1 ++ [name])
      (target ++ relpath (item.1 ++ [name]) source)) fs item.2.2 with
  | .error e => .error e
  | .ok fs => forEach (fun fs d => mkdir fs (target ++ relpath d source)) fs item.2.1

/-- fs_utils.py:151-179 `copy_tree` -/
def copyTree (limit : Nat) (fs : FS C) (source target : Path) : Py (FS C) :=
  if fs.content target ≠ none then .error .valueError
  else match mkdir fs target with
    | .error e => .error e
    | .ok fs => match walk fs false limit source with
      | .error e => .error e
      | .ok w => forEach (copyItem source target) fs w

/-- fs_utils.py:130-148 `copy_files` -/
def copyFiles (fs : FS C) (sources : List Path) (target : Path) : Py (FS C) :=
  forEach (fun fs p => copyFile fs p (target ++ [baseName p])) fs sources

/-- collection/__init__.py:729-758 `Collection.copy`, up to the opening of the copy.  `partitions`
are the paths listed with the filter.  Simplification: the blocks of partitions are copied one
after the other (they are copied in parallel by dask). -/
def copyCollection (limit : Nat) (fs : FS C) (base target : Path) (partitions : List Path)
    (npartitions : Int) : Py (FS C) :=
  match Batches.splitSequence (partitions.map fun p => (p, target ++ relpath p base))
      (some npartitions) with
  | .error e => .error e
  | .ok blocks => match forEach (fun fs block =>
      forEach (fun fs arg => copyTree limit fs arg.1 arg.2) fs block) fs blocks with
    | .error e => .error e
    | .ok fs => match ls fs base with
      | none => .error .osError
      | some listing => copyFiles fs (listing.filter fun x => !isDir fs x) target

end Verif.Tree
