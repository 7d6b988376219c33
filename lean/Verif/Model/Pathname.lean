import Verif.Model.Listing
import Verif.Model.Dataset

/-!
The texts of paths: `zcollection/fs_utils.py` (`join_path`, `normalize_path`), the relative paths
of partitions (`zcollection/collection/abc.py`) and the paths of the partitions of a view
(`zcollection/view/__init__.py`, `zcollection/view/detail.py`).

`posixpath.normpath`, `posixpath.relpath` and `pathlib.PurePosixPath.relative_to` are transcribed
from the standard library of Python.
-/

namespace Verif.Pn

open Path (joinNames)

/-- `text.split('/')` -/
def splitSep : List Char → List (List Char)
  | [] => [[]]
  | c :: s =>
    if c = '/' then [] :: splitSep s
    else
      match splitSep s with
      | [] => [[c]]
      | h :: t => (c :: h) :: t

/-- The number of slashes at the beginning, as POSIX counts them: exactly two slashes are kept,
three or more are one (`posixpath.normpath`, `posixpath.splitroot`). -/
def slashes : List Char → Nat
  | '/' :: '/' :: '/' :: _ => 1
  | '/' :: '/' :: _ => 2
  | '/' :: _ => 1
  | _ => 0

/-- The loop of `posixpath.normpath`; `acc` is `new_comps` with its last element first. -/
def normLoop (initial : Nat) : List (List Char) → List (List Char) → List (List Char)
  | acc, [] => acc
  | acc, c :: t =>
    if c = [] ∨ c = ['.'] then normLoop initial acc t
    else if c ≠ ['.', '.'] ∨ (initial = 0 ∧ acc = []) ∨ acc.head? = some ['.', '.'] then
      normLoop initial (c :: acc) t
    else normLoop initial (acc.drop 1) t

/-- `posixpath.normpath` -/
def normpath (path : List Char) : List Char :=
  match List.replicate (slashes path) '/' ++
      joinNames (normLoop (slashes path) [] (splitSep path)).reverse with
  | [] => ['.']
  | c :: t => c :: t

/-- What `normalize_path` asks of a file system: `fs._strip_protocol`, and whether
`fs.protocol in ('file', 'memory')`. -/
structure Fs where
  strip : List Char → List Char
  normal : Bool

/-- fs_utils.py:25-44 `normalize_path`; `fs.sep` is `/`. -/
def normalizePath (fs : Fs) (path : List Char) : List Char :=
  let path := fs.strip path
  let path := if path = [] then ['/'] else path
  if fs.normal then normpath path else path

/-- `text.rstrip('/')` -/
def rstrip (path : List Char) : List Char := (path.reverse.dropWhile (· == '/')).reverse

/-- `fsspec.implementations.local.LocalFileSystem` on POSIX, for paths without protocol and
without `~`: paths that are not absolute are taken below the working directory. -/
def localFs (cwd : List Char) (normal : Bool) : Fs where
  strip p :=
    let p := match p with
      | '/' :: _ => p
      | _ => cwd ++ '/' :: p
    if rstrip p = [] then ['/'] else rstrip p
  normal := normal

/-- `fsspec.implementations.memory.MemoryFileSystem`, for paths without protocol:
`path.lstrip('/').rstrip('/')`, and `'/' + path if path else ''`. -/
def memoryFs : Fs where
  strip p :=
    let p := rstrip (p.dropWhile (· == '/'))
    if p = [] then [] else '/' :: p
  normal := true

/-- The components of `pathlib.PurePosixPath(text)`: empty ones and `.` are dropped. -/
def parts (text : List Char) : List (List Char) :=
  (splitSep text).filter fun c => !(c.isEmpty || c == ['.'])

/-- `pathlib.PurePosixPath(path).relative_to(base).as_posix()`: `ValueError` unless the root and
the components of `base` are the first ones of `path`. -/
def relativeTo (path base : List Char) : Py (List Char) :=
  if slashes path = slashes base ∧ (parts base).isPrefixOf (parts path) then
    match (parts path).drop (parts base).length with
    | [] => .ok ['.']
    | c :: t => .ok (joinNames (c :: t))
  else .error .valueError

/-- `posixpath.abspath` -/
def abspath (cwd path : List Char) : List Char :=
  match path with
  | '/' :: _ => normpath path
  | _ => normpath (cwd ++ '/' :: path)

/-- The length of `os.path.commonprefix([a, b])` of two lists. -/
def common : List (List Char) → List (List Char) → Nat
  | x :: a, y :: b => if x = y then common a b + 1 else 0
  | _, _ => 0

/-- `posixpath.relpath(path, start)`; an empty `path` raises `ValueError`. -/
def relpath (cwd path start : List Char) : Py (List Char) :=
  if path = [] then .error .valueError
  else
    let s := (splitSep (abspath cwd start)).filter fun c => !c.isEmpty
    let p := (splitSep (abspath cwd path)).filter fun c => !c.isEmpty
    let i := common s p
    match List.replicate (s.length - i) ['.', '.'] ++ p.drop i with
    | [] => .ok ['.']
    | c :: t => .ok (joinNames (c :: t))

/-- The directory as the paths listed below it begin: the entries of the root are `/name`, and
not `//name` (`fs.ls`). -/
def listed (base : List Char) : List Char := if base = ['/'] then [] else base

/-- A collection: the names of its keys, its directory, the directory of immutable variables and
the tree below the directory. -/
structure Coll where
  keys : List String
  dir : List Char
  immutable : Option (List Char)
  root : Listing.Node

/-- collection/abc.py:309-365 `partitions`, with the directory at the root of the file system
too.  `Listing.partitions` is the case of the other directories. -/
def Coll.partitions (c : Coll) (expr : Option (List (String × Int) → Py Bool)) :
    Py (List (List Char)) := do
  let l ← Listing.sortedPartitions c.keys c.keys.length (listed c.dir) c.root
  Listing.select c.keys c.dir c.immutable expr l

/-- collection/abc.py:298-307, 362: `partitions(relative=True)`. -/
def Coll.relative (c : Coll) (expr : Option (List (String × Int) → Py Bool)) :
    Py (List (List Char)) := do
  let l ← c.partitions expr
  Ds.mapPy (fun p => relativeTo p c.dir) l

/-- view/__init__.py:198-213 `View.partitions`; `found` is `fs.exists`. -/
def viewPartitions (c : Coll) (base : List Char) (found : List Char → Bool)
    (expr : Option (List (String × Int) → Py Bool)) : Py (List (List Char)) := do
  let l ← c.relative expr
  .ok ((l.map fun r => joinNames [base, r]).filter found)

/-- view/detail.py:530-532 (`_write_checksum`): the partition of the reference for the path of
a partition of the view. -/
def referenceOf (c : Coll) (base p : List Char) : Py (List Char) := do
  let r ← relativeTo p base
  .ok (joinNames [c.dir, r])

/-- The arguments of one task of `_write_checksum`. -/
def checksumTask (c : Coll) (base p : List Char) : Py (List Char × List Char) := do
  let r ← referenceOf c base p
  .ok (p, r)

/-- view/__init__.py:106-127 `_init_partitions`: for each selected partition that the view lacks,
its path and the partition of the reference that the checksum is computed from. -/
def initArguments (c : Coll) (base : List Char) (found : List Char → Bool)
    (expr : Option (List (String × Int) → Py Bool)) : Py (List (List Char × List Char)) := do
  let l ← c.relative expr
  Ds.mapPy (checksumTask c base) ((l.map fun r => joinNames [base, r]).filter fun p => !found p)

/-- view/__init__.py:375-376 (`View.load` without indexer): the keys that are parsed from the
paths of the partitions of the view. -/
def loadKeys (c : Coll) (base : List Char) (found : List Char → Bool)
    (expr : Option (List (String × Int) → Py Bool)) : Py (List (List (String × Int))) := do
  let l ← viewPartitions c base found expr
  Ds.mapPy (Path.parse c.keys) l

/-- collection/__init__.py:726-737 (`copy`): the path of the copy of a partition below
`target`. -/
def copyPath (cwd target : List Char) (c : Coll) (p : List Char) : Py (List Char) := do
  let r ← relpath cwd p c.dir
  .ok (joinNames [target, r])

/-- fs_utils.py:46-64 `get_fs`: nothing and the empty name are the local file system, a name is
looked up by `fsspec.filesystem`, which raises `ValueError` for an unknown protocol. -/
def getFs {F : Type} (known : String → Option F) : Option (String ⊕ F) → Py F
  | some (.inr fs) => .ok fs
  | some (.inl name) =>
    match known (if name = "" then "file" else name) with
    | some fs => .ok fs
    | none => .error .valueError
  | none =>
    match known "file" with
    | some fs => .ok fs
    | none => .error .valueError

/-- collection/__init__.py:723-724 (`copy`): the file system that the copy is written to. -/
def copyFs {F : Type} (known : String → Option F) (target : String) (filesystem : Option F) :
    Py F :=
  match filesystem with
  | none => getFs known (some (.inl target))
  | some fs => .ok fs

end Verif.Pn
