import Verif.Model.Listing
import Verif.Model.Schema

/-!
Model of the directories of a collection: the calls of Model/Schema with the directories that
they create and remove, and the listing of the directories (Model/Listing) that they use.

Simplifications: the directory of a partition is empty here (its files are in the store of
Model/Schema and in Model/Storage); the temporary directory of a replaced partition
(merging/__init__.py:96-133) is created and removed by the same call, and the removal of a
directory after a failure succeeds (Model/Storage treats the other cases).
-/

namespace Verif.Dir

open Ds Upd Sch Listing

variable {P V : Type} [DecidableEq P]

/-- A partitioning, as far as the names of the directories are concerned: the names of the keys,
the format of their values, the keys and values of a partition (`_partition`,
partitioning/abc.py:283-285, partitioning/date.py:110-119), and the partition of parsed keys. -/
structure Naming (P : Type) where
  first : String
  others : List String
  fmt : Int → List Char
  kvs : P → Py (List (String × Int))
  back : List (String × Int) → Option P

/-- The names of the keys. -/
def Naming.keys (nm : Naming P) : List String := nm.first :: nm.others

/-- partitioning/sequence.py, partitioning/abc.py:283-285: one directory for each variable of the
partitioning. -/
def sequence (first : String) (others : List String) : Naming (List Int) where
  first := first
  others := others
  fmt := Path.fmtInt
  kvs l := if l.length = others.length + 1 then .ok ((first :: others).zip l)
    else .error .valueError
  back l := some (l.map (·.2))

/-- The instant of the fields of a date, the missing ones being the first. -/
def secondsOf (fields : List Int) : Option Int :=
  match fields with
  | [y] => some (Cal.daysOfCivil y 1 1 * 86400)
  | [y, m] => some (Cal.daysOfCivil y m 1 * 86400)
  | [y, m, d] => some (Cal.daysOfCivil y m d * 86400)
  | [y, m, d, h] => some (Cal.daysOfCivil y m d * 86400 + h * 3600)
  | [y, m, d, h, mi] => some (Cal.daysOfCivil y m d * 86400 + h * 3600 + mi * 60)
  | [y, m, d, h, mi, s] => some (Cal.daysOfCivil y m d * 86400 + h * 3600 + mi * 60 + s)
  | _ => none

/-- partitioning/date.py:77-119: the directories of the fields of a date. -/
def date (res : Cal.Res) : Naming (List Int) where
  first := "year"
  others := ["month", "day", "hour", "minute", "second"].take res.index
  fmt := Path.fmt02
  kvs l := match l with
    | [v] => Cal.decode res v
    | _ => .error .valueError
  back l := (secondsOf (l.map (·.2))).map fun s => [Cal.toUnit res s]

/-- The names of the directories of a partition, from the root of the collection. -/
def components (nm : Naming P) (p : P) : Py (List (List Char)) := do
  let l ← nm.kvs p
  .ok (l.map fun kv => kv.1.toList ++ '=' :: nm.fmt kv.2)

/-- Replaces an entry of a directory, or adds it. -/
def setEntry (name : List Char) (n : Node) : List (List Char × Node) → List (List Char × Node)
  | [] => [(name, n)]
  | e :: t => if e.1 = name then (name, n) :: t else e :: setEntry name n t

/-- The entry of a directory, or an empty directory. -/
def below (name : List Char) (es : List (List Char × Node)) : Node :=
  match es.lookup name with
  | none => .dir []
  | some n => n

/-- `os.makedirs(path, exist_ok=True)` below a node: a file on the way raises. -/
def makedirs : List (List Char) → Node → Py Node
  | _, .file => .error .osError
  | [], .dir es => .ok (.dir es)
  | c :: cs, .dir es => do
    let n ← makedirs cs (below c es)
    .ok (.dir (setEntry c n es))

/-- `fs.rm(path, recursive=True)` below a node: the last directory disappears, those above stay,
even when they are empty; a path that does not exist raises. -/
def rmtree : List (List Char) → Node → Py Node
  | _, .file => .error .osError
  | [], .dir _ => .error .osError
  | [c], .dir es =>
    match es.lookup c with
    | none => .error .osError
    | some _ => .ok (.dir (es.filter fun e => decide (e.1 ≠ c)))
  | c :: c' :: cs, .dir es =>
    match es.lookup c with
    | none => .error .osError
    | some n => do
      let n ← rmtree (c' :: cs) n
      .ok (.dir (setEntry c n es))

/-- partitioning/abc.py:414-428, collection/abc.py:309-365: the partitions of the directory,
without filter. -/
def listKeys (nm : Naming P) (base : List Char) (root : Node) : Py (List P) := do
  let l ← sortedPartitions nm.keys nm.keys.length base root
  mapPy (fun path => do
    let kvs ← Path.parse nm.keys path
    match nm.back kvs with
    | none => .error .valueError
    | some p => .ok p) l

/-- The files of a collection and its directories. -/
structure Disk (P V : Type) where
  files : Files P V
  root : Node

/-- collection/detail.py:415-442 `_insert`: the directory of a new partition is created; it is
removed if the insertion fails (`_rm` ignores the errors). -/
def insertTask (nm : Naming P) (merge : Option (Merge V)) (faults : Faults P) (dim : String)
    (zds : Dataset V) (st : Store P V) (root : Node) (piece : P × (Nat × Nat)) :
    (Store P V × Node) × Py Unit :=
  match (do
    let path ← components nm piece.1
    let new ← makedirs path root
    .ok (path, new) : Py (List (List Char) × Node)) with
  | .error e => ((st, root), .error e)
  | .ok (path, new) =>
    match Sch.insertTask merge faults dim zds st piece with
    | .ok st' => ((st', new), .ok ())
    | .error e =>
      match st piece.1 with
      | some _ => ((st, new), .error e)
      | none =>
        match rmtree path new with
        | .ok root' => ((st, root'), .error e)
        | .error _ => ((st, new), .error e)

/-- storage.py:47-82 `execute_transaction`, for the insertions of a batch. -/
def insertBatch (nm : Naming P) (merge : Option (Merge V)) (faults : Faults P) (dim : String)
    (zds : Dataset V) (st : Store P V) (root : Node) :
    List (P × (Nat × Nat)) → (Store P V × Node) × Py Unit
  | [] => ((st, root), .ok ())
  | x :: t =>
    match insertTask nm merge faults dim zds st root x with
    | ((st, root), .ok ()) => insertBatch nm merge faults dim zds st root t
    | ((st, root), .error e) => ((insertBatch nm merge faults dim zds st root t).1, .error e)

/-- collection/__init__.py:399-411: the batches, until one raises. -/
def insertAll (nm : Naming P) (merge : Option (Merge V)) (faults : Faults P) (dim : String)
    (zds : Dataset V) (st : Store P V) (root : Node) :
    List (List (P × (Nat × Nat))) → (Store P V × Node) × Py Unit
  | [] => ((st, root), .ok ())
  | b :: t =>
    match insertBatch nm merge faults dim zds st root b with
    | ((st, root), .ok ()) => insertAll nm merge faults dim zds st root t
    | ((st, root), .error e) => ((st, root), .error e)

/-- collection/__init__.py:389-391: the split gives the names of the directories, so that it
raises for a partition that has none. -/
def splitNamed (nm : Naming P) (w : World P V) (zds : Dataset V) :
    Py (List (P × (Nat × Nat))) := do
  let pieces ← w.split zds
  let _ ← mapPy (fun x => nm.kvs x.1) pieces
  .ok pieces

/-- An entry of the root of the collection. -/
def setRoot (name : List Char) (n : Node) : Node → Node
  | .file => .file
  | .dir es => .dir (setEntry name n es)

/-- collection/__init__.py:379-384, collection/abc.py:66: the directory `.immutable` is created
by the first insertion. -/
def rootImm (before after : Files P V) (root : Node) : Node :=
  match before.imm, after.imm with
  | none, some _ => setRoot ".immutable".toList (.dir []) root
  | _, _ => root

/-- collection/__init__.py:375-414, once the variables are prepared. -/
def insertReady (nm : Naming P) (w : World P V) (o : Obj V) (faults : Faults P)
    (npartitions : Option Int) (merge : Option (Merge V)) (zds : Dataset V) (d : Disk P V) :
    Disk P V × Py (List P) :=
  match takeImmutable o zds d.files with
  | (fs, .error e) => (⟨fs, rootImm d.files fs d.root⟩, .error e)
  | (fs, .ok zds) =>
    let root := rootImm d.files fs d.root
    match splitNamed nm w zds with
    | .error e => (⟨fs, root⟩, .error e)
    | .ok pieces =>
      match Batches.insertBatches pieces npartitions with
      | .error e => (⟨fs, root⟩, .error e)
      | .ok batches =>
        match insertAll nm merge faults o.dim zds fs.parts root batches with
        | ((st, root), .ok ()) => (⟨{ fs with parts := st }, root⟩, .ok (pieces.map (·.1)))
        | ((st, root), .error e) => (⟨{ fs with parts := st }, root⟩, .error e)

/-- collection/__init__.py:301-414 `insert` -/
def insert (nm : Naming P) (w : World P V) (o : Obj V) (faults : Faults P) (validate : Bool)
    (npartitions : Option Int) (merge : Option (Merge V)) (ds : Dataset V) (d : Disk P V) :
    Disk P V × Py (List P) :=
  match missing o.metas ds with
  | .error e => (d, .error e)
  | .ok ms =>
    match complete w ds ms with
    | (_, .error e) => (d, .error e)
    | (ds, .ok ()) =>
      if validate && !w.sameMeta ds o.metas then (d, .error .valueError)
      else
        match setForInsertion ds with
        | .error e => (d, .error e)
        | .ok zds => insertReady nm w o faults npartitions merge zds d

/-- One removal: collection/__init__.py:463-466 `fs.rm(folder, recursive=True)`. -/
def removeTask (nm : Naming P) (fails : Bool) (st : Store P V) (root : Node) (p : P) :
    (Store P V × Node) × Py Unit :=
  if fails then ((st, root), .error .osError)
  else
    match (do
      let path ← components nm p
      rmtree path root : Py Node) with
    | .error e => ((st, root), .error e)
    | .ok root => ((fun q => if q = p then none else st q, root), .ok ())

/-- storage.py:47-82 `execute_transaction`: the removals are all tried, then an exception is
raised. -/
def removeEach (nm : Naming P) (faults : Faults P) (st : Store P V) (root : Node) :
    List P → (Store P V × Node) × Py Unit
  | [] => ((st, root), .ok ())
  | p :: t =>
    let r := removeTask nm (faults.del p) st root p
    let rest := removeEach nm faults r.1.1 r.1.2 t
    (rest.1, match r.2 with
      | .error e => .error e
      | .ok () => rest.2)

/-- collection/__init__.py:793-796: the removals of the invalid partitions, until one raises. -/
def removeInvalid (nm : Naming P) (st : Store P V) (root : Node) :
    List P → (Store P V × Node) × Py Unit
  | [] => ((st, root), .ok ())
  | p :: t =>
    match removeTask nm false st root p with
    | ((st, root), .ok ()) => removeInvalid nm st root t
    | ((st, root), .error e) => ((st, root), .error e)

/-- A call: the object, the files and the directories afterwards, and whether it raised.  The
calls other than `insert` begin with the listing of the directories; for those that check their
arguments first, the exception of the listing comes here before the others. -/
def exec (nm : Naming P) (base : List Char) (w : World P V) (o : Obj V) (d : Disk P V)
    (c : Call P V) : Obj V × Disk P V × Py Unit :=
  if o.readOnly ∧ c.method ∈ replaced then (o, d, .error .unsupportedOperation)
  else
    match c with
    | .insert faults validate npartitions merge ds =>
      let r := insert nm w o faults validate npartitions merge ds d
      (o, r.1, r.2.map fun _ => ())
    | c =>
      match listKeys nm base d.root with
      | .error e => (o, d, .error e)
      | .ok l =>
        match c with
        | .dropPartitions filters faults =>
          let r := removeEach nm faults d.files.parts d.root (l.filter filters)
          (o, ⟨{ d.files with parts := r.1.1 }, r.1.2⟩, r.2)
        | .validatePartitions filters true =>
          let r := removeInvalid nm d.files.parts d.root ((l.filter filters).filter w.broken)
          (o, ⟨{ d.files with parts := r.1.1 }, r.1.2⟩, r.2)
        | c =>
          let r := Sch.exec { w with list := fun _ => l } o d.files c
          (r.1, ⟨r.2.1, d.root⟩, r.2.2)

/-- What is done with a collection: a call of a method of an object, or the opening of the
collection (collection/__init__.py:254-298). -/
inductive Event (P V : Type) where
  | call (o : Obj V) (c : Call P V)
  | opened (readOnly : Bool)

/-- The files and the directories after an event. -/
def step (nm : Naming P) (base : List Char) (w : World P V) (d : Disk P V) :
    Event P V → Disk P V
  | .call o c => (exec nm base w o d c).2.1
  | .opened readOnly => { d with files := (fromConfig w readOnly d.files).1 }

/-- The files and the directories after events, whatever their outcomes. -/
def run (nm : Naming P) (base : List Char) (w : World P V) (d : Disk P V)
    (events : List (Event P V)) : Disk P V :=
  events.foldl (step nm base w) d

/-- collection/__init__.py:192-197, 225-252: a new collection has its configuration only. -/
def created (c : ConfigFile V) : Disk P V :=
  ⟨⟨c, fun _ => none, none⟩, .dir [(".zcollection".toList, .file)]⟩

end Verif.Dir
