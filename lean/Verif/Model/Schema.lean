import Verif.Model.Load
import Verif.Model.Batches

/-!
A `Collection` object and its files: opening, insertion of datasets, addition and removal of
variables, read-only mode (zcollection/collection/__init__.py, collection/abc.py,
collection/detail.py, storage.py, meta.py).

Simplifications: the files of a collection are its configuration, its partitions and the
immutable dataset, each holding variables (the files of a partition are in Model/Storage, the
chunks in Model/Chunks); the variables of the configuration keep all their properties
(Model/Meta); the attributes, chunk sizes and block size limit of the datasets are not
modelled.  `P` is the type of the paths of the partitions.
-/

namespace Verif.Sch

open Nd Ds Upd

variable {P V : Type} [DecidableEq P]

/-- The file `.zcollection` (collection/__init__.py:239-247): the axis, the variables of the
partitioning, the dimensions and the variables of the metadata. -/
structure Config (V : Type) where
  axis : String
  keys : List String
  dims : List String
  metas : List (VarMeta V)

/-- The state of the file `.zcollection`; `torn` is a file that is not valid JSON. -/
inductive ConfigFile (V : Type) where
  | absent
  | torn
  | ok (c : Config V)

/-- The files of a collection. -/
structure Files (P V : Type) where
  config : ConfigFile V
  parts : Store P V
  imm : Option (List (Var V))

/-- A `Collection` object (collection/abc.py:193-228): the axis, the partitioning, the
metadata, the dimension of the partitioning, whether `_immutable` is set, and the mode. -/
structure Obj (V : Type) where
  axis : String
  keys : List String
  dims : List String
  metas : List (VarMeta V)
  dim : String
  imm : Bool
  readOnly : Bool

/-- What is outside of zcollection: what an array of zarr without fill value holds when it was
not written, the conversion of `None` to the type of a variable, whether the metadata of a
variable can be written as JSON, what dask does for a bag without element, the listing of the
partitions (Model/Listing), the split of a dataset along a dimension (Model/Split), the
equality of the metadata of a dataset with those of the collection (Model/Meta), and the
partitions whose arrays cannot be read. -/
structure World (P V : Type) where
  undef : List Nat → V
  noneValue : Py V
  serial : VarMeta V → Bool
  emptyBag : Py Unit
  list : Store P V → List P
  split : Dataset V → Py (List (P × (Nat × Nat)))
  sameMeta : Dataset V → List (VarMeta V) → Bool
  broken : P → Bool

/-- The failures of the file system during a call: for the tasks that create or write,
`some true` after the array was created, `some false` before; for the tasks that delete; for
the tasks of an insertion. -/
structure Faults (P : Type) where
  add : P → Option Bool
  del : P → Bool
  write : P → Bool

/-- No failure. -/
def Faults.never : Faults P := ⟨fun _ => none, fun _ => false, fun _ => false⟩

/-- The names of variables. -/
def metaNames (metas : List (VarMeta V)) : List String := metas.map (·.name)

/-! ### Opening -/

/-- collection/__init__.py:225-247 `_write_config` (meta.py:307-326: the variables sorted by
name).  `json.dump` writes while it encodes: if a value cannot be encoded, the file is
torn. -/
def writeConfig (w : World P V) (o : Obj V) (fs : Files P V) : Files P V × Py Unit :=
  if o.metas.all w.serial then
    ({ fs with config := ConfigFile.ok (Config.mk o.axis o.keys o.dims
        (Sort.isort (fun a b => decide (a.name ≤ b.name)) o.metas)) }, .ok ())
  else ({ fs with config := .torn }, .error .typeError)

/-- collection/abc.py:193-228 and 130-147, collection/__init__.py:171-197: the constructor.
In write mode the configuration is written unless it exists. -/
def init (w : World P V) (c : Config V) (readOnly : Bool) (fs : Files P V) :
    Files P V × Py (Obj V) :=
  match c.metas.find? fun m => decide (m.name = c.axis) with
  | none => (fs, .error .valueError)
  | some a =>
    if ∃ k ∈ c.keys, k ∉ metaNames c.metas then (fs, .error .valueError)
    else
      match a.dims with
      | [] => (fs, .error .indexError)
      | dim :: _ =>
        let o : Obj V :=
          { axis := c.axis, keys := c.keys, dims := c.dims, metas := c.metas, dim := dim,
            imm := c.metas.any fun m => decide (dim ∉ m.dims), readOnly := readOnly }
        if readOnly then (fs, .ok o)
        else
          match fs.config with
          | .absent =>
            match writeConfig w o fs with
            | (fs, .ok ()) => (fs, .ok o)
            | (fs, .error e) => (fs, .error e)
          | _ => (fs, .ok o)

/-- collection/__init__.py:254-298 `from_config`; a torn file raises
`json.JSONDecodeError`, which is a `ValueError`. -/
def fromConfig (w : World P V) (readOnly : Bool) (fs : Files P V) : Files P V × Py (Obj V) :=
  match fs.config with
  | .absent => (fs, .error .valueError)
  | .torn => (fs, .error .valueError)
  | .ok c => init w c readOnly fs

/-! ### Insertion -/

/-- meta.py:395-418 `missing_variables`.  Simplification: the code gives the names in the
order of a set, which is not specified; here it is the order of the metadata. -/
def missing (metas : List (VarMeta V)) (ds : Dataset V) : Py (List (VarMeta V)) :=
  if ∃ v ∈ ds.vars, v.name ∉ metaNames metas then .error .valueError
  else .ok (metas.filter fun m => decide (m.name ∉ ds.vars.map (·.name)))

/-- collection/__init__.py:363-367: `add_variable` on the dataset of the caller. -/
def complete (w : World P V) (ds : Dataset V) : List (VarMeta V) → Dataset V × Py Unit
  | [] => (ds, .ok ())
  | m :: t =>
    match Ds.addVariable ds m w.noneValue none with
    | (ds, .ok ()) => complete w ds t
    | (ds, .error e) => (ds, .error e)

/-- dataset.py:495-510 `set_for_insertion` -/
def setForInsertion (ds : Dataset V) : Py (Dataset V) :=
  mk ds.vars [] ds.chunks ds.limit none

/-- A merge callback: the stored dataset, the inserted one. -/
abbrev Merge (V : Type) := Dataset V → Dataset V → Py (Dataset V)

/-- merging/__init__.py:135-174 `perform`: the variables to write. -/
def perform (merge : Option (Merge V)) (delayed : Bool) (old : List (Var V))
    (inserted : Dataset V) : Py (Dataset V) :=
  match merge with
  | none => .ok inserted
  | some f => do
    let ds ← openGroup delayed none old
    f ds inserted

/-- collection/detail.py:388-442 `_insert`: the new content of a partition.  If it raises,
the partition is as before (C24, C25). -/
def insertTask (merge : Option (Merge V)) (faults : Faults P) (dim : String)
    (zds : Dataset V) (st : Store P V) (piece : P × (Nat × Nat)) : Py (Store P V) := do
  let ds ← isel zds [(dim, .slice ⟨some piece.2.1, some piece.2.2, none⟩)]
  let new ← match st piece.1 with
    | none => .ok ds
    | some old => perform merge zds.delayed old ds
  if faults.write piece.1 then .error .osError
  else .ok (setPart st piece.1 new.vars)

/-- storage.py:47-82 `execute_transaction`: the tasks of a batch are all executed, then an
exception is raised. -/
def insertBatch (merge : Option (Merge V)) (faults : Faults P) (dim : String)
    (zds : Dataset V) (st : Store P V) : List (P × (Nat × Nat)) → Store P V × Py Unit
  | [] => (st, .ok ())
  | x :: t =>
    match insertTask merge faults dim zds st x with
    | .ok st => insertBatch merge faults dim zds st t
    | .error e => ((insertBatch merge faults dim zds st t).1, .error e)

/-- collection/__init__.py:399-411: the batches, until one raises. -/
def insertAll (merge : Option (Merge V)) (faults : Faults P) (dim : String)
    (zds : Dataset V) (st : Store P V) : List (List (P × (Nat × Nat))) → Store P V × Py Unit
  | [] => (st, .ok ())
  | b :: t =>
    match insertBatch merge faults dim zds st b with
    | (st, .ok ()) => insertAll merge faults dim zds st t
    | (st, .error e) => (st, .error e)

/-- collection/__init__.py:50-74 `_write_immutable_dataset` and 378-386: the variables that
are not split are written once, then removed from the dataset.  The variables are selected
with the name of the axis, not with the dimension. -/
def takeImmutable (o : Obj V) (zds : Dataset V) (fs : Files P V) :
    Files P V × Py (Dataset V) :=
  if o.imm then
    match fs.imm with
    | some _ => (fs, selectByDims zds [o.axis] true)
    | none =>
      match selectByDims zds [o.axis] false with
      | .error e => (fs, .error e)
      | .ok ids =>
        if ids.vars = [] then (fs, .error .assertionError)
        else ({ fs with imm := some ids.vars }, selectByDims zds [o.axis] true)
  else (fs, .ok zds)

/-- collection/__init__.py:375-414, once the variables are prepared. -/
def insertReady (w : World P V) (o : Obj V) (faults : Faults P) (npartitions : Option Int)
    (merge : Option (Merge V)) (zds : Dataset V) (fs : Files P V) :
    Files P V × Py (List P) :=
  match takeImmutable o zds fs with
  | (fs, .error e) => (fs, .error e)
  | (fs, .ok zds) =>
    match w.split zds with
    | .error e => (fs, .error e)
    | .ok pieces =>
      match Batches.insertBatches pieces npartitions with
      | .error e => (fs, .error e)
      | .ok batches =>
        match insertAll merge faults o.dim zds fs.parts batches with
        | (st, .ok ()) => ({ fs with parts := st }, .ok (pieces.map (·.1)))
        | (st, .error e) => ({ fs with parts := st }, .error e)

/-- collection/__init__.py:301-414 `insert`: the dataset of the caller after the call, the
files and the outcome. -/
def insert (w : World P V) (o : Obj V) (faults : Faults P) (validate : Bool)
    (npartitions : Option Int) (merge : Option (Merge V)) (ds : Dataset V) (fs : Files P V) :
    Dataset V × Files P V × Py (List P) :=
  match missing o.metas ds with
  | .error e => (ds, fs, .error e)
  | .ok ms =>
    match complete w ds ms with
    | (ds, .error e) => (ds, fs, .error e)
    | (ds, .ok ()) =>
      if validate && !w.sameMeta ds o.metas then (ds, fs, .error .valueError)
      else
        match setForInsertion ds with
        | .error e => (ds, fs, .error e)
        | .ok zds => (ds, insertReady w o faults npartitions merge zds fs)

/-! ### Addition and removal of variables -/

/-- storage.py:47-82 `execute_transaction` of one task for each partition: the tasks are all
executed, then an exception is raised. -/
def runTasks (f : P → Option (List (Var V)) → Option (List (Var V)) × Py Unit)
    (st : Store P V) : List P → Store P V × Py Unit
  | [] => (st, .ok ())
  | p :: t =>
    let r := f p (st p)
    let rest := runTasks f (fun q => if q = p then r.1 else st q) t
    (rest.1, match r.2 with
      | .error e => .error e
      | .ok () => rest.2)

/-- collection/abc.py:660-677 `_bag_from_partitions` -/
def bag (w : World P V) (st : Store P V) : Py (List P) :=
  match w.list st with
  | [] => do
    let _ ← w.emptyBag
    .ok []
  | p :: t => .ok (p :: t)

/-- What an array holds where nothing was written (storage.py:438-445 `zarr.create`). -/
def blank (w : World P V) (fill : Option V) (idx : List Nat) : V :=
  match fill with
  | some f => f
  | none => w.undef idx

/-- storage.py:403-447 `add_zarr_array` for one partition.  If the template is not an array,
`zarr.open` gives a group, which has no shape; a dimension without axis raises `IndexError`;
`zarr.create` refuses an existing array.  The group that `zarr.open` creates is not
modelled. -/
def addTask (w : World P V) (tmpl : String) (m : VarMeta V) (faults : Faults P) (p : P)
    (cur : Option (List (Var V))) : Option (List (Var V)) × Py Unit :=
  match cur with
  | none => (none, .error .osError)
  | some vars =>
    match getVar vars tmpl with
    | none => (cur, .error .attributeError)
    | some t =>
      if t.array.shape.length < m.dims.length then (cur, .error .indexError)
      else if (getVar vars m.name).isSome then (cur, .error .valueError)
      else
        let v : Var V := { name := m.name, delayed := false, dims := m.dims,
                           array := tabulate t.array.shape (blank w m.fill), fill := m.fill,
                           props := m.props }
        match faults.add p with
        | none => (some (vars ++ [v]), .ok ())
        | some true => (some (vars ++ [v]), .error .osError)
        | some false => (cur, .error .osError)

/-- storage.py:380-400 `del_zarr_array` for one partition. -/
def delTask (name : String) (faults : Faults P) (p : P) (cur : Option (List (Var V))) :
    Option (List (Var V)) × Py Unit :=
  match cur with
  | none => (none, .ok ())
  | some vars =>
    if (getVar vars name).isSome then
      if faults.del p then (cur, .error .osError)
      else (some (vars.filter fun v => decide (v.name ≠ name)), .ok ())
    else (cur, .ok ())

/-- collection/__init__.py:612-618: a variable of the immutable dataset is not removed;
opening this dataset when nothing was inserted raises. -/
def checkImmutable (o : Obj V) (name : String) (fs : Files P V) : Py Unit :=
  if o.imm then
    match fs.imm with
    | none => .error .keyError
    | some iv => if (getVar iv name).isSome then .error .valueError else .ok ()
  else .ok ()

/-- collection/__init__.py:587-627 `drop_variable` -/
def dropVariable (w : World P V) (o : Obj V) (faults : Faults P) (name : String)
    (fs : Files P V) : Obj V × Files P V × Py Unit :=
  if name ∈ o.keys then (o, fs, .error .valueError)
  else if name ∉ metaNames o.metas then (o, fs, .error .valueError)
  else
    match checkImmutable o name fs with
    | .error e => (o, fs, .error e)
    | .ok () =>
      match bag w fs.parts with
      | .error e => (o, fs, .error e)
      | .ok l =>
        match runTasks (delTask name faults) fs.parts l with
        | (st, .error e) => (o, { fs with parts := st }, .error e)
        | (st, .ok ()) =>
          let o := { o with metas := o.metas.filter fun m => decide (m.name ≠ name) }
          let r := writeConfig w o { fs with parts := st }
          (o, r.1, r.2)

/-- collection/__init__.py:629-689 `add_variable` (meta.py:328-352 `add_variable`, 375-393
`search_same_dimensions_as`): the template is searched once the variable was added. -/
def addVariable (w : World P V) (o : Obj V) (faults : Faults P) (m : VarMeta V)
    (fs : Files P V) : Obj V × Files P V × Py Unit :=
  if o.dim ∉ m.dims then (o, fs, .error .valueError)
  else if m.name ∈ metaNames o.metas then (o, fs, .error .valueError)
  else if ∃ d ∈ m.dims, d ∉ o.dims then (o, fs, .error .valueError)
  else
    let o := { o with metas := o.metas ++ [m] }
    match writeConfig w o fs with
    | (fs, .error e) => (o, fs, .error e)
    | (fs, .ok ()) =>
      match o.metas.find? fun t => decide (t.dims = m.dims) with
      | none => (o, fs, .error .valueError)
      | some t =>
        match (match bag w fs.parts with
          | .error e => (fs.parts, .error e)
          | .ok l => runTasks (addTask w t.name m faults) fs.parts l :
            Store P V × Py Unit) with
        | (st, .ok ()) => (o, { fs with parts := st }, .ok ())
        | (st, .error e) =>
          match dropVariable w o faults m.name { fs with parts := st } with
          | (o, fs, .ok ()) => (o, fs, .error e)
          | (o, fs, .error e') => (o, fs, .error e')

/-! ### The methods of an object -/

/-- collection/__init__.py:417-475 `drop_partitions`, for the partitions selected by the
filters (the ages are in Model/Collection): they are removed one by one. -/
def dropPartitions (w : World P V) (filters : P → Bool) (faults : Faults P) (fs : Files P V) :
    Files P V × Py Unit :=
  let r := runTasks (fun p cur => if faults.del p then (cur, .error .osError)
    else (none, .ok ())) fs.parts ((w.list fs.parts).filter filters)
  ({ fs with parts := r.1 }, r.2)

/-- collection/__init__.py:760-797 `validate_partitions` (the check is in Model/Validate): the
invalid partitions are removed when `fix` is set. -/
def validatePartitions (w : World P V) (filters : P → Bool) (fix : Bool) (fs : Files P V) :
    Files P V × Py (List P) :=
  let invalid := ((w.list fs.parts).filter filters).filter w.broken
  if fix then
    ({ fs with parts := fun p => if p ∈ invalid then none else fs.parts p }, .ok invalid)
  else (fs, .ok invalid)

/-- The argument `selected_variables`: a list, which `+=` changes in place, or a tuple. -/
inductive Names where
  | list (l : List String)
  | tuple (l : List String)
deriving DecidableEq

/-- The names of the argument. -/
def Names.all : Names → List String
  | .list l => l
  | .tuple l => l

/-- collection/__init__.py:547-549: the argument of the caller after `+=`; adding a list to a
tuple raises `TypeError`. -/
def extendNames (depth : Int) (vars : List String) (sel : Option Names) :
    Option Names × Py Unit :=
  if depth = 0 then (sel, .ok ())
  else
    match sel with
    | none => (none, .ok ())
    | some (.list l) => (some (.list (l ++ vars.filter fun x => decide (x ∉ l))), .ok ())
    | some (.tuple l) => (some (.tuple l), .error .typeError)

/-- What the object passes to the functions of Model/Update. -/
def cfgOf (w : World P V) (o : Obj V) (delayed : Bool) (sel : Option (List String))
    (filters : P → Bool) (fs : Files P V) : Cfg P V :=
  { delayed := delayed, imm := if o.imm then some (match fs.imm with | some l => l | none => [])
      else none,
    sel := sel, depth := 0, dim := o.dim, trim := true,
    parts := (w.list fs.parts).filter filters }

/-- collection/__init__.py:478-585 `update`: the argument `selected_variables` of the caller
after the call, the files and the outcome.  Simplification: an immutable dataset that was
not written is taken for an empty one. -/
def update (w : World P V) (o : Obj V) (delayed : Bool) (sel : Option Names) (depth : Int)
    (filters : P → Bool) (f : Callback V (Dict V)) (isLazy : Bool) (vars : List String)
    (workers : Int) (fs : Files P V) : Option Names × Files P V × Py Unit :=
  let c := cfgOf w o delayed (sel.map Names.all) filters fs
  match (if vars = [] then infer c f (metaNames o.metas) fs.parts else .ok vars) with
  | .error e => (sel, fs, .error e)
  | .ok [] => (sel, fs, .ok ())
  | .ok (v :: vs) =>
    match extendNames depth (v :: vs) sel with
    | (sel, .error e) => (sel, fs, .error e)
    | (sel', .ok ()) =>
      let r := Upd.update c depth f isLazy (metaNames o.metas) (v :: vs) workers fs.parts
      (sel', { fs with parts := r.1 }, r.2)

/-- What a load does not change (collection/abc.py:606-612, 639-654). -/
def optsOf (o : Obj V) (delayed : Bool) (sel : Option (List String)) (fs : Files P V) :
    Ld.Opts V :=
  { dim := o.dim, delayed := delayed, sel := sel,
    imm := if o.imm then some (match fs.imm with | some l => l | none => []) else none }

/-- collection/abc.py:561-658 `load` -/
def load (w : World P V) (o : Obj V) (le : P → P → Bool) (delayed : Bool)
    (sel : Option (List String)) (filters : P → Bool)
    (indexer : Option (List (P × (Nat × Nat)))) (fs : Files P V) : Py (Option (Dataset V)) :=
  filled (metaNames o.metas) (match indexer with
    | none => Ld.load (optsOf o delayed sel fs) fs.parts (w.list fs.parts) filters
    | some ix => Ld.loadIndexed (optsOf o delayed sel fs) le fs.parts filters ix)

/-- A call of a method. -/
inductive Call (P V : Type) where
  | partitions (filters : P → Bool)
  | load (le : P → P → Bool) (delayed : Bool) (sel : Option (List String)) (filters : P → Bool)
      (indexer : Option (List (P × (Nat × Nat))))
  | map (delayed : Bool) (sel : Option (List String)) (filters : P → Bool)
      (f : Callback V Unit)
  | mapOverlap (delayed : Bool) (sel : Option (List String)) (filters : P → Bool) (depth : Nat)
      (f : Callback V Unit)
  | validatePartitions (filters : P → Bool) (fix : Bool)
  | insert (faults : Faults P) (validate : Bool) (npartitions : Option Int)
      (merge : Option (Merge V)) (ds : Dataset V)
  | update (delayed : Bool) (sel : Option Names) (depth : Int) (filters : P → Bool)
      (f : Callback V (Dict V)) (isLazy : Bool) (vars : List String) (workers : Int)
  | addVariable (faults : Faults P) (m : VarMeta V)
  | dropVariable (faults : Faults P) (name : String)
  | dropPartitions (filters : P → Bool) (faults : Faults P)

/-- The name of the method. -/
def Call.method : Call P V → String
  | .partitions _ => "partitions"
  | .load _ _ _ _ _ => "load"
  | .map _ _ _ _ => "map"
  | .mapOverlap _ _ _ _ _ => "map_overlap"
  | .validatePartitions _ _ => "validate_partitions"
  | .insert _ _ _ _ _ => "insert"
  | .update _ _ _ _ _ _ _ _ => "update"
  | .addVariable _ _ => "add_variable"
  | .dropVariable _ _ => "drop_variable"
  | .dropPartitions _ _ => "drop_partitions"

/-- collection/__init__.py:210-223 `_read_only_mode`: the methods that are replaced. -/
def replaced : List String :=
  ["add_variable", "drop_partitions", "drop_variable", "insert", "update"]

/-- A call: the object and the files afterwards, and whether it raised.  A replaced method
raises `io.UnsupportedOperation` (collection/__init__.py:205-208). -/
def exec (w : World P V) (o : Obj V) (fs : Files P V) (c : Call P V) :
    Obj V × Files P V × Py Unit :=
  if o.readOnly ∧ c.method ∈ replaced then (o, fs, .error .unsupportedOperation)
  else
    match c with
    | .partitions _ => (o, fs, .ok ())
    | .load le delayed sel filters ix =>
      (o, fs, (load w o le delayed sel filters ix fs).map fun _ => ())
    | .map delayed sel filters f =>
      (o, fs, (mapParts (cfgOf w o delayed sel filters fs) (fun p => .ok p) f fs.parts).map
        fun _ => ())
    | .mapOverlap delayed sel filters depth f =>
      (o, fs, (Upd.mapOverlap { cfgOf w o delayed sel filters fs with depth := depth }
        (fun p => .ok p) f fs.parts).map fun _ => ())
    | .validatePartitions filters fix =>
      let r := validatePartitions w filters fix fs
      (o, r.1, r.2.map fun _ => ())
    | .insert faults validate npartitions merge ds =>
      let r := insert w o faults validate npartitions merge ds fs
      (o, r.2.1, r.2.2.map fun _ => ())
    | .update delayed sel depth filters f isLazy vars workers =>
      let r := update w o delayed sel depth filters f isLazy vars workers fs
      (o, r.2.1, r.2.2)
    | .addVariable faults m => addVariable w o faults m fs
    | .dropVariable faults name => dropVariable w o faults name fs
    | .dropPartitions filters faults =>
      let r := dropPartitions w filters faults fs
      (o, r.1, r.2)

/-- A sequence of calls; the caller handles the exceptions. -/
def execAll (w : World P V) (o : Obj V) (fs : Files P V) : List (Call P V) →
    Obj V × Files P V
  | [] => (o, fs)
  | c :: t =>
    let r := exec w o fs c
    execAll w r.1 r.2.1 t

end Verif.Sch
