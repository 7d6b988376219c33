import Verif.Model.Meta
import Verif.Model.Dataset

/-!
The attributes of the variables and of the datasets: the files `.zattrs`, the insertion of a
dataset, the changes of the variables of a collection, what `load` returns and what the
callbacks of `map`, `update` and of the merges get (zcollection/storage.py, dataset.py,
variable/, collection/, merging/__init__.py, view/).

Simplifications: only the names, dimensions and attributes are modelled (the values are in the
other models); the listing of the partitions (Model/Listing) and the partitions of a dataset
(Model/Split) are given; the failures of the file system are not modelled.  `P` is the type of
the paths of the partitions.
-/

namespace Verif.At

open Meta

variable {P : Type}

/-- storage.py:32 `DIMENSIONS` -/
def dimKey : String := "_ARRAY_DIMENSIONS"

/-- `d[key] = value`: the value is replaced, or the key is added at the end. -/
def put (key : String) (value : AttrVal) : List Attr → List Attr
  | [] => [(key, value)]
  | a :: t => if a.1 = key then (key, value) :: t else a :: put key value t

/-- `OrderedDict(item.get_config() for item in attrs)` -/
def dictOf (attrs : List Attr) : List Attr := attrs.foldl (fun d a => put a.1 a.2 d) []

/-- `json.load` of `json.dump` of a dictionary. -/
def json (d : List Attr) : List Attr := d.map fun a => (a.1, a.2.json)

/-- A variable with its attributes (variable/abc.py:316-345). -/
structure Var where
  name : String
  dims : List String
  attrs : List Attr
  deriving DecidableEq, Repr

/-- A dataset with its attributes (dataset.py:224-258). -/
structure Dset where
  attrs : List Attr
  vars : List Var
  deriving DecidableEq, Repr

/-- The files of attributes of a group: the one of the group, and the one of each array. -/
structure Group where
  attrs : List Attr
  arrays : List (String × List Attr)
  deriving DecidableEq, Repr

/-- storage.py:115-132 `write_zattrs`: the content of the file, as read from JSON. -/
def writeZattrs (attrs : List Attr) (dims : List String) : List Attr :=
  json (put dimKey (.tuple dims) (dictOf attrs))

/-- variable/delayed_array.py:295-312, variable/array.py:181-190 `from_zarr`: the attributes,
and the dimensions, which are a list in the files that the library writes. -/
def readZattrs (name : String) (file : List Attr) : Py Var :=
  match file.lookup dimKey with
  | none => .error .keyError
  | some (.list dims) => .ok ⟨name, dims, file.filter fun a => decide (a.1 ≠ dimKey)⟩
  | some _ => .error .typeError

/-- storage.py:222-280 `write_zarr_group`, with 196-219 `_write_meta`. -/
def writeGroup (ds : Dset) : Group where
  attrs := json (dictOf ds.attrs)
  arrays := ds.vars.map fun v => (v.name, writeZattrs v.attrs v.dims)

/-- storage.py:305-342 `open_zarr_group` -/
def openGroup (sel : String → Bool) (g : Group) : Py Dset := do
  let vars ← Ds.mapPy (fun (a : String × List Attr) => readZattrs a.1 a.2)
    (g.arrays.filter fun a => sel a.1)
  .ok ⟨g.attrs, vars⟩

/-- dataset.py:495-510 `set_for_insertion`, of the dataset described by `ds`. -/
def setForInsertion (ds : Meta.Ds) : Dset where
  attrs := []
  vars := ds.vars.map fun v => ⟨v.name, v.dims, []⟩

/-- dataset.py:727-762 `select_variables_by_dims((axis,), predicate)`: the attributes of the
dataset are kept. -/
def byDim (axis : String) (predicate : Bool) (ds : Dset) : Dset :=
  { ds with vars := ds.vars.filter fun v => decide (axis ∈ v.dims) == predicate }

/-- dataset.py:663-691 `concat`: the attributes come from the first dataset; a variable that
another dataset does not have raises `KeyError`. -/
def concat : List Dset → Py Dset
  | [] => .error .indexError
  | [ds] => .ok ds
  | ds :: rest =>
    if ∃ v ∈ ds.vars, ∃ o ∈ rest, v.name ∉ o.vars.map (·.name) then .error .keyError else .ok ds

/-- dataset.py:693-725 `merge`: the attributes of `other` replace those of the same name.
Simplification: a variable that both have raises before the dataset is changed. -/
def merge (ds other : Dset) : Py Dset :=
  if ∃ v ∈ other.vars, v.name ∈ ds.vars.map (·.name) then .error .valueError
  else .ok ⟨dictOf (ds.attrs ++ other.attrs), ds.vars ++ other.vars⟩

/-- dataset.py:529-531, one variable -/
def fillVar (m : Meta.Ds) (v : Var) : Py Var :=
  match m.vars.find? fun w => decide (w.name = v.name) with
  | none => .error .keyError
  | some w => .ok { v with attrs := w.attrs }

/-- dataset.py:521-531 `fill_attrs` -/
def fillAttrs (m : Meta.Ds) (ds : Dset) : Py Dset := do
  let vars ← Ds.mapPy (fillVar m) ds.vars
  .ok ⟨m.attrs, vars⟩

/-! ### A collection -/

/-- A collection: the name of the axis and the variables of the partitioning, the dimension of
the partitioning, the metadata, whether there are variables that are not split, and the files
of attributes of its partitions and of the variables that are not split. -/
structure Coll (P : Type) where
  axis : String
  keys : List String
  dim : String
  md : Meta.Ds
  imm : Bool
  parts : P → Option Group
  immutable : Option Group

/-- A merge callable (merging/__init__.py:28-60): the existing dataset and the inserted one. -/
abbrev Merge := Dset → Dset → Py Dset

/-- How a dataset is placed in the existing one by `merge_time_series`. -/
inductive Place where
  | before
  | after
  | replaced
  | inside

/-- merging/time_series.py:16-89 `_merge_time_series`: `isel` keeps the attributes (dataset.py:
541-556), so that only the order of the datasets matters. -/
def mergeAt (place : Place) : Merge := fun existing inserted =>
  match place with
  | .before => concat [inserted, existing]
  | .after => concat [existing, inserted]
  | .replaced => .ok inserted
  | .inside => concat [existing, inserted, existing]

/-- merging/time_series.py:92-153 `merge_time_series`: the pieces of the inserted dataset one
after the other; there is one if no tolerance is given. -/
def timeSeries : List Place → Merge
  | [], existing, _ => .ok existing
  | p :: t, existing, inserted => do
    let r ← mergeAt p existing inserted
    timeSeries t r inserted

/-- collection/detail.py:388-442 `_insert`, merging/__init__.py:136-175 `perform`: the files of
a partition after the insertion of the dataset. -/
def insertPart (m : Option Merge) (zds : Dset) (part : Option Group) : Py Group :=
  match part, m with
  | some g, some f => do
    let ds ← openGroup (fun _ => true) g
    let r ← f ds zds
    .ok (writeGroup r)
  | _, _ => .ok (writeGroup zds)

variable [DecidableEq P]

/-- The files where those of `p` are replaced. -/
def setPart (st : P → Option Group) (p : P) (g : Option Group) : P → Option Group :=
  fun q => if q = p then g else st q

/-- collection/__init__.py:393-408: the partitions one after the other; the first failure
stops. -/
def insertParts (m : Option Merge) (zds : Dset) (st : P → Option Group) :
    List P → (P → Option Group) × Py Unit
  | [] => (st, .ok ())
  | p :: t =>
    match insertPart m zds (st p) with
    | .error e => (st, .error e)
    | .ok g => insertParts m zds (setPart st p (some g)) t

/-- collection/__init__.py:301-411 `insert`: `pieces` are the partitions of the dataset. -/
def insert (c : Coll P) (validate : Bool) (m : Option Merge) (pieces : List P) (ds : Meta.Ds) :
    Coll P × Py Unit :=
  match insertCheck c.md ds validate with
  | .error e => (c, .error e)
  | .ok ds' =>
    let zds := setForInsertion ds'
    let c' := if c.imm && c.immutable.isNone then
        { c with immutable := some (writeGroup (byDim c.axis false zds)) }
      else c
    let zds := if c.imm then byDim c.axis true zds else zds
    let r := insertParts m zds c'.parts pieces
    ({ c' with parts := r.1 }, r.2)

/-- collection/__init__.py:629-689 `add_variable`, meta.py:328-352, storage.py:403-447: the
attributes are removed from the variable that is created in the partitions. -/
def addVariable (c : Coll P) (v : Meta.Var) : Coll P × Py Unit :=
  if c.dim ∉ v.dims then (c, .error .valueError)
  else if v.name ∈ c.md.vars.map (·.name) then (c, .error .valueError)
  else if ∃ d ∈ v.dims, d ∉ c.md.dims then (c, .error .valueError)
  else
    ({ c with
        md := { c.md with vars := c.md.vars ++ [v] }
        parts := fun p => (c.parts p).map fun g =>
          { g with arrays := g.arrays ++ [(v.name, writeZattrs [] v.dims)] } }, .ok ())

/-- The group has a variable of this name (collection/__init__.py:612-618). -/
def holds (g : Option Group) (name : String) : Bool :=
  match g with
  | none => false
  | some g => decide (name ∈ g.arrays.map (·.1))

/-- collection/__init__.py:587-627 `drop_variable` -/
def dropVariable (c : Coll P) (name : String) : Coll P × Py Unit :=
  if name ∈ c.keys then (c, .error .valueError)
  else if name ∉ c.md.vars.map (·.name) then (c, .error .valueError)
  else if c.imm && c.immutable.isNone then (c, .error .keyError)
  else if c.imm && holds c.immutable name then (c, .error .valueError)
  else
    ({ c with
        md := { c.md with vars := c.md.vars.filter fun v => decide (v.name ≠ name) }
        parts := fun p => (c.parts p).map fun g =>
          { g with arrays := g.arrays.filter fun a => decide (a.1 ≠ name) } }, .ok ())

/-- collection/__init__.py:417-475 `drop_partitions` of the partitions of `l`. -/
def dropPartitions (c : Coll P) (l : List P) : Coll P :=
  { c with parts := fun p => if p ∈ l then none else c.parts p }

/-- The collection opened from its configuration (collection/__init__.py:225-298), which each
change of the metadata writes. -/
def reopen (c : Coll P) : Coll P := { c with md := Meta.Ds.fromConfig c.md.getConfig }

/-- A partition opened (storage.py:305-342): a partition that does not exist raises. -/
def openPart (c : Coll P) (sel : String → Bool) (p : P) : Py Dset :=
  match c.parts p with
  | none => .error .keyError
  | some g => openGroup sel g

/-- The dataset with the variables that are not split (collection/abc.py:651-656,
collection/detail.py:167-173). -/
def withImmutable (c : Coll P) (sel : String → Bool) (ds : Dset) : Py Dset :=
  if c.imm then
    match c.immutable with
    | none => .error .keyError
    | some g => do
      let o ← openGroup sel g
      merge ds o
  else .ok ds

/-- collection/abc.py:561-658 `load` of the selected partitions.  With an indexer, the same
holds of the slices (lines 613-647): `isel` keeps the attributes. -/
def load (c : Coll P) (sel : String → Bool) (ps : List P) : Py (Option Dset) :=
  if ps = [] then .ok none
  else do
    let arrays ← Ds.mapPy (openPart c sel) ps
    let ds ← concat arrays
    let ds ← withImmutable c sel ds
    let ds ← fillAttrs c.md ds
    .ok (some ds)

/-- collection/detail.py:145-174 `_load_dataset`: the dataset that the callbacks of `map` and
`update` get, without overlap. -/
def callbackDataset (c : Coll P) (sel : String → Bool) (p : P) : Py Dset := do
  let ds ← openPart c sel p
  withImmutable c sel ds

/-- The calls that change the collection. -/
inductive Op (P : Type) where
  | insert (validate : Bool) (m : Option Merge) (pieces : List P) (ds : Meta.Ds)
  | add (v : Meta.Var)
  | drop (name : String)
  | dropPartitions (l : List P)
  | reopen

/-- The collection after a call, whether it raises or not. -/
def step (c : Coll P) : Op P → Coll P
  | .insert validate m pieces ds => (insert c validate m pieces ds).1
  | .add v => (addVariable c v).1
  | .drop name => (dropVariable c name).1
  | .dropPartitions l => dropPartitions c l
  | .reopen => reopen c

/-- The collection after the calls. -/
def run (c : Coll P) (ops : List (Op P)) : Coll P := ops.foldl step c

/-! ### A view -/

/-- view/__init__.py:403-405: the metadata of the reference where the variables of the view are
added or replaced; the attributes of the view are not used. -/
def viewMeta (reference view : Meta.Ds) : Meta.Ds :=
  { reference with vars := Meta.dictOf reference.vars view.vars }

/-- view/__init__.py:398-407 `View.load` once the datasets are read. -/
def viewLoad (reference view : Meta.Ds) (arrays : List Dset) : Py (Option Dset) :=
  if arrays = [] then .ok none
  else do
    let ds ← concat arrays
    let ds ← fillAttrs (viewMeta reference view) ds
    .ok (some ds)

end Verif.At
