import Verif.Model.Config
import Verif.Model.Meta

/-!
Model of the creation and of the opening of collections and views:
`zcollection/convenience/collection.py`, `zcollection/convenience/view.py`,
`Collection.__init__`, `_write_config`, `from_config` (`zcollection/collection/__init__.py`),
`ReadOnlyCollection.__init__` (`zcollection/collection/abc.py`), `View.__init__`,
`_init_partitions`, `_write_config`, `from_config` (`zcollection/view/__init__.py`) and the
serialisation of filters (`zcollection/view/detail.py`).

Simplifications: one file system; paths are already normalised
(`fs_utils.normalize_path` is the identity); no directory of a collection or of a view is
inside another; of the partitions, only the names are modelled (their content is in
Model/View); the dataset given to `create_collection` is represented by its metadata.
-/

namespace Verif.Opn

open Meta (Ds)
open Config (Handler Cfg)

/-- A file that is absent, that cannot be decoded because the writing failed, or that holds a
configuration. -/
inductive File (α : Type) where
  | absent
  | torn
  | ok (content : α)

/-- collection/__init__.py:239-243 the content of `.zcollection`. -/
structure CollFile where
  axis : String
  dataset : Ds
  partitioning : Cfg

/-- view/__init__.py:144-154 the content of `.view`; `F` is the type of filters. -/
structure ViewFile (F : Type) where
  base : String
  filters : Option F
  metadata : Ds
  ref : String

/-- A directory: the two files of configuration, and the partitions. -/
structure Dir (F : Type) where
  coll : File CollFile
  view : File (ViewFile F)
  parts : List String

/-- The directories. -/
abbrev Disk (F : Type) := String → Option (Dir F)

/-- What is outside the package: which values `json` encodes, which filters `pickle` dumps,
which partitions a filter selects, and which partitions of a collection have a readable
axis. -/
structure World (F : Type) where
  serial : Ds → Bool
  pickles : F → Bool
  keep : F → String → Bool
  sound : String → String → Bool

/-- A collection in memory (collection/abc.py:150-180). -/
structure Coll where
  axis : String
  metadata : Ds
  handler : Handler
  dir : String
  dim : String
  mode : String

/-- A view in memory (view/__init__.py:83-96). -/
structure View (F : Type) where
  base : String
  ref : Coll
  metadata : Ds
  filters : Option F

variable {F : Type}

/-- Replaces the content of a directory. -/
def put (disk : Disk F) (path : String) (d : Dir F) : Disk F :=
  fun p => if p = path then some d else disk p

/-- An empty directory (`fs.makedirs`). -/
def emptyDir : Dir F := { coll := .absent, view := .absent, parts := [] }

/-! ### Collections -/

/-- `mode or default`: an empty string counts as no mode. -/
def modeOr (mode : Option String) (default : String) : String :=
  match mode with
  | none => default
  | some m => if m = "" then default else m

/-- collection/abc.py:193-228 `ReadOnlyCollection.__init__`. -/
def readOnlyInit (axis : String) (ds : Ds) (handler : Handler) (path : String)
    (mode : Option String) : Py Coll :=
  match ds.vars.find? fun v => decide (v.name = axis) with
  | none => .error .valueError
  | some a =>
    if handler.variables.any fun k => decide (k ∉ ds.vars.map (·.name)) then .error .valueError
    else if modeOr mode "w" ≠ "r" ∧ modeOr mode "w" ≠ "w" then .error .valueError
    else
      match a.dims with
      | [] => .error .indexError
      | dim :: _ => .ok { axis, metadata := ds, handler, dir := path, dim,
                          mode := modeOr mode "w" }

/-- collection/__init__.py:225-247 `_write_config`.  `json.dump` writes while it encodes: if a
value cannot be encoded, the file is torn. -/
def writeConfig (w : World F) (c : Coll) (skipIfExists : Bool) (disk : Disk F) :
    Disk F × Py Unit :=
  let d : Dir F := match disk c.dir with
    | some d => d
    | none => emptyDir
  let write : Disk F × Py Unit :=
    if w.serial c.metadata then
      (put disk c.dir { d with coll := .ok { axis := c.axis, dataset := c.metadata.getConfig,
                                             partitioning := Config.getConfig c.handler } },
        .ok ())
    else (put disk c.dir { d with coll := .torn }, .error .typeError)
  match d.coll with
  | .absent => write
  | _ => if skipIfExists then (disk, .ok ()) else write

/-- collection/__init__.py:171-197 `Collection.__init__`. -/
def collInit (w : World F) (axis : String) (ds : Ds) (handler : Handler) (path : String)
    (mode : Option String) (disk : Disk F) : Disk F × Py Coll :=
  match readOnlyInit axis ds handler path mode with
  | .error e => (disk, .error e)
  | .ok c =>
    if c.mode = "r" then (disk, .ok c)
    else
      match writeConfig w c true disk with
      | (disk', .ok ()) => (disk', .ok c)
      | (disk', .error e) => (disk', .error e)

/-- convenience/collection.py:18-65 `create_collection`. -/
def createCollection (w : World F) (axis : String) (ds : Ds) (handler : Handler)
    (path : String) (disk : Disk F) : Disk F × Py Coll :=
  match disk path with
  | some _ => (disk, .error .valueError)
  | none => collInit w axis ds handler path (some "w") disk

/-- convenience/collection.py:69-88 `open_collection` and collection/__init__.py:254-298
`from_config`.  A torn file raises `json.JSONDecodeError`, which is a `ValueError`. -/
def openCollection (w : World F) (path : String) (mode : Option String) (disk : Disk F) :
    Disk F × Py Coll :=
  match disk path with
  | none => (disk, .error .valueError)
  | some d =>
    match d.coll with
    | .absent => (disk, .error .valueError)
    | .torn => (disk, .error .valueError)
    | .ok c =>
      match (Config.getCodecs c.partitioning).1 with
      | .error e => (disk, .error e)
      | .ok handler =>
        collInit w c.axis (Ds.fromConfig c.dataset) handler path (some (modeOr mode "r")) disk

/-! ### Views -/

/-- view/detail.py:671-689 `_serialize_filters` followed by view/detail.py:692-705
`_deserialize_filters`: a filter that cannot be dumped is stored as `None`. -/
def storedFilters (w : World F) (filters : Option F) : Option F :=
  match filters with
  | none => none
  | some f => if w.pickles f then some f else none

/-- view/__init__.py:139-156 `_write_config`. -/
def writeViewConfig (w : World F) (v : View F) (disk : Disk F) : Disk F × Py Unit :=
  match disk v.base with
  | none => (disk, .error .osError)
  | some d =>
    if w.serial v.metadata then
      (put disk v.base { d with view := .ok { base := v.base, filters := storedFilters w v.filters,
                                              metadata := v.metadata.getConfig,
                                              ref := v.ref.dir } }, .ok ())
    else (put disk v.base { d with view := .torn }, .error .typeError)

/-- The partitions of a directory. -/
def partsOf (disk : Disk F) (path : String) : List String :=
  match disk path with
  | none => []
  | some d => d.parts

/-- `view_ref.partitions(filters=filters, relative=True)`. -/
def selected (w : World F) (disk : Disk F) (ref : String) (filters : Option F) : List String :=
  match filters with
  | none => partsOf disk ref
  | some f => (partsOf disk ref).filter (w.keep f)

/-- view/__init__.py:106-127 `_init_partitions`: the tasks are independent, and all run even
if one fails (storage.py:69-82).  Simplification: the kind of exception raised by a partition
whose axis cannot be read is `KeyError`. -/
def initPartitions (w : World F) (v : View F) (filters : Option F) (disk : Disk F) :
    Disk F × Py Unit :=
  match disk v.base with
  | none => (disk, .error .osError)
  | some d =>
    let args := (selected w disk v.ref.dir filters).filter fun p => decide (p ∉ d.parts)
    let disk' := put disk v.base
      { d with parts := d.parts ++ args.filter fun p => w.sound v.ref.dir p }
    if args.all fun p => w.sound v.ref.dir p then (disk', .ok ())
    else (disk', .error .keyError)

/-- view/__init__.py:73-104 `View.__init__`. -/
def viewInit (w : World F) (base ref : String) (ds : Option Ds) (filters : Option F)
    (disk : Disk F) : Disk F × Py (View F) :=
  match openCollection w ref (some "r") disk with
  | (disk, .error e) => (disk, .error e)
  | (disk, .ok c) =>
    let v : View F :=
      { base, ref := c, filters,
        metadata := match ds with
          | some ds => ds
          | none => Meta.mkDs c.metadata.dims [] [] [] none }
    match disk base with
    | some _ => (disk, .ok v)
    | none =>
      match writeViewConfig w v (put disk base emptyDir) with
      | (disk, .error e) => (disk, .error e)
      | (disk, .ok ()) =>
        match initPartitions w v filters disk with
        | (disk, .error e) => (disk, .error e)
        | (disk, .ok ()) => (disk, .ok v)

/-- convenience/view.py:16-53 `create_view`. -/
def createView (w : World F) (path ref : String) (filters : Option F) (disk : Disk F) :
    Disk F × Py (View F) :=
  match disk path with
  | some _ => (disk, .error .valueError)
  | none => viewInit w path ref none filters disk

/-- convenience/view.py:56-77 `open_view` and view/__init__.py:159-196 `from_config`: the
directory of the view is the one of the file. -/
def openView (w : World F) (path : String) (disk : Disk F) : Disk F × Py (View F) :=
  match disk path with
  | none => (disk, .error .valueError)
  | some d =>
    match d.view with
    | .absent => (disk, .error .valueError)
    | .torn => (disk, .error .valueError)
    | .ok c => viewInit w c.base c.ref (some (Ds.fromConfig c.metadata)) c.filters disk

/-- view/__init__.py:198-213 `View.partitions`. -/
def View.partitions (w : World F) (v : View F) (filters : Option F) (disk : Disk F) :
    List String :=
  (selected w disk v.ref.dir filters).filter fun p => decide (p ∈ partsOf disk v.base)

end Verif.Opn
