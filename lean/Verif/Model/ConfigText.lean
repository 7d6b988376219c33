import Verif.Model.Json
import Verif.Model.Sort

/-!
Model of the file of configuration of a collection, `.zcollection`, as a text: what
`_write_config` writes (zcollection/collection/__init__.py:226-247) and `from_config` reads
(collection/__init__.py:253-299) through `meta.Dataset.get_config` and `from_config`
(zcollection/meta.py), and of the calls that write it again, `add_variable` and `drop_variable`
(collection/__init__.py:589-690).  The file of configuration of a view is written in the same way
(zcollection/view/__init__.py:139-155 and 184-197).

Simplifications: data types, fill values and codecs are represented by their encoded form (zarr
and numcodecs decode what they encode); the configuration of the partitioning is a value (it is
modelled in Model/Config); the work of `add_variable` and `drop_variable` on the partitions
succeeds or fails as a whole (it is modelled in Model/Schema).  A value of the file that has not
the type expected raises `TypeError`.
-/

namespace Verif.Cft

open Json (V Key)

/-- meta.py:88-106 (`Attribute`) -/
abbrev Attr := String × V

/-- meta.py:109-155 (`Variable`) -/
structure Var where
  name : String
  dtype : String
  dims : List String
  attrs : List Attr
  compressor : V
  fill : V
  filters : List V

/-- meta.py:233-274 (`Dataset`) -/
structure Ds where
  dims : List String
  vars : List Var
  attrs : List Attr
  chunks : List (String × V)
  limit : Nat

/-- collection/__init__.py:239-243 what `.zcollection` describes -/
structure Conf where
  axis : String
  ds : Ds
  part : V

/-! ### Writing -/

/-- `sorted` of the pairs (name, value).  Simplification: the names are distinct, so that only
the names are compared. -/
def sortAttrs (attrs : List Attr) : List Attr :=
  Sort.isort (fun a b => decide (a.1 ≤ b.1)) attrs

/-- meta.py:60-62 the pair of a name and of a value -/
def pairV (a : String × V) : V := .tuple [.str a.1, a.2]

/-- meta.py:165-187 (`Variable.get_config`) -/
def encodeVar (v : Var) : V :=
  .dict [(.str "attrs", .list ((sortAttrs v.attrs).map pairV)),
    (.str "compressor", v.compressor),
    (.str "dimensions", .tuple (v.dims.map .str)),
    (.str "dtype", .str v.dtype),
    (.str "fill_value", v.fill),
    (.str "filters", .tuple v.filters),
    (.str "name", .str v.name)]

/-- meta.py:317-318 `sorted(self.variables)` -/
def sortVars (vars : List Var) : List Var :=
  Sort.isort (fun a b => decide (a.name ≤ b.name)) vars

/-- meta.py:307-326 (`Dataset.get_config`) -/
def encodeDs (d : Ds) : V :=
  .dict [(.str "attrs", .list ((sortAttrs d.attrs).map pairV)),
    (.str "dimensions", .tuple (d.dims.map .str)),
    (.str "variables", .tuple ((sortVars d.vars).map encodeVar)),
    (.str "chunks", .tuple (d.chunks.map pairV)),
    (.str "block_size_limit", .int d.limit)]

/-- collection/__init__.py:239-243 -/
def encode (c : Conf) : V :=
  .dict [(.str "axis", .str c.axis), (.str "dataset", encodeDs c.ds),
    (.str "partitioning", c.part)]

/-! ### Reading -/

/-- `data[name]` -/
def field (name : String) : V → Py V
  | .dict d =>
    match d.lookup (Key.str name) with
    | some v => .ok v
    | none => .error .keyError
  | _ => .error .typeError

/-- `data.get(name)` -/
def field? (name : String) : V → Py (Option V)
  | .dict d => .ok (d.lookup (Key.str name))
  | _ => .error .typeError

/-- A string. -/
def asStr : V → Py String
  | .str s => .ok s
  | _ => .error .typeError

/-- A sequence. -/
def asList : V → Py (List V)
  | .list l => .ok l
  | .tuple l => .ok l
  | _ => .error .typeError

/-- A function on every element of a sequence. -/
def each {α β : Type} (f : α → Py β) : List α → Py (List β)
  | [] => .ok []
  | a :: t => do
    let b ← f a
    let bs ← each f t
    .ok (b :: bs)

/-- meta.py:78-85 and 97-106 `Attribute(*data)`, `Dimension(*data)` -/
def asPair (v : V) : Py (String × V) := do
  let l ← asList v
  match l with
  | [n, x] => do
    let s ← asStr n
    .ok (s, x)
  | _ => .error .typeError

/-- meta.py:189-217 (`Variable.from_config`) -/
def decodeVar (v : V) : Py Var := do
  let dtype ← (field "dtype" v).bind asStr
  let filters ← (field "filters" v).bind asList
  let name ← (field "name" v).bind asStr
  let dims ← (field "dimensions" v).bind fun x => (asList x).bind (each asStr)
  let attrs ← (field "attrs" v).bind fun x => (asList x).bind (each asPair)
  let compressor ← field "compressor" v
  let fill ← field "fill_value" v
  .ok ⟨name, dtype, dims, attrs, compressor, fill, filters⟩

/-- meta.py:261-264 `{item.name: item for item in variables}` -/
def dictOf : List Var → List Var → List Var
  | acc, [] => acc
  | acc, v :: t =>
    if v.name ∈ acc.map (·.name) then
      dictOf (acc.map fun w => if w.name = v.name then v else w) t
    else dictOf (acc ++ [v]) t

/-- meta.py:270-271 `block_size_limit or BLOCK_SIZE_LIMIT`.  Simplification: a limit is not
negative. -/
def limitOf : Option V → Py Nat
  | some (.int (.ofNat n)) => if n = 0 then .ok 134217728 else .ok n
  | some .null => .ok 134217728
  | none => .ok 134217728
  | _ => .error .typeError

/-- meta.py:354-373 (`Dataset.from_config`) and 251-274 -/
def decodeDs (v : V) : Py Ds := do
  let dims ← (field "dimensions" v).bind fun x => (asList x).bind (each asStr)
  let vars ← (field "variables" v).bind fun x => (asList x).bind (each decodeVar)
  let attrs ← (field "attrs" v).bind fun x => (asList x).bind (each asPair)
  let chunks ← (field? "chunks" v).bind fun x =>
    match x with
    | none => .ok []
    | some y => (asList y).bind (each asPair)
  let limit ← (field? "block_size_limit" v).bind limitOf
  .ok ⟨dims, dictOf [] vars, attrs, chunks, limit⟩

/-- collection/__init__.py:290-294 -/
def decode (v : V) : Py Conf := do
  let axis ← (field "axis" v).bind asStr
  let ds ← (field "dataset" v).bind decodeDs
  let part ← field "partitioning" v
  .ok ⟨axis, ds, part⟩

/-- collection/__init__.py:284-299 (`from_config`): the configuration in a file -/
def openFile : Option (List Char) → Py Conf
  | none => .error .valueError
  | some t => do
    let v ← Json.load t
    decode v

/-! ### Calls -/

/-- A collection of a process (collection/abc.py:150-180): its configuration in memory, the
variables of the partitioning, the dimension of the partitioning, the variables that are not
split; and the file `.zcollection`. -/
structure Coll where
  mem : Conf
  keys : List String
  dim : String
  imm : List String
  file : Option (List Char)

/-- collection/__init__.py:226-247 (`_write_config`) -/
def writeConfig (c : Coll) : Coll × Py Unit :=
  let o := Json.dump 4 (encode c.mem)
  ({ c with file := some o.1 }, o.2)

/-- The contents of the file while `_write_config` runs: the old one, and then what is written of
the new one.  `open(config, 'w')` empties the file; how much of the text is in the file at a time
depends on the buffers. -/
def during (c : Coll) (f : Option (List Char)) : Prop :=
  f = c.file ∨ ∃ p q, (Json.dump 4 (encode c.mem)).1 = p ++ q ∧ f = some p

/-- collection/__init__.py:187-197 (`__init__`): the file of a collection that does not exist is
written -/
def create (mem : Conf) (keys : List String) (dim : String) (imm : List String) :
    Coll × Py Unit :=
  writeConfig ⟨mem, keys, dim, imm, none⟩

/-- The metadata without a variable. -/
def without (name : String) (m : Conf) : Conf :=
  { m with ds := { m.ds with vars := m.ds.vars.filter fun v => decide (v.name ≠ name) } }

/-- collection/__init__.py:589-628 (`drop_variable`); `fails`: the deletion of the arrays raises,
here `RuntimeError` -/
def dropVariable (c : Coll) (name : String) (fails : Bool) : Coll × Py Unit :=
  if name ∈ c.keys then (c, .error .valueError)
  else if name ∉ c.mem.ds.vars.map (·.name) then (c, .error .valueError)
  else if name ∈ c.imm then (c, .error .valueError)
  else if fails then (c, .error .runtimeError)
  else writeConfig { c with mem := without name c.mem }

/-- The metadata with one variable more. -/
def withNew (v : Var) (m : Conf) : Conf :=
  { m with ds := { m.ds with vars := m.ds.vars ++ [v] } }

/-- collection/__init__.py:630-690 (`add_variable`) and meta.py:328-352; `fails`: the creation of
the arrays raises, here `RuntimeError`, and `undo` whether their deletion raises too -/
def addVariable (c : Coll) (v : Var) (fails undo : Bool) : Coll × Py Unit :=
  if c.dim ∉ v.dims then (c, .error .valueError)
  else if v.name ∈ c.mem.ds.vars.map (·.name) then (c, .error .valueError)
  else if ¬ (v.dims.all fun d => d ∈ c.mem.ds.dims) then (c, .error .valueError)
  else
    match writeConfig { c with mem := withNew v c.mem } with
    | (c', .error e) => (c', .error e)
    | (c', .ok ()) =>
      if fails then
        match dropVariable c' v.name undo with
        | (c'', .error e) => (c'', .error e)
        | (c'', .ok ()) => (c'', .error .runtimeError)
      else (c', .ok ())

/-- A call that writes the configuration. -/
inductive Call where
  | add (v : Var) (fails undo : Bool)
  | drop (name : String) (fails : Bool)

/-- One call; an error is caught by the user. -/
def call (c : Coll) : Call → Coll
  | .add v fails undo => (addVariable c v fails undo).1
  | .drop name fails => (dropVariable c name fails).1

/-- Several calls. -/
def calls (c : Coll) : List Call → Coll
  | [] => c
  | x :: t => calls (call c x) t

/-! ### Views -/

/-- view/__init__.py:144-154 what `.view` describes: the filters as `_serialize_filters` gives
them, and the file system of the reference as `json.loads(fs.to_json())` gives it -/
structure ViewConf where
  base : String
  filters : V
  ds : Ds
  path : String
  fs : V

/-- view/__init__.py:139-155 (`_write_config`) -/
def encodeView (c : ViewConf) : V :=
  .dict [(.str "base_dir", .str c.base), (.str "filters", c.filters),
    (.str "metadata", encodeDs c.ds),
    (.str "view_ref", .dict [(.str "path", .str c.path), (.str "fs", c.fs)])]

/-- view/__init__.py:184-197 (`from_config`) -/
def decodeView (v : V) : Py ViewConf := do
  let ref ← field "view_ref" v
  let base ← (field "base_dir" v).bind asStr
  let path ← (field "path" ref).bind asStr
  let fs ← field "fs" ref
  let ds ← (field "metadata" v).bind decodeDs
  let filters ← field "filters" v
  .ok ⟨base, filters, ds, path, fs⟩

/-- view/__init__.py:180-185: the file `.view` -/
def openViewFile : Option (List Char) → Py ViewConf
  | none => .error .valueError
  | some t => do
    let v ← Json.load t
    decodeView v

end Verif.Cft
