import Verif.Model.Py
import Verif.Model.Sort

/-!
Model of the metadata of datasets: `zcollection/meta.py`, and of the check of the metadata
done by an insertion (collection/__init__.py:363-372).

Simplifications: data types, fill values and codecs are represented by their encoded form
(that is, zarr and numcodecs decode what they encode); values of attributes are scalars, or
lists or tuples of scalars, and scalars are strings; NaN, which is different from itself, is
not modelled.
-/

namespace Verif.Meta

/-- Value of an attribute. -/
inductive AttrVal where
  | scalar (s : String)
  | list (l : List String)
  | tuple (l : List String)
  deriving DecidableEq, Repr

/-- `json.load` of `json.dump`: tuples become lists. -/
def AttrVal.json : AttrVal → AttrVal
  | .tuple l => .list l
  | v => v

/-- meta.py:88-106 (`Attribute`), as the pair of its configuration (meta.py:60-62). -/
abbrev Attr := String × AttrVal

/-- meta.py:109-155 (`Variable`). -/
structure Var where
  name : String
  dtype : String
  dims : List String
  attrs : List Attr
  compressor : Option String
  fill : Option String
  filters : List String
  deriving DecidableEq, Repr

/-- meta.py:178-187: the configuration of a variable has the same fields. -/
abbrev VarCfg := Var

/-- `sorted` of the pairs (name, value).  Simplification: the names are distinct, so that
only the names are compared. -/
def sortAttrs (attrs : List Attr) : List Attr :=
  Sort.isort (fun a b => decide (a.1 ≤ b.1)) attrs

/-- meta.py:165-187 (`Variable.get_config`). -/
def Var.getConfig (v : Var) : VarCfg := { v with attrs := sortAttrs v.attrs }

/-- meta.py:189-217 (`Variable.from_config`) of a configuration read from JSON. -/
def Var.fromConfig (c : VarCfg) : Var :=
  { c with attrs := c.attrs.map fun a => (a.1, a.2.json) }

/-- meta.py:233-274 (`Dataset`).  The variables are a dictionary in insertion order. -/
structure Ds where
  dims : List String
  vars : List Var
  attrs : List Attr
  chunks : List (String × Int)
  limit : Nat
  deriving DecidableEq, Repr

/-- meta.py:22. -/
def blockSizeLimit : Nat := 134217728

/-- `{item.name: item for item in variables}`: the last item of a name replaces the value and
keeps the place of the first. -/
def dictOf : List Var → List Var → List Var
  | acc, [] => acc
  | acc, v :: t =>
    if v.name ∈ acc.map (·.name) then
      dictOf (acc.map fun w => if w.name = v.name then v else w) t
    else dictOf (acc ++ [v]) t

/-- meta.py:251-274 (`Dataset.__init__`). -/
def mkDs (dims : List String) (vars : List Var) (attrs : List Attr)
    (chunks : List (String × Int)) (limit : Option Nat) : Ds where
  dims := dims
  vars := dictOf [] vars
  attrs := attrs
  chunks := chunks
  limit := match limit with
    | none => blockSizeLimit
    | some 0 => blockSizeLimit
    | some n => n

/-- Order of the names of variables. -/
def sortVars (vars : List Var) : List Var :=
  Sort.isort (fun a b => decide (a.name ≤ b.name)) vars

/-- meta.py:307-326 (`Dataset.get_config`). -/
def Ds.getConfig (d : Ds) : Ds :=
  { d with attrs := sortAttrs d.attrs, vars := (sortVars d.vars).map Var.getConfig }

/-- meta.py:354-373 (`Dataset.from_config`) of a configuration read from JSON. -/
def Ds.fromConfig (c : Ds) : Ds :=
  mkDs c.dims (c.vars.map Var.fromConfig) (c.attrs.map fun a => (a.1, a.2.json)) c.chunks
    (some c.limit)

/-- meta.py:299-302 (`Dataset.__eq__`). -/
def Ds.eq (a b : Ds) : Bool := decide (a.getConfig = b.getConfig)

/-! ### Check of an insertion -/

/-- The dimensions of a dataset, in the order in which its variables use them
(dataset.py:167-187; sizes are not modelled here). -/
def dimsOf : List String → List Var → List String
  | acc, [] => acc
  | acc, v :: t => dimsOf (v.dims.foldl (fun a d => if d ∈ a then a else a ++ [d]) acc) t

/-- dataset.py:224-258 and 398-411: metadata of the dataset made of the variables. -/
def dsMeta (vars : List Var) (attrs : List Attr) (chunks : List (String × Int))
    (limit : Option Nat) : Ds :=
  mkDs (dimsOf [] (dictOf [] vars)) vars attrs chunks limit

/-- meta.py:395-418 (`missing_variables`).  The result comes from a set; its order is
irrelevant. -/
def missingVariables (self other : Ds) : Py (List Var) :=
  if other.vars.all fun v => v.name ∈ self.vars.map (·.name) then
    .ok (self.vars.filter fun v => v.name ∉ other.vars.map (·.name))
  else .error .valueError

/-- dataset.py:331-333 and 348-356 (`Dataset.add_variable` without data), for a variable
whose name is not in the dataset. -/
def addMissing (d : Ds) (v : Var) : Py Ds :=
  if v.dims.all (· ∈ d.dims) then .ok { d with vars := d.vars ++ [v] } else .error .valueError

/-- collection/__init__.py:365-367. -/
def addAll (d : Ds) : List Var → Py Ds
  | [] => .ok d
  | v :: t => do
    let d' ← addMissing d v
    addAll d' t

/-- collection/__init__.py:363-372: the metadata of the completed dataset (the caller's
dataset is completed in place) or an error, before anything is written. -/
def insertCheck (self ds : Ds) (validate : Bool) : Py Ds := do
  let missing ← missingVariables self ds
  let ds' ← addAll ds missing
  if validate && !(ds'.eq self) then .error .valueError
  return ds'

end Verif.Meta
