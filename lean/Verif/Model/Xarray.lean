import Verif.Model.Dataset

/-!
Conversion of datasets from and to xarray: zcollection/dataset.py `from_xarray` and `to_xarray`,
zcollection/variable/abc.py `to_xarray`.  A collection converts the xarray datasets it is given
with the former (collection/__init__.py:357-358, convenience/collection.py:57-58).

The behaviour of xarray (`xarray.Variable`, `xarray.conventions.decode_cf_variables`,
`xarray.Dataset`) is a trusted reading of its documentation.

Simplifications: dtypes are not modelled, so that the conversion of dates to nanoseconds and of
integers to floats is the identity; NaN and NaT are one value; the values of attributes are of
the same type as the elements; what xarray decodes besides fill values and coordinates (scale
factors, units of time, strings) is an unknown function of the attributes and the data; `chunks`
and `block_size_limit` are one field.
-/

namespace Verif.Xr

open Nd

variable {V : Type}

/-- An attribute. -/
abbrev Attr (V : Type) := String × V

/-- What numpy, Python and xarray know about values: `==`, NaN, `str.split` (`none` for what is
not a string), and the other conventions that xarray decodes. -/
structure Cf (V : Type) where
  eqv : V → V → Bool
  nan : V
  words : V → Option (List String)
  extra : List (Attr V) → Arr V → List (Attr V) × Arr V

/-- variable/abc.py:305-342 `Variable`, with its attributes and codecs. -/
structure Var (V : Type) where
  name : String
  dims : List String
  array : Arr V
  fill : Option V
  attrs : List (Attr V)
  compressor : Option Nat
  filters : List Nat

/-- dataset.py:190-258 `Dataset`. -/
structure Dset (V : Type) where
  vars : List (Var V)
  attrs : List (Attr V)
  chunks : List (String × Nat)
  delayed : Bool

/-- The `encoding` of a variable of xarray. -/
structure Enc (V : Type) where
  filters : Option (List Nat)
  compressor : Option Nat
  fill : Option V
  missing : Option V
  coordinates : Option V

/-- `xarray.Variable` -/
structure XVar (V : Type) where
  dims : List String
  data : Arr V
  attrs : List (Attr V)
  enc : Enc V

/-- `xarray.Dataset`; `coords` are the names of its coordinates. -/
structure XDset (V : Type) where
  vars : List (String × XVar V)
  attrs : List (Attr V)
  coords : List String

/-- `d[key] = value` on an `OrderedDict`. -/
def put (key : String) (value : V) : List (Attr V) → List (Attr V)
  | [] => [(key, value)]
  | a :: t => if a.1 = key then (key, value) :: t else a :: put key value t

/-- `OrderedDict((item.name, item.value) for item in attrs)` -/
def dictOf (attrs : List (Attr V)) : List (Attr V) := attrs.foldl (fun d a => put a.1 a.2 d) []

/-- `d.pop(key)` -/
def pop (key : String) (d : List (Attr V)) : List (Attr V) := d.filter fun a => decide (a.1 ≠ key)

/-- variable/abc.py:481-503 `Variable.to_xarray`; the constructor of xarray raises `ValueError`
if the data have not the rank of the dimensions. -/
def toVariable (v : Var V) : Py (XVar V) :=
  if v.array.shape.length ≠ v.dims.length then .error .valueError
  else
    .ok { dims := v.dims
          data := v.array
          attrs := match v.fill with
            | none => dictOf v.attrs
            | some f => put "_FillValue" f (dictOf v.attrs)
          enc := { filters := if v.filters = [] then none else some v.filters
                   compressor := v.compressor
                   fill := none
                   missing := none
                   coordinates := none } }

/-- xarray: the elements equal to one of the fill values become NaN. -/
def unfill (cf : Cf V) (fills : List V) (a : Arr V) : Arr V where
  shape := a.shape
  get := fun idx => (a.get idx).map fun x => if fills.any fun f => cf.eqv x f then cf.nan else x

/-- xarray `CFMaskCoder.decode`: the fill values go from the attributes to the encoding. -/
def decodeMask (cf : Cf V) (x : XVar V) : XVar V :=
  { x with
    data := unfill cf ((x.attrs.lookup "_FillValue").toList ++
      (x.attrs.lookup "missing_value").toList) x.data
    attrs := pop "missing_value" (pop "_FillValue" x.attrs)
    enc := { x.enc with
      fill := x.attrs.lookup "_FillValue"
      missing := x.attrs.lookup "missing_value" } }

/-- xarray `decode_cf_variable`, with `mask_and_scale` or not. -/
def decodeVar (cf : Cf V) (mask : Bool) (x : XVar V) : XVar V :=
  { (if mask then decodeMask cf x else x) with
    attrs := (cf.extra (if mask then decodeMask cf x else x).attrs
      (if mask then decodeMask cf x else x).data).1
    data := (cf.extra (if mask then decodeMask cf x else x).attrs
      (if mask then decodeMask cf x else x).data).2 }

/-- xarray `decode_cf_variables`, the attribute `coordinates` of a variable: if it names
variables of the dataset, it goes to the encoding.  What is not a string has no method `split`
(`AttributeError`). -/
def decodeCoords (cf : Cf V) (names : List String) (x : XVar V) : Py (XVar V × List String) :=
  match x.attrs.lookup "coordinates" with
  | none => .ok (x, [])
  | some c =>
    match cf.words c with
    | none => .error .attributeError
    | some l =>
      if l.all fun n => decide (n ∈ names) then
        .ok ({ x with attrs := pop "coordinates" x.attrs
                      enc := { x.enc with coordinates := some c } }, l)
      else .ok (x, [])

/-- xarray `decode_cf_variables`, the attribute `coordinates` of the dataset. -/
def decodeGlobal (cf : Cf V) (attrs : List (Attr V)) : Py (List (Attr V) × List String) :=
  match attrs.lookup "coordinates" with
  | none => .ok (attrs, [])
  | some c =>
    match cf.words c with
    | none => .error .attributeError
    | some l => .ok (pop "coordinates" attrs, l)

/-- `xarray.Dataset(...)`: the sizes of the dimensions agree, and a variable of several
dimensions is not named as one of them; otherwise `ValueError`. -/
def checkVars (dims : List (String × Nat)) : List (String × XVar V) → Py Unit
  | [] => .ok ()
  | (n, x) :: t =>
    if n ∈ x.dims ∧ x.dims.length ≠ 1 then .error .valueError
    else do
      let dims ← Ds.addDims dims x.dims x.data.shape
      checkVars dims t

/-- One variable of `to_xarray`: its name, the result, and the coordinates it names. -/
def decoded (cf : Cf V) (mask : Bool) (names : List String) (v : Var V) :
    Py (String × XVar V × List String) := do
  let x ← toVariable v
  let (x, l) ← decodeCoords cf names (decodeVar cf mask x)
  .ok (v.name, x, l)

/-- dataset.py:449-466 `to_xarray`, with the argument `mask_and_scale`.  The coordinates are
those that are named, and the variables that have the name of their only dimension. -/
def toXarray (cf : Cf V) (mask : Bool) (ds : Dset V) : Py (XDset V) := do
  let l ← Ds.mapPy (decoded cf mask (ds.vars.map (·.name))) ds.vars
  let (attrs, named) ← decodeGlobal cf (dictOf ds.attrs)
  let vars := l.map fun t => (t.1, t.2.1)
  let _ ← checkVars [] vars
  .ok { vars
        attrs
        coords := vars.filterMap fun t =>
          if t.1 ∈ named ++ l.flatMap (fun t => t.2.2) ∨ t.2.dims = [t.1] then some t.1 else none }

/-- dataset.py:429-440 one variable of `from_xarray`. -/
def fromVariable (t : String × XVar V) : Var V where
  name := t.1
  dims := t.2.dims
  array := t.2.data
  fill := t.2.enc.fill
  attrs := t.2.attrs
  compressor := t.2.enc.compressor
  filters := match t.2.enc.filters with
    | none => []
    | some l => l

/-- A variable as Model/Dataset has it. -/
def Var.base (delayed : Bool) (v : Var V) : Ds.Var V :=
  { name := v.name, delayed, dims := v.dims, array := v.array, fill := v.fill, props := 0 }

/-- dataset.py:413-447 `from_xarray`; the constructor checks the dimensions
(dataset.py:167-187). -/
def fromXarray (delayed : Bool) (x : XDset V) : Py (Dset V) := do
  let vars := x.vars.map fromVariable
  let _ ← Ds.updateDims [] (some delayed) (vars.map (Var.base delayed))
  .ok { vars, attrs := x.attrs, chunks := [], delayed }

end Verif.Xr
