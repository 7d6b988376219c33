import Verif.Model.Load
import Verif.Model.Chunks

/-!
The methods of variables that deal with values and missing values (zcollection/variable/abc.py,
variable/array.py, variable/delayed_array.py).

Simplifications: a masked array is an array of `Option V`, `none` being a masked element; the
fill value that numpy attaches to the masked arrays it returns is not modelled; a dask array is
the array it computes, with the fill value of its meta.
-/

namespace Verif.Vr

open Nd Ds

variable {V : Type}

/-- What numpy and Python know about values: `==`, and `type(x)` as a number. -/
structure Num (V : Type) where
  eqv : V → V → Bool
  ty : V → Nat

/-- `numpy.ma.masked_equal(array, fill_value)`, or the array itself without fill value
(variable/array.py:102-114 and 210-219, variable/delayed_array.py:175-195 and 244-265). -/
def masked (n : Num V) (fill : Option V) (a : Arr V) : Arr (Option V) where
  shape := a.shape
  get := Chunk.values n.eqv fill a

/-- variable/array.py:102-114, variable/delayed_array.py:197-209 `values`. -/
def valuesOf (n : Num V) (v : Var V) : Arr (Option V) := masked n v.fill v.array

/-- variable/array.py:63-82, variable/delayed_array.py:150-173 the constructors. -/
def new (n : Num V) (delayed : Bool) (name : String) (data : Chunk.Input V) (dims : List String)
    (fill : Option V) (props : Nat) : Py (Var V) := do
  let (a, fill) ← Chunk.asArray (Chunk.notEqual n.ty n.eqv) data fill
  .ok { name, delayed, dims, array := a, fill, props }

/-- variable/array.py:117-134, variable/delayed_array.py:211-229 the setter of `values`: the
variable after the call, and the outcome. -/
def setValues (n : Num V) (v : Var V) (data : Chunk.Input V) : Var V × Py Unit :=
  if data.array.shape.length ≠ v.dims.length then (v, .error .valueError)
  else
    match Chunk.asArray (Chunk.notEqual n.ty n.eqv) data v.fill with
    | .error e => (v, .error e)
    | .ok (a, fill) => ({ v with array := a, fill }, .ok ())

/-- variable/abc.py:369-392 `duplicate`: the constructor, then the check of the rank. -/
def duplicate (n : Num V) (v : Var V) (data : Chunk.Input V) : Py (Var V) := do
  let r ← new n v.delayed v.name data v.dims v.fill v.props
  if r.array.shape.length ≠ v.dims.length then .error .valueError
  else .ok r

/-- variable/array.py:154-163, variable/delayed_array.py:267-277 `fill`. -/
def fillVar (v : Var V) : Var V :=
  match v.fill with
  | none => v
  | some f => { v with array := full v.array.shape f }

/-- variable/array.py:210-219 and variable/delayed_array.py:335-343 `__getitem__`: in memory the
array is indexed, then masked; a dask array is masked, then indexed. -/
def item (n : Num V) (v : Var V) (key : List Ix) : Py (Arr (Option V)) :=
  if v.delayed then getitem 0 key (masked n v.fill v.array)
  else do
    let a ← getitem 0 key v.array
    .ok (masked n v.fill a)

end Verif.Vr
