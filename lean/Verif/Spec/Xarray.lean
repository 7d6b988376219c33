import Verif.Model.Xarray
import Verif.Spec.Dataset

/-! What a conversion to xarray should keep. -/

namespace Verif.Spec

open Nd Xr

variable {V : Type}

/-- A dataset whose variables have distinct names, distinct names of attributes, and agree on the
sizes of the dimensions. -/
structure Convertible (ds : Dset V) : Prop where
  names : (ds.vars.map (·.name)).Nodup
  attrs : ∀ v ∈ ds.vars, (v.attrs.map (·.1)).Nodup
  sized : ∃ size : String → Nat, ∀ v ∈ ds.vars, v.array.shape = v.dims.map size

/-- The attributes of a variable are not of those that xarray decodes, fill values apart. -/
def Conventional (cf : Cf V) (v : Var V) : Prop :=
  ∀ attrs data, (∀ a ∈ attrs, a ∈ v.attrs ∨ a.1 = "_FillValue") → cf.extra attrs data = (attrs, data)

/-- The fill value of a variable, that of the attribute `_FillValue` if it has none. -/
def FillOf (v : Var V) (f : V) : Prop :=
  v.fill = some f ∨ (v.fill = none ∧ v.attrs.lookup "_FillValue" = some f)

/-- A value that stands for missing elements by the conventions. -/
def MissingOf (v : Var V) (f : V) : Prop :=
  FillOf v f ∨ v.attrs.lookup "missing_value" = some f

/-- The elements of an array, those that stand for missing elements being NaN. -/
structure NanFilled (cf : Cf V) (v : Var V) (a : Arr V) : Prop where
  shape : a.shape = v.array.shape
  nan : ∀ idx e f, v.array.get idx = some e → MissingOf v f → cf.eqv e f = true →
    a.get idx = some cf.nan
  same : ∀ idx e, v.array.get idx = some e → (∀ f, MissingOf v f → cf.eqv e f = false) →
    a.get idx = some e
  outside : ∀ idx, v.array.get idx = none → a.get idx = none

/-- The names of the attributes that describe missing elements and coordinates. -/
def cfNames : List String := ["_FillValue", "missing_value", "coordinates"]

/-- A variable of xarray is the image of a variable. -/
structure Image (cf : Cf V) (v : Var V) (x : XVar V) : Prop where
  dims : x.dims = v.dims
  data : NanFilled cf v x.data
  attrs : ∀ k, k ∉ cfNames → x.attrs.lookup k = v.attrs.lookup k
  fill : ∀ f, x.enc.fill = some f ↔ FillOf v f
  compressor : x.enc.compressor = v.compressor
  filters : ∀ l, x.enc.filters = some l ↔ v.filters = l ∧ l ≠ []

/-- The coordinates that an attribute of a variable names, all of them being variables. -/
def NamedBy (cf : Cf V) (ds : Dset V) (n : String) : Prop :=
  ∃ v ∈ ds.vars, ∃ c l, v.attrs.lookup "coordinates" = some c ∧ cf.words c = some l ∧ n ∈ l ∧
    ∀ m ∈ l, m ∈ ds.vars.map (·.name)

/-- The coordinates that the attribute of the dataset names. -/
def NamedGlobally (cf : Cf V) (ds : Dset V) (n : String) : Prop :=
  ∃ c l, ds.attrs.lookup "coordinates" = some c ∧ cf.words c = some l ∧ n ∈ l

end Verif.Spec
