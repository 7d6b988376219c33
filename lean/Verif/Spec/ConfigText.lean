import Verif.Model.ConfigText
import Verif.Spec.Json

/-! What opening a collection gives of the configuration it had when its file was written. -/

namespace Verif.Spec

open Json (V)
open Cft (Attr Var Ds Conf ViewConf)

/-- The attributes, in any order, with the values that a file gives back. -/
def LoadedAttrs (a b : List Attr) : Prop := b.Perm (a.map fun x => (x.1, readAs x.2))

/-- A variable as a file gives it back. -/
structure LoadedVar (v w : Var) : Prop where
  name : w.name = v.name
  dtype : w.dtype = v.dtype
  dims : w.dims = v.dims
  attrs : LoadedAttrs v.attrs w.attrs
  compressor : w.compressor = readAs v.compressor
  fill : w.fill = readAs v.fill
  filters : w.filters = v.filters.map readAs

/-- The metadata of a dataset as a file gives it back: the variables may be in another order. -/
structure LoadedDs (d e : Ds) : Prop where
  dims : e.dims = d.dims
  attrs : LoadedAttrs d.attrs e.attrs
  chunks : e.chunks = d.chunks.map fun x => (x.1, readAs x.2)
  limit : e.limit = d.limit
  vars : ∃ f : Var → Var, (∀ v ∈ d.vars, LoadedVar v (f v)) ∧ e.vars.Perm (d.vars.map f)

/-- A configuration as a file gives it back. -/
structure LoadedConf (c e : Conf) : Prop where
  axis : e.axis = c.axis
  ds : LoadedDs c.ds e.ds
  part : e.part = readAs c.part

/-- The configuration of a view as a file gives it back. -/
structure LoadedView (c e : ViewConf) : Prop where
  base : e.base = c.base
  filters : e.filters = readAs c.filters
  ds : LoadedDs c.ds e.ds
  path : e.path = c.path
  fs : e.fs = readAs c.fs

/-- A property of every value of a variable that comes from the user. -/
structure EachVar (P : V → Prop) (v : Var) : Prop where
  attrs : ∀ a ∈ v.attrs, P a.2
  compressor : P v.compressor
  fill : P v.fill
  filters : ∀ x ∈ v.filters, P x

/-- A property of every value of the metadata. -/
structure EachDs (P : V → Prop) (d : Ds) : Prop where
  attrs : ∀ a ∈ d.attrs, P a.2
  vars : ∀ v ∈ d.vars, EachVar P v
  chunks : ∀ a ∈ d.chunks, P a.2

/-- A property of every value of a configuration. -/
structure EachConf (P : V → Prop) (c : Conf) : Prop where
  ds : EachDs P c.ds
  part : P c.part

/-- Metadata as `meta.Dataset` makes them: one variable of each name, and a limit. -/
structure Metadata (d : Ds) : Prop where
  names : (d.vars.map (·.name)).Nodup
  limit : d.limit ≠ 0

end Verif.Spec
