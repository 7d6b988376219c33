import Verif.Model.Meta

/-! Specification of the equality of metadata. -/

namespace Verif.Spec

open Meta

/-- Two variables with the same metadata, attributes in any order. -/
def SameVarMeta (v w : Var) : Prop :=
  v.name = w.name ∧ v.dtype = w.dtype ∧ v.dims = w.dims ∧ v.attrs.Perm w.attrs ∧
    v.compressor = w.compressor ∧ v.fill = w.fill ∧ v.filters = w.filters

/-- The same metadata, variables and attributes in any order. -/
def SameMeta (a b : Ds) : Prop :=
  a.dims = b.dims ∧ a.chunks = b.chunks ∧ a.limit = b.limit ∧ a.attrs.Perm b.attrs ∧
    (∀ v ∈ a.vars, ∃ w ∈ b.vars, SameVarMeta v w) ∧ ∀ w ∈ b.vars, ∃ v ∈ a.vars, SameVarMeta v w

/-- Names of attributes and variables are distinct; the limit of the size of blocks is not
zero. -/
def WellFormed (d : Ds) : Prop :=
  (d.vars.map (·.name)).Nodup ∧ (d.attrs.map (·.1)).Nodup ∧
    (∀ v ∈ d.vars, (v.attrs.map (·.1)).Nodup) ∧ d.limit ≠ 0

end Verif.Spec
