import Verif.Model.Attributes

/-! Specification of the attributes: who holds them, and who gets them. -/

namespace Verif.Spec

open Meta

/-- The dataset has no attribute, and neither have its variables. -/
def Bare (ds : At.Dset) : Prop := ds.attrs = [] ∧ ∀ v ∈ ds.vars, v.attrs = []

/-- The files hold no attribute: only the dimensions of the arrays. -/
def BareFiles (g : At.Group) : Prop :=
  g.attrs = [] ∧ ∀ a ∈ g.arrays, ∃ dims, a.2 = [("_ARRAY_DIMENSIONS", AttrVal.list dims)]

/-- The dataset has the attributes that the metadata gives, and each of its variables has those
that the metadata gives to it. -/
def Attributed (m : Meta.Ds) (ds : At.Dset) : Prop :=
  ds.attrs = m.attrs ∧ ∀ v ∈ ds.vars, ∃ w ∈ m.vars, w.name = v.name ∧ v.attrs = w.attrs

/-- The names of the variables of a dataset. -/
def named (ds : At.Dset) : List String := ds.vars.map (·.name)

/-- A merge callable that invents neither variables nor attributes. -/
def Modest (f : At.Merge) : Prop :=
  ∀ a b r, f a b = .ok r →
    (Bare a → Bare b → Bare r) ∧ ∀ n ∈ named r, n ∈ named a ∨ n ∈ named b

/-- The calls whose merge callable, if there is one, is modest. -/
def ModestCall {P : Type} : At.Op P → Prop
  | .insert _ (some f) _ _ => Modest f
  | _ => True

/-- A collection as it is created: distinct variables and no file. -/
structure New {P : Type} (c : At.Coll P) : Prop where
  distinct : (c.md.vars.map (·.name)).Nodup
  parts : ∀ p, c.parts p = none
  immutable : c.immutable = none

end Verif.Spec
