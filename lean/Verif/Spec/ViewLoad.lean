import Verif.Spec.View
import Verif.Spec.Load

/-! Specification of the loads of a view. -/

namespace Verif.Spec

open Nd Ds Upd Vw

variable {D P V H : Type}

/-- What a view shows: for the partitions that it holds, the variables of the reference and
its own ones. -/
def viewStore (e : Env D V H) (st : State D P V H) : Store P V := fun p =>
  match st.files e.refDir p, st.files e.base p with
  | some r, some w => some (r.vars ++ w.vars.filter fun v => decide (v.name ∈ st.metas.map (·.name)))
  | _, _ => none

/-- The partitions of the view have the same variables and the sizes of the reference, and
hold all the variables of the view; the variables of the reference are those of its
metadata. -/
structure GoodView (e : Env D V H) (st : State D P V H) (size : P → Nat)
    (other : String → Nat) : Prop where
  uniform : Uniform e.dim size other (viewStore e st)
  refs : ∀ p r, st.files e.refDir p = some r → ∀ v ∈ r.vars, ∃ m ∈ e.refMeta, m.name = v.name
  names : ∀ p part, st.files e.base p = some part → (part.vars.map (·.name)).Nodup
  complete : ∀ p part, st.files e.base p = some part → ∀ m ∈ st.metas,
    ∃ v ∈ part.vars, v.name = m.name
  metas : (st.metas.map (·.name)).Nodup
  apart : ∀ m ∈ st.metas, ∀ t ∈ e.refMeta, m.name ≠ t.name

/-- Some chosen variable of the reference has the dimension of the partitioning, and the
dimensions of the chosen variables of the view are those of chosen variables of the
reference. -/
def DimsCovered (e : Env D V H) (st : State D P V H) (sel : Option (List String)) : Prop :=
  ∀ p r part, st.files e.refDir p = some r → st.files e.base p = some part →
    (∃ v ∈ r.vars, Chosen sel v.name ∧ e.dim ∈ v.dims) ∧
    ∀ w ∈ part.vars, Chosen sel w.name → (∃ m ∈ st.metas, m.name = w.name) → ∀ d ∈ w.dims,
      ∃ v ∈ r.vars, Chosen sel v.name ∧ d ∈ v.dims

/-- No variable of the reference is chosen, and at least one of the view is. -/
def ViewOnly (e : Env D V H) (st : State D P V H) (sel : Option (List String)) : Prop :=
  (∀ m ∈ e.refMeta, ¬ Chosen sel m.name) ∧ ∃ m ∈ st.metas, Chosen sel m.name

/-- The variables of the dataset are chosen variables of the view or of the reference. -/
def OnlyShown (sel : Option (List String)) (st : Store P V) (ps : List P) (zds : Dataset V) :
    Prop :=
  ∀ v ∈ zds.vars, ∀ p ∈ ps, ∃ vars v0, st p = some vars ∧ v0 ∈ vars ∧ v0.name = v.name ∧
    Chosen sel v0.name

end Verif.Spec
