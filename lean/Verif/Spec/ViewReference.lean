import Verif.Spec.ViewLoad
import Verif.Model.Load

/-! What a view shows of its reference. -/

namespace Verif.Spec

open Nd Ds Upd Vw

variable {D P V H : Type}

/-- The partitions of the reference. -/
def refStore (e : Env D V H) (st : State D P V H) : Store P V := fun p =>
  (st.files e.refDir p).map (·.vars)

/-- The partitions that satisfy the filters and that the view holds. -/
def heldBy (e : Env D V H) (st : State D P V H) (filters : P → Bool) (p : P) : Bool :=
  filters p && (st.files e.base p).isSome

/-- The partitions of the reference hold variables of its metadata, each with a dimension, and
the names of the view are others. -/
structure RefParts (e : Env D V H) (st : State D P V H) : Prop where
  refs : ∀ p r, st.files e.refDir p = some r → ∀ v ∈ r.vars,
    (∃ m ∈ e.refMeta, m.name = v.name) ∧ v.dims ≠ []
  apart : ∀ m ∈ st.metas, ∀ t ∈ e.refMeta, m.name ≠ t.name

/-- The variable of this name is in no partition of the reference. -/
def NotSplit (e : Env D V H) (st : State D P V H) (name : String) : Prop :=
  ∀ p r, st.files e.refDir p = some r → name ∉ r.vars.map (·.name)

end Verif.Spec
