import Verif.Spec.View

/-! Histories of a view. -/

namespace Verif.Spec

open Nd Ds Upd Vw

variable {D P V H : Type} [DecidableEq D] [DecidableEq P] [DecidableEq H]

/-- The operations on a view, with their arguments; `listing` is what the reference lists. -/
inductive Op (P V : Type) where
  | sync (listing : List P) (filters : Option (P → Bool))
  | isSynced (listing : List P)
  | add (listing : List P) (dims : List String) (m : VarMeta V)
  | drop (listing : List P) (name : String)
  | update (how : How) (listing : List P) (filters : P → Bool) (sel : Option (List String))
      (f : Callback V (Dict V))
  | reopen

/-- The state after an operation, whether it raised or not. -/
def afterOp (e : Env D V H) (st : State D P V H) : Op P V → State D P V H
  | .sync listing filters => (Vw.sync e listing filters st).1
  | .isSynced listing => (Vw.isSynced e listing st).1
  | .add listing dims m => (Vw.addVariable e listing dims m st).1
  | .drop listing name => (Vw.dropVariable e listing name st).1
  | .update how listing filters sel f => (Vw.update e how listing filters sel f st).1
  | .reopen => { st with metas := st.saved }

/-- No variable of the view, in the metadata or in a partition, has the name of a variable of
the reference. -/
structure Apart (e : Env D V H) (st : State D P V H) : Prop where
  metas : ∀ m ∈ st.metas, ∀ t ∈ e.refMeta, m.name ≠ t.name
  saved : ∀ m ∈ st.saved, ∀ t ∈ e.refMeta, m.name ≠ t.name
  parts : ∀ p part, st.files e.base p = some part → ∀ v ∈ part.vars, ∀ t ∈ e.refMeta,
    v.name ≠ t.name

end Verif.Spec
