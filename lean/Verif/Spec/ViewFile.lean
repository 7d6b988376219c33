import Verif.Spec.ViewSchema

/-! Specification of what the file `.view` declares, through operations that may fail. -/

namespace Verif.Spec

open Nd Ds Upd Vw

variable {D P V H : Type} [DecidableEq D] [DecidableEq P] [DecidableEq H]

/-- Each partition of the view holds an array for the variable, with the declared properties. -/
def InParts (e : Env D V H) (fs : Files D P V H) (m : VarMeta V) : Prop :=
  ∀ p part, fs e.base p = some part → ∃ v ∈ part.vars, declaration v = m

/-- The histories of a view, the operations may fail.  The reference may change and gain
partitions.  `listing` is what the reference lists.

`failed` are the names of the variables whose addition failed since the view was opened,
`written` those of them for which the configuration was written after the failure, before the
view was opened again or the variable dropped. -/
inductive Lives (e : Env D V H) :
    (listing : List P) → State D P V H → (failed written : List String) → Prop where
  | created (listing : List P) (filters : Option (P → Bool)) (fs : Files D P V H) :
      (∀ p, fs e.base p = none) → listing.Nodup →
      Lives e listing (create e listing filters fs).1 [] []
  | reference (listing listing' : List P) (st : State D P V H) (fa wr : List String)
      (fs : Files D P V H) : Lives e listing st fa wr →
      (∀ p, fs e.base p = st.files e.base p) → listing'.Nodup → (∀ p ∈ listing, p ∈ listing') →
      Lives e listing' { st with files := fs } fa wr
  | sync (listing : List P) (st : State D P V H) (fa wr : List String) :
      Lives e listing st fa wr → Lives e listing (Vw.sync e listing none st).1 fa wr
  /-- With filters, that select no partition that the view has not. -/
  | syncSelected (listing : List P) (st : State D P V H) (fa wr : List String) (f : P → Bool) :
      Lives e listing st fa wr → (∀ p ∈ listing, f p = true → st.files e.base p ≠ none) →
      Lives e listing (Vw.sync e listing (some f) st).1 fa (wr ++ fa)
  | isSynced (listing : List P) (st : State D P V H) (fa wr : List String) :
      Lives e listing st fa wr → Lives e listing (Vw.isSynced e listing st).1 fa wr
  | added (listing : List P) (st st' : State D P V H) (fa wr : List String) (dims : List String)
      (m : VarMeta V) : Lives e listing st fa wr →
      (∃ p ∈ listing, st.files e.base p ≠ none) →
      Vw.addVariable e listing dims m st = (st', .ok ()) → Lives e listing st' fa (wr ++ fa)
  /-- Without partition the configuration is not written. -/
  | addedEmpty (listing : List P) (st st' : State D P V H) (fa wr : List String)
      (dims : List String) (m : VarMeta V) : Lives e listing st fa wr →
      (∀ p ∈ listing, st.files e.base p = none) →
      Vw.addVariable e listing dims m st = (st', .ok ()) → Lives e listing st' fa wr
  /-- The view has a variable of this name. -/
  | refused (listing : List P) (st st' : State D P V H) (fa wr : List String)
      (dims : List String) (m : VarMeta V) (err : PyErr) : Lives e listing st fa wr →
      (∃ t ∈ st.metas, t.name = m.name) →
      Vw.addVariable e listing dims m st = (st', .error err) → Lives e listing st' fa wr
  | failed (listing : List P) (st st' : State D P V H) (fa wr : List String)
      (dims : List String) (m : VarMeta V) (err : PyErr) : Lives e listing st fa wr →
      (∀ t ∈ st.metas, t.name ≠ m.name) →
      Vw.addVariable e listing dims m st = (st', .error err) →
      Lives e listing st' (m.name :: fa) wr
  /-- The removal of a variable of the view, that raises if a partition has no such array. -/
  | dropped (listing : List P) (st : State D P V H) (fa wr : List String) (name : String) :
      Lives e listing st fa wr → (∃ t ∈ st.metas, t.name = name) →
      (∀ t ∈ e.refMeta, t.name ≠ name) →
      Lives e listing (Vw.dropVariable e listing name st).1
        (fa.filter fun n => decide (n ≠ name)) ((wr ++ fa).filter fun n => decide (n ≠ name))
  /-- The removal of anything else, which is refused. -/
  | unknown (listing : List P) (st : State D P V H) (fa wr : List String) (name : String) :
      Lives e listing st fa wr →
      (∀ t ∈ st.metas, t.name ≠ name) ∨ (∃ t ∈ e.refMeta, t.name = name) →
      Lives e listing (Vw.dropVariable e listing name st).1 fa wr
  | update (listing : List P) (st : State D P V H) (fa wr : List String) (how : How)
      (filters : P → Bool) (sel : Option (List String)) (f : Callback V (Dict V)) :
      Lives e listing st fa wr →
      Lives e listing (Vw.update e how listing filters sel f st).1 fa wr
  | reopen (listing : List P) (st : State D P V H) (fa wr : List String) :
      Lives e listing st fa wr → Lives e listing (reopened st) [] wr

end Verif.Spec
