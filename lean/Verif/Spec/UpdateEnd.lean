import Verif.Spec.UpdateLoad
import Verif.Spec.View
import Verif.Spec.ViewUpdate

/-! Specification of a load after an update that may have failed. -/

namespace Verif.Spec

open Nd Ds Upd

variable {P V : Type}

/-- The dataset loaded from the partitions `ps` when `st` was stored before an update of the
partitions `updated` with `f`, that may have stopped anywhere: each variable of each partition
has values of the same shape as before, and they are those stored before if the partition was
not to be updated, or if the callback never returns the variable. -/
def StillReads (dim : String) (size : P → Nat) (sel : Option (List String)) (updated : List P)
    (f : Callback V (Dict V)) (st : Store P V) (ps : List P) (zds : Dataset V) : Prop :=
  ∀ (k : Nat) (q : P) (vars : List (Var V)), ps[k]? = some q → st q = some vars →
    ∀ v ∈ vars, Chosen sel v.name → ∃ a, ReadsAs dim size ps zds k q v.name v.dims a ∧
      a.shape = v.array.shape ∧
      ((q ∉ updated ∨ ∀ shown ind d, f shown ind = .ok d → v.name ∉ d.map (·.1)) → a = v.array)

/-- The same for an update without overlap: each variable of a partition has the values stored
before or, in the partitions `updated` only, those that the callback returned for this variable
when given the partition as it was stored before. -/
def OldOrNew (dim : String) (size : P → Nat) (sel : Option (List String)) (imm : List (Var V))
    (updSel : Option (List String)) (delayed : Bool) (updated : List P)
    (f : Callback V (Dict V)) (st : Store P V) (ps : List P) (zds : Dataset V) : Prop :=
  ∀ (k : Nat) (q : P) (vars : List (Var V)), ps[k]? = some q → st q = some vars →
    ∃ shown, PartShown updSel delayed imm vars shown ∧
      ∀ v ∈ vars, Chosen sel v.name →
        ReadsAs dim size ps zds k q v.name v.dims v.array ∨
        ∃ d a, q ∈ updated ∧ f shown none = .ok d ∧ (v.name, a) ∈ d ∧
          ReadsAs dim size ps zds k q v.name v.dims a

/-- The same for a view, with or without overlap: each variable has the values shown before or,
in the partitions `updated` only and if it is a variable of the view, those that the callback
returned for it when given what the view showed before. -/
def ViewOldOrNew {D H : Type} (e : Vw.Env D V H) (how : Vw.How) (size : P → Nat)
    (sel updSel : Option (List String)) (updated : List P) (f : Callback V (Dict V))
    (st : Vw.State D P V H) (ps : List P) (zds : Dataset V) : Prop :=
  ∀ (k : Nat) (q : P) (vars : List (Var V)), ps[k]? = some q → viewStore e st q = some vars →
    ∀ v ∈ vars, Chosen sel v.name →
      ReadsAs e.dim size ps zds k q v.name v.dims v.array ∨
      ∃ (i : Nat) (given : Dataset V) (d : Dict V) (b a : Arr V), updated[i]? = some q ∧
        Shows e st size updSel (shownTo updated how.depth i q) given ∧
        f given (info size updated how.depth i q) = .ok d ∧ (v.name, b) ∈ d ∧
        (∃ m ∈ st.metas, m.name = v.name) ∧
        StoredFrom how e.dim given (info size updated how.depth i q) v.name b a ∧
        ReadsAs e.dim size ps zds k q v.name v.dims a

end Verif.Spec
