import Verif.Spec.ViewUpdate
import Verif.Spec.UpdateLoad

/-! Specification of a load of a view after an update of the view. -/

namespace Verif.Spec

open Nd Ds Upd Vw

variable {D P V H : Type}

/-- The dataset loaded from the partitions `ps` of a view after the partitions `updated` were
updated with `f`, when the state was `st` before: in an updated partition, the variables of the
view that the callback returned have the values it computed from what the view showed for the
partition and its neighbours; all the other variables, those of the reference, and all those of
the other partitions, have the values they had before. -/
def ViewReadBack (e : Env D V H) (how : How) (size : P → Nat) (sel updSel : Option (List String))
    (updated : List P) (f : Callback V (Dict V)) (st : State D P V H) (ps : List P)
    (zds : Dataset V) : Prop :=
  ∀ (k : Nat) (q : P) (vars : List (Var V)), ps[k]? = some q → viewStore e st q = some vars →
    (q ∉ updated → ∀ v ∈ vars, Chosen sel v.name →
      ReadsAs e.dim size ps zds k q v.name v.dims v.array) ∧
    ∀ i : Nat, updated[i]? = some q → ∃ given d,
      Shows e st size updSel (shownTo updated how.depth i q) given ∧
      f given (info size updated how.depth i q) = .ok d ∧
      ∀ v ∈ vars, Chosen sel v.name →
        ((∃ m ∈ st.metas, m.name = v.name) → ∀ b, (v.name, b) ∈ d → ∃ a,
          StoredFrom how e.dim given (info size updated how.depth i q) v.name b a ∧
          ReadsAs e.dim size ps zds k q v.name v.dims a) ∧
        (v.name ∉ d.map (·.1) ∨ (∀ m ∈ st.metas, m.name ≠ v.name) →
          ReadsAs e.dim size ps zds k q v.name v.dims v.array)

end Verif.Spec
