import Verif.Spec.Load

/-! Specification of a load after an update. -/

namespace Verif.Spec

open Nd Ds Upd

variable {P V : Type}

/-- What is given to the callback of an update for a partition that holds `vars`: the chosen
variables of the partition and the chosen immutable ones, and nothing else. -/
structure PartShown (sel : Option (List String)) (delayed : Bool) (imm vars : List (Var V))
    (zds : Dataset V) : Prop where
  own : ∀ v ∈ vars, Chosen sel v.name → { v with delayed := delayed } ∈ zds.vars
  shared : ∀ v ∈ imm, Chosen sel v.name → { v with delayed := delayed } ∈ zds.vars
  only : ∀ v' ∈ zds.vars, Chosen sel v'.name ∧ ∃ v, v' = { v with delayed := delayed } ∧
    (v ∈ vars ∨ v ∈ imm)

/-- A callback that returns arrays, when it is given arrays. -/
def KeepsArrays (f : Callback V (Dict V)) : Prop :=
  ∀ zds d, (∀ v ∈ zds.vars, ArrOk v.array) → f zds none = .ok d → ∀ x ∈ d, ArrOk x.2

/-- The dataset loaded from the partitions `ps` has, for the variable `name` of dimensions
`dims`, the values `a` at the place of the partition `q`, number `k`; if the variable has not
the dimension of the partitioning, the values of the first partition. -/
def ReadsAs (dim : String) (size : P → Nat) (ps : List P) (zds : Dataset V) (k : Nat) (q : P)
    (name : String) (dims : List String) (a : Arr V) : Prop :=
  ∃ v' ∈ zds.vars, v'.name = name ∧ v'.dims = dims ∧
    (∀ ax : Nat, dims[ax]? = some dim →
      v'.array.shape[ax]? = some (ps.map size).sum ∧
      ∀ (idx : List Nat) (j : Nat), idx[ax]? = some j → j < size q →
        v'.array.get (idx.set ax (((ps.take k).map size).sum + j)) = a.get idx) ∧
    (dim ∉ dims → k = 0 → v'.array = a)

/-- The dataset loaded from the partitions `ps` after the partitions `updated` were updated with
`f`, when `st` was stored before: in an updated partition the variables that the callback
returned have the values that it computed from the chosen variables of this partition; the
other variables of the partition, and all those of the other partitions, have the values they
had before. -/
def ReadBack (dim : String) (size : P → Nat) (sel : Option (List String)) (imm : List (Var V))
    (updSel : Option (List String)) (delayed : Bool) (updated : List P)
    (f : Callback V (Dict V)) (st : Store P V) (ps : List P) (zds : Dataset V) : Prop :=
  ∀ (k : Nat) (q : P) (vars : List (Var V)), ps[k]? = some q → st q = some vars →
    (q ∉ updated → ∀ v ∈ vars, Chosen sel v.name →
      ReadsAs dim size ps zds k q v.name v.dims v.array) ∧
    (q ∈ updated → ∃ shown d, PartShown updSel delayed imm vars shown ∧ f shown none = .ok d ∧
      ∀ v ∈ vars, Chosen sel v.name →
        (∀ a, (v.name, a) ∈ d → ReadsAs dim size ps zds k q v.name v.dims a) ∧
        (v.name ∉ d.map (·.1) → ReadsAs dim size ps zds k q v.name v.dims v.array))

end Verif.Spec
