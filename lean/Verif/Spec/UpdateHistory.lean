import Verif.Spec.UpdateLoad

/-! Specification of a history of updates followed by a load. -/

namespace Verif.Spec

open Nd Ds Upd

variable {P V : Type}

/-- A change of the content of a collection: the partitions it applies to, the variables given
to the function, and the function. -/
structure Change (P V : Type) where
  parts : List P
  sel : Option (List String)
  delayed : Bool
  f : Callback V (Dict V)

/-- A variable that is the same but for its values, which are those of `d` if it gives some. -/
def Revised (d : Dict V) (v w : Var V) : Prop :=
  w.name = v.name ∧ w.dims = v.dims ∧ w.array.shape = v.array.shape ∧
  (∀ a, (v.name, a) ∈ d → w.array = a) ∧ (v.name ∉ d.map (·.1) → w.array = v.array)

/-- The change makes the content `b` from the content `a`: nothing happens outside its
partitions; in them the function is given what the partition holds in `a`, and the variables it
returns, and only they, get the values it returns. -/
def MadeBy (imm : List (Var V)) (u : Change P V) (a b : Store P V) : Prop :=
  ∀ q, (q ∉ u.parts → b q = a q) ∧
    (q ∈ u.parts → ∀ vars, a q = some vars → ∃ shown d ws,
      PartShown u.sel u.delayed imm vars shown ∧ u.f shown none = .ok d ∧ b q = some ws ∧
      (∀ v ∈ vars, ∃ w ∈ ws, Revised d v w) ∧ (∀ w ∈ ws, ∃ v ∈ vars, Revised d v w))

/-- The changes, one after the other, make the content `b` from the content `a`. -/
def MadeInTurn (imm : List (Var V)) : List (Change P V) → Store P V → Store P V → Prop
  | [], a, b => b = a
  | u :: t, a, b => ∃ m, MadeBy imm u a m ∧ MadeInTurn imm t m b

/-- The dataset loaded from the partitions `ps` shows the content `st`. -/
def ShowsContent (dim : String) (size : P → Nat) (sel : Option (List String)) (st : Store P V)
    (ps : List P) (zds : Dataset V) : Prop :=
  ∀ (k : Nat) (q : P) (vars : List (Var V)), ps[k]? = some q → st q = some vars →
    ∀ v ∈ vars, Chosen sel v.name → ReadsAs dim size ps zds k q v.name v.dims v.array

/-- The function applied to each value of an array. -/
def mapArr (g : V → V) (a : Arr V) : Arr V := { shape := a.shape, get := fun i => (a.get i).map g }

/-- What becomes of a value of the partition `q` when functions are applied in turn, each to the
values of some partitions. -/
def appliedTo [DecidableEq P] (q : P) : List (List P × (V → V)) → V → V
  | [], v => v
  | (ps, g) :: t, v => appliedTo q t (if q ∈ ps then g v else v)

end Verif.Spec
