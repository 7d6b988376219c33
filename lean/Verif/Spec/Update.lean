import Verif.Model.Update
import Verif.Spec.Dataset

/-! Specification of the updates of a collection. -/

namespace Verif.Spec

open Nd Ds Upd

variable {P V : Type}

/-- What is stored for a variable of a partition. -/
def stored (st : Store P V) (p : P) (name : String) : Option (Arr V) :=
  match st p with
  | none => none
  | some vars => (vars.find? fun v => decide (v.name = name)).map (·.array)

/-- A callback that only returns variables of `names`. -/
def Returns {V : Type} (f : Callback V (Dict V)) (names : List String) : Prop :=
  ∀ zds ind d, f zds ind = .ok d → ∀ x ∈ d, x.1 ∈ names

/-- A callback that returns dictionaries: no key twice. -/
def Keys {V : Type} (f : Callback V (Dict V)) : Prop :=
  ∀ zds ind d, f zds ind = .ok d → (d.map (·.1)).Nodup

/-- The variables of a partition: distinct names and dimensions, well formed arrays. -/
def GoodVars (vars : List (Var V)) : Prop :=
  (vars.map (·.name)).Nodup ∧ ∀ v ∈ vars, ArrOk v.array ∧ v.dims.Nodup

/-- All the partitions are well formed, and a variable has the same dimensions in all of
them. -/
def GoodStore (st : Store P V) : Prop :=
  (∀ p vars, st p = some vars → GoodVars vars) ∧
  ∀ p q vs ws, st p = some vs → st q = some ws → ∀ v ∈ vs, ∀ w ∈ ws, v.name = w.name →
    v.dims = w.dims

/-- The variable is one of those selected. -/
def Chosen (sel : Option (List String)) (name : String) : Prop :=
  ∀ l, sel = some l → name ∈ l

/-- Two versions of a variable that differ at most by its values, which are the same unless
the variable is one of `names`. -/
def SameVar (names : List String) (v w : Var V) : Prop :=
  v.name = w.name ∧ v.delayed = w.delayed ∧ v.dims = w.dims ∧ v.fill = w.fill ∧
  v.props = w.props ∧ v.array.shape = w.array.shape ∧ (v.name ∉ names → v.array = w.array)

/-- Two lists of variables that differ at most by the values of `names`. -/
def SameVars (names : List String) : List (Var V) → List (Var V) → Prop
  | [], [] => True
  | v :: t, w :: u => SameVar names v w ∧ SameVars names t u
  | _, _ => False

/-- Two datasets that differ at most by the values of the variables `names`. -/
def SameDs (names : List String) (a b : Dataset V) : Prop :=
  a.dims = b.dims ∧ a.attrs = b.attrs ∧ a.chunks = b.chunks ∧ a.limit = b.limit ∧
  a.delayed = b.delayed ∧ SameVars names a.vars b.vars

/-- Two contents of a collection that differ at most by the values of the variables `names`:
the same partitions with the same variables of the same shapes. -/
def SameStore (names : List String) (st st' : Store P V) : Prop :=
  ∀ p, match st p, st' p with
    | none, none => True
    | some vs, some ws => SameVars names vs ws
    | _, _ => False

/-- A callback that does not read the variables `names`. -/
def Ignores {V R : Type} (f : Callback V R) (names : List String) : Prop :=
  ∀ zds zds' ind, SameDs names zds zds' → f zds ind = f zds' ind

/-- The callback that returns its input. -/
def identity {V : Type} : Callback V (Dict V) := fun zds _ =>
  .ok (zds.vars.map fun v => (v.name, v.array))

end Verif.Spec
