import Verif.Model.Dataset

/-! Specification of arrays and datasets. -/

namespace Verif.Spec

open Nd Ds

variable {V : Type}

/-- The index lies within the bounds of the shape. -/
def Inside (shape idx : List Nat) : Prop :=
  idx.length = shape.length ∧
    ∀ i x n : Nat, idx[i]? = some x → shape[i]? = some n → x < n

/-- An array has a value exactly at the indices within its bounds. -/
def ArrOk (a : Arr V) : Prop := ∀ idx, (∃ v, a.get idx = some v) ↔ Inside a.shape idx

/-- A variable agrees with the sizes of the dimensions. -/
def Agrees (dims : List (String × Nat)) (v : Var V) : Prop :=
  ∀ (i : Nat) (d : String), v.dims[i]? = some d → ∃ n, v.array.shape[i]? = some n ∧ dims.lookup d = some n

/-- A dataset whose dimensions are listed once, whose variables have distinct names, are all
of its kind and agree on the size of each dimension. -/
structure Consistent (ds : Dataset V) : Prop where
  keys : (ds.dims.map (·.1)).Nodup
  names : (ds.vars.map (·.name)).Nodup
  kind : ∀ v ∈ ds.vars, v.delayed = ds.delayed
  sizes : ∀ v ∈ ds.vars, Agrees ds.dims v

/-- The ranges are consecutive and cover `a .. n`; empty ranges are allowed. -/
def Cuts (a n : Nat) : List (Nat × Nat) → Prop
  | [] => a = n
  | (lo, hi) :: t => lo = a ∧ lo ≤ hi ∧ Cuts hi n t

/-- The index in the original array of an index in the selection, when the positions `pos d`
of each dimension `d` are selected. -/
def pick (pos : String → List Nat) : List String → List Nat → Option (List Nat)
  | [], idx => some idx
  | d :: ds, j :: idx =>
    match (pos d)[j]?, pick pos ds idx with
    | some p, some r => some (p :: r)
    | _, _ => none
  | _ :: _, [] => none

end Verif.Spec
