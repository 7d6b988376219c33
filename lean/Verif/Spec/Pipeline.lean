import Verif.Model.Pipeline
import Verif.Spec.Split
import Verif.Spec.Schema

/-! Specification of the insertion of a dataset: which records go to which partition. -/

namespace Verif.Spec

open Nd Ds Pipe

variable {V : Type}

/-- The record `i` of the variables has the keys `k`, one for each variable of the
partitioning. -/
def KeyAt (sc : Scheme V) (vars : List (Var V)) (i : Nat) (k : List Int) : Prop :=
  k.length = sc.variables.length ∧ ∀ (j : Nat) (name : String), sc.variables[j]? = some name →
    ∃ v ∈ vars, v.name = name ∧ ∃ x, v.array.get [i] = some x ∧ sc.asKey x = k[j]?

/-- The keys of the records do not decrease. -/
def KeysMonotone (sc : Scheme V) (vars : List (Var V)) : Prop :=
  ∀ i j k l, i < j → KeyAt sc vars i k → KeyAt sc vars j l → k ≤ l

/-- A partitioning that can be built: `Date` takes one variable (partitioning/date.py). -/
def GoodScheme (sc : Scheme V) : Prop := sc.date = true → sc.variables.length = 1

/-- `w` holds the records `lo .. hi` of `v` along the dimension `dim`, and all of `v` if it
does not have this dimension. -/
def RecordsOf (dim : String) (lo hi : Nat) (v w : Var V) : Prop :=
  w.name = v.name ∧ w.dims = v.dims ∧ w.fill = v.fill ∧ w.props = v.props ∧
  (∀ ax : Nat, v.dims[ax]? = some dim →
    w.array.shape = v.array.shape.set ax (hi - lo) ∧
    ∀ (idx : List Nat) (j : Nat), idx[ax]? = some j →
      (j < hi - lo → w.array.get idx = v.array.get (idx.set ax (lo + j))) ∧
      (hi - lo ≤ j → w.array.get idx = none)) ∧
  (dim ∉ v.dims → w.array = v.array)

/-- `piece` holds the records `lo .. hi` of the variables, in the same order. -/
def PieceOf (dim : String) (lo hi : Nat) (vars piece : List (Var V)) : Prop :=
  piece.length = vars.length ∧ ∀ (j : Nat) (v : Var V), vars[j]? = some v →
    ∃ w, piece[j]? = some w ∧ RecordsOf dim lo hi v w

/-- What the insertion of the records `piece` makes of a partition: it is created or
overwritten, or the callback gives its new content. -/
def EffectOn (merge : Option (Sch.Merge V)) (delayed : Bool) (old : Option (List (Var V)))
    (piece : List (Var V)) (new : Option (List (Var V))) : Prop :=
  match old, merge with
  | none, _ => new = some piece
  | some _, none => new = some piece
  | some o, some f => ∃ a b r, Upd.openGroup delayed none o = .ok a ∧ b.vars = piece ∧
      Consistent b ∧ b.delayed = delayed ∧ f a b = .ok r ∧ new = some r.vars

end Verif.Spec
