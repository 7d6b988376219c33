import Verif.Spec.Update

/-! Specification of the loads with overlap. -/

namespace Verif.Spec

open Nd Ds Upd

variable {P V : Type}

/-- The partition at the position `i` with its up to `d` neighbours on each side. -/
def neighbours (parts : List P) (d i : Nat) : List P := (parts.take (i + d + 1)).drop (i - d)

/-- The partitions have the same variables; `size p` is the number of records of the
partition `p` along `dim` and `other` gives the size of the other dimensions, which is the
same in all the partitions. -/
structure Uniform (dim : String) (size : P → Nat) (other : String → Nat) (st : Store P V) :
    Prop where
  good : GoodStore st
  names : ∀ p q vs ws, st p = some vs → st q = some ws → ∀ v ∈ vs, ∃ w ∈ ws, w.name = v.name
  shapes : ∀ p vars, st p = some vars → ∀ v ∈ vars,
    v.array.shape = v.dims.map fun d => if d = dim then size p else other d

/-- The dataset `zds` holds, for each chosen variable of the partitions `ps`, its values in
these partitions one after the other along `dim`; a variable without this dimension has the
values of the first partition. -/
structure HoldsWindow (dim : String) (size : P → Nat) (sel : Option (List String))
    (st : Store P V) (ps : List P) (zds : Dataset V) : Prop where
  present : ∀ q ∈ ps, ∀ vars, st q = some vars → ∀ v ∈ vars, Chosen sel v.name →
    ∃ v' ∈ zds.vars, v'.name = v.name
  values : ∀ v' ∈ zds.vars, ∀ (k : Nat) q vars v, ps[k]? = some q → st q = some vars →
    v ∈ vars → v.name = v'.name → v'.dims = v.dims ∧
      (∀ ax : Nat, v.dims[ax]? = some dim →
        v'.array.shape[ax]? = some (ps.map size).sum ∧
        ∀ idx j, idx[ax]? = some j → j < size q →
          v'.array.get (idx.set ax (((ps.take k).map size).sum + j)) = v.array.get idx) ∧
      (dim ∉ v.dims → k = 0 → v'.array = v.array)

/-- The immutable variables: distinct names, that the partitions do not use, and sizes that
agree with those of the partitions. -/
structure GoodImm (dim : String) (other : String → Nat) (st : Store P V)
    (iv : List (Var V)) : Prop where
  names : (iv.map (·.name)).Nodup
  fresh : ∀ p vars, st p = some vars → ∀ v ∈ vars, ∀ w ∈ iv, w.name ≠ v.name
  shapes : ∀ w ∈ iv, dim ∉ w.dims ∧ w.array.shape = w.dims.map other

end Verif.Spec
