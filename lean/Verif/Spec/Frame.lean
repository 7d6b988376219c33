import Verif.Spec.Pipeline
import Verif.Spec.Update

/-! Specification of what the calls do not change: stored values stay until a call addresses
them. -/

namespace Verif.Spec

open Nd Ds Sch Pipe Upd

variable {V : Type}

/-- The partition `k` stores the variable `v`. -/
def Stores {P V : Type} (st : Store P V) (k : P) (v : Var V) : Prop :=
  ∃ vars, st k = some vars ∧ v ∈ vars

/-- Two contents of a collection that agree on the variable `n` of the partition `k`: the
partition exists in both or in none, and the variable, with its values, is stored in both or
in none. -/
def SameAt {P V : Type} (k : P) (n : String) (st st' : Store P V) : Prop :=
  (st k = none ↔ st' k = none) ∧ ∀ v : Var V, v.name = n → (Stores st k v ↔ Stores st' k v)

/-- The call does not address the variable `n` of the partition `k`.  An insertion gives all
the variables of the partitioning and no record of the key `k`; an update does not select the
partition, or its callback does not return the variable; another variable is added or removed;
the partition is not one of those to remove. -/
def Leaves (sc : Scheme V) (w : World (List Int) V) (k : List Int) (n : String) :
    Call (List Int) V → Prop
  | .insert _ _ _ _ ds => (∀ v ∈ ds.vars, ArrOk v.array) ∧
      (∀ name ∈ sc.variables, ∃ v ∈ ds.vars, v.name = name) ∧ ∀ i, ¬ KeyAt sc ds.vars i k
  | .update _ _ _ filters f _ _ _ =>
      filters k = false ∨ ∃ names, Returns f names ∧ n ∉ names
  | .addVariable _ m => m.name ≠ n
  | .dropVariable _ name => name ≠ n
  | .dropPartitions filters _ => filters k = false
  | .validatePartitions filters fix => fix = true → filters k = false ∨ w.broken k = false
  | _ => True

/-- The states of the files of a collection after calls, successful or not, made by any
objects (opened at any time, with any metadata), each call allowed by `ok`; the collection is
opened again at any time. -/
inductive Later {P V : Type} [DecidableEq P] (w : World P V) (ok : Call P V → Prop) :
    Files P V → Files P V → Prop
  | start (fs : Files P V) : Later w ok fs fs
  | call {fs fs1} (o : Obj V) (c : Call P V) : Later w ok fs fs1 → ok c →
      Later w ok fs (exec w o fs1 c).2.1
  | opened {fs fs1} (readOnly : Bool) : Later w ok fs fs1 →
      Later w ok fs (fromConfig w readOnly fs1).1

end Verif.Spec
