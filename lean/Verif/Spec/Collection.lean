import Verif.Model.Collection

/-! Specification of a collection: which records a partition holds. -/

namespace Verif.Spec

open Coll

variable {R : Type}

/-- The records with a given key, in their order. -/
def rowsOf (column : List Key) (rows : List R) (k : Key) : List R :=
  ((column.zip rows).filter fun p => decide (p.1 = k)).map (·.2)

/-- What the insertion of the records `rows` makes of a partition: it is created or
overwritten, or the callback gives its new content. -/
def Effect (merge : Option (Merge R)) (old : Option (List R)) (rows : List R)
    (new : Option (List R)) : Prop :=
  match old, merge with
  | none, _ => new = some rows
  | some _, none => new = some rows
  | some o, some f => ∃ m, f o rows = .ok m ∧ new = some m

/-- The listing of a store: its keys in strictly increasing order. -/
structure Lists (st : Store R) (ks : List Key) : Prop where
  sorted : ks.Pairwise (· < ·)
  exact : ∀ k, k ∈ ks ↔ st k ≠ none

/-- An order of execution of the insertions of the pieces in batches: any arrangement. -/
def Schedule (tasks : List (Key × List R)) (batches : List (List (Key × List R))) : Prop :=
  batches.flatten.Perm tasks

end Verif.Spec
