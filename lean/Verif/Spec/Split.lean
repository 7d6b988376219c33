import Verif.Model.Py

/-!
Specification of the division of the records `0, ..., n-1` of a dataset into labelled
slices `(key, (start, stop))`.
-/

namespace Verif.Spec

variable {κ : Type}

/-- The slices are non-empty and follow each other without gap from `a` to `n`. -/
def Chain (a n : Nat) : List (Nat × Nat) → Prop
  | [] => a = n
  | (s, e) :: t => s = a ∧ s < e ∧ Chain e n t

/-- Every record of each slice has the key of the slice. -/
def KeysCorrect (column : List κ) (pieces : List (κ × (Nat × Nat))) : Prop :=
  ∀ p ∈ pieces, ∀ i, p.2.1 ≤ i → i < p.2.2 → column[i]? = some p.1

end Verif.Spec
