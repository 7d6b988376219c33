import Verif.Spec.Overlap

/-! Specification of loads. -/

namespace Verif.Spec

open Nd Ds Upd

variable {P V : Type}

/-- The number of records of the segments. -/
def total (segs : List (P × (Nat × Nat))) : Nat := (segs.map fun s => s.2.2 - s.2.1).sum

/-- The dataset `zds` holds, for each chosen variable of the partitions, the records `lo .. hi`
of each segment `(q, (lo, hi))`, one segment after the other along `dim`; a variable without
this dimension has the values of the partition of the first segment. -/
structure HoldsSegments (dim : String) (sel : Option (List String)) (st : Store P V)
    (segs : List (P × (Nat × Nat))) (zds : Dataset V) : Prop where
  present : ∀ s ∈ segs, ∀ vars, st s.1 = some vars → ∀ v ∈ vars, Chosen sel v.name →
    ∃ v' ∈ zds.vars, v'.name = v.name
  values : ∀ v' ∈ zds.vars, ∀ (k : Nat) q lo hi vars v, segs[k]? = some (q, (lo, hi)) →
    st q = some vars → v ∈ vars → v.name = v'.name → v'.dims = v.dims ∧
      (∀ ax : Nat, v.dims[ax]? = some dim →
        v'.array.shape[ax]? = some (total segs) ∧
        ∀ (idx : List Nat) (j : Nat), idx[ax]? = some j → j < hi - lo →
          v'.array.get (idx.set ax (total (segs.take k) + j)) = v.array.get (idx.set ax (lo + j))) ∧
      (dim ∉ v.dims → k = 0 → v'.array = v.array)

/-- The variables of the dataset are chosen variables of the partition, or immutable ones. -/
def OnlyFrom (sel : Option (List String)) (st : Store P V) (imm : List (Var V)) (q : P)
    (zds : Dataset V) : Prop :=
  ∀ v' ∈ zds.vars, Chosen sel v'.name ∧
    ((∃ vars, st q = some vars ∧ ∃ v ∈ vars, v.name = v'.name) ∨ ∃ w ∈ imm, w.name = v'.name)

/-- The dataset holds the chosen immutable variables. -/
def HoldsImm (sel : Option (List String)) (imm : List (Var V)) (zds : Dataset V) : Prop :=
  ∀ w ∈ imm, Chosen sel w.name → ∃ v' ∈ zds.vars, v'.name = w.name ∧ v'.dims = w.dims ∧
    v'.array = w.array

/-- The slices of the indexer are within the partitions. -/
def GoodSlices (size : P → Nat) (indexer : List (P × (Nat × Nat))) : Prop :=
  ∀ x ∈ indexer, x.2.1 ≤ x.2.2 ∧ x.2.2 ≤ size x.1

end Verif.Spec
