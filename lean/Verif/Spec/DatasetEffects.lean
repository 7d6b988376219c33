import Verif.Spec.Dataset

/-! Specification of the records designated by an indexer (language reference of Python,
"Slicings" and "Sequence Types"). -/

namespace Verif.Spec

open Nd Ds

variable {V : Type}

/-- The position designated by an integer: negative integers count from the end. -/
def fromEnd (n : Nat) (x : Int) : Int := if x < 0 then x + n else x

/-- The position `p` of an axis of length `n` is designated by the slice `start:stop:step`. -/
def InSlice (n : Nat) (s : Slice) (p : Nat) : Prop :=
  let step : Int := match s.step with | none => 1 | some k => k
  (0 < step →
    let lo : Int := match s.start with | none => 0 | some x => max 0 (fromEnd n x)
    lo ≤ p ∧ step ∣ p - lo ∧ ∀ x, s.stop = some x → (p : Int) < fromEnd n x) ∧
  (step < 0 →
    let hi : Int := match s.start with | none => n - 1 | some x => min (n - 1) (fromEnd n x)
    p ≤ hi ∧ step ∣ hi - p ∧ ∀ x, s.stop = some x → fromEnd n x < (p : Int))

/-- The record `p` of an axis of length `n` is designated. -/
def Designated (n : Nat) (ixs : Indexer) (p : Nat) : Prop :=
  match ixs with
  | .slice s => InSlice n s p
  | .list l => ∃ i ∈ l, fromEnd n i = p

/-- The indexer is acceptable for an axis of length `n`. -/
def Acceptable (n : Nat) (ixs : Indexer) : Prop :=
  match ixs with
  | .slice s => s.step ≠ some 0
  | .list l => ∀ i ∈ l, 0 ≤ fromEnd n i ∧ fromEnd n i < n

/-- `w` is `v` restricted to the records `kept` of the axis `ax`. -/
def KeepsRecords (ax : Nat) (kept : List Nat) (v w : Var V) : Prop :=
  w.name = v.name ∧ w.dims = v.dims ∧ w.fill = v.fill ∧ w.props = v.props ∧
  w.delayed = v.delayed ∧ w.array.shape = v.array.shape.set ax kept.length ∧
  ∀ (idx : List Nat) (j : Nat), idx[ax]? = some j →
    (∀ p, kept[j]? = some p → w.array.get idx = v.array.get (idx.set ax p)) ∧
    (kept[j]? = none → w.array.get idx = none)

end Verif.Spec
