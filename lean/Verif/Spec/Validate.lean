import Verif.Model.Validate

/-! Specification: partitions that can be read. -/

namespace Verif.Spec

open Validate

/-- All the arrays can be read. -/
def ArraysReadable (m : Meta) : Prop :=
  ∃ l, m = .arrays l ∧ ∀ a ∈ l, a.read = none

/-- A dimension has the same size in all the arrays. -/
def SameSizes (l : List StoredArray) : Prop :=
  ∀ a ∈ l, ∀ b ∈ l, ∀ d ∈ a.dims, ∀ e ∈ b.dims, d.1 = e.1 → d.2 = e.2

/-- All the arrays can be read and their dimensions are consistent. -/
def Readable (m : Meta) : Prop :=
  ∃ l, m = .arrays l ∧ (∀ a ∈ l, a.read = none) ∧ SameSizes l

/-- The damages that the validation handles: the metadata are there, and the errors raised
while reading are of the caught classes. -/
def Handled (m : Meta) : Prop :=
  m ≠ .absent ∧ ∀ l, m = .arrays l → ∀ a ∈ l, ∀ e, a.read = some e →
    e = .valueError ∨ e = .typeError ∨ e = .runtimeError

end Verif.Spec
