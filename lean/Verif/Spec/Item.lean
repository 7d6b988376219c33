import Verif.Spec.Dataset

/-! Specification of the indexing of an array by integers and slices. -/

namespace Verif.Spec

open Nd

/-- `Designates key shape j src`: in an array of this shape, the element at the index `j` of
`array[key]` is the element of `array` at the index `src`.  An integer fixes an axis, which
disappears, negative ones counting from the end; a slice keeps the axis; the axes that the key
does not name are kept. -/
inductive Designates : List Ix → List Nat → List Nat → List Nat → Prop
  | done (shape idx : List Nat) : Designates [] shape idx idx
  | int (i : Int) (n p : Nat) (key : List Ix) (shape j src : List Nat) : p < n →
      (i = (p : Int) ∨ i = (p : Int) - (n : Int)) → Designates key shape j src →
      Designates (.int i :: key) (n :: shape) j (p :: src)
  | slice (s : Slice) (n x p : Nat) (pos : List Nat) (key : List Ix) (shape j src : List Nat) :
      positions n s = .ok pos → pos[x]? = some p → Designates key shape j src →
      Designates (.slice s :: key) (n :: shape) (x :: j) (p :: src)

/-- Every integer of the key lies within the bounds of its axis, and no slice has the step
zero. -/
inductive Allowed : List Ix → List Nat → Prop
  | done (shape : List Nat) : Allowed [] shape
  | int (i : Int) (n : Nat) (key : List Ix) (shape : List Nat) : -(n : Int) ≤ i → i < n →
      Allowed key shape → Allowed (.int i :: key) (n :: shape)
  | slice (s : Slice) (n : Nat) (key : List Ix) (shape : List Nat) : s.step ≠ some 0 →
      Allowed key shape → Allowed (.slice s :: key) (n :: shape)

end Verif.Spec
