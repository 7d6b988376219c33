import Verif.Model.NumpyAttr
import Verif.Spec.ConfigText

/-! What a user expects of the attributes given with values of numpy. -/

namespace Verif.Spec

open Json (V Key)
open Na (Scalar Arg)

/-- A value of Python that stands for a scalar of numpy: the same boolean, number or text; `None`
for what is not a time. -/
def StandsFor : Scalar → V → Prop
  | .bool b, .bool c => c = b
  | .int i, .int j => j = i
  | .float _ f, .float g => g = f
  | .str s, .str t => t = s
  | .date _ none, .null => True
  | .duration _ none, .null => True
  | _, _ => False

/-- The element of nested lists at an index. -/
def entry : V → List Nat → Option V
  | v, [] => some v
  | .list l, i :: ix => l[i]?.bind fun x => entry x ix
  | _, _ :: _ => none

/-- An index of an array of this shape. -/
def InShape : List Nat → List Nat → Prop
  | [], [] => True
  | n :: s, i :: ix => i < n ∧ InShape s ix
  | _, _ => False

/-- Lists nested as the dimensions of an array. -/
def NestedAs : List Nat → V → Prop
  | [], v => ∀ l, v ≠ .list l
  | n :: s, v => ∃ l, v = .list l ∧ l.length = n ∧ ∀ x ∈ l, NestedAs s x

mutual
/-- A value read is the one the user gave: nested lists with the elements of an array, lists with
the elements of lists and tuples. -/
def HeldAs : Arg → V → Prop
  | .scalar s, v => StandsFor s v
  | .array shape f, v => NestedAs shape v ∧
      ∀ ix, InShape shape ix → ∃ x, entry v ix = some x ∧ StandsFor (f ix) x
  | .list l, v => ∃ m, v = .list m ∧ HeldAll l m
  | .tuple l, v => ∃ m, v = .list m ∧ HeldAll l m
  | .py x, v => v = readAs x

def HeldAll : List Arg → List V → Prop
  | [], [] => True
  | a :: s, v :: t => HeldAs a v ∧ HeldAll s t
  | _, _ => False
end

/-- A date or a duration that numpy gives as a number of units. -/
def Counted : Scalar → Prop
  | .date .nano (some _) => True
  | .date .pico (some _) => True
  | .duration .year (some _) => True
  | .duration .month (some _) => True
  | .duration .nano (some _) => True
  | .duration .pico (some _) => True
  | _ => False

/-- A scalar that is a boolean, a number, a text, or not a time. -/
def Simple : Scalar → Prop
  | .bool _ => True
  | .int _ => True
  | .float _ _ => True
  | .str _ => True
  | .date _ none => True
  | .duration _ none => True
  | _ => False

/-- The attribute itself has no date or duration that numpy gives as a number. -/
def NoCounted : Arg → Prop
  | .scalar s => ¬ Counted s
  | .array shape f => ∀ ix, InShape shape ix → ¬ Counted (f ix)
  | _ => True

/-- `HeldIn a b`: the list or the tuple `b` holds `a`, at any depth. -/
inductive HeldIn (a : Arg) : Arg → Prop
  | list {l : List Arg} (h : a ∈ l) : HeldIn a (.list l)
  | tuple {l : List Arg} (h : a ∈ l) : HeldIn a (.tuple l)
  | listStep {l : List Arg} {b : Arg} (hb : b ∈ l) (h : HeldIn a b) : HeldIn a (.list l)
  | tupleStep {l : List Arg} {b : Arg} (hb : b ∈ l) (h : HeldIn a b) : HeldIn a (.tuple l)

/-- A value of numpy that is no value of Python. -/
def Foreign : Arg → Prop
  | .scalar (.float true _) => False
  | .scalar (.str _) => False
  | .scalar _ => True
  | .array _ _ => True
  | _ => False

mutual
/-- No part of the value is "not a number". -/
def NoNan : V → Prop
  | .float f => f ≠ .nan
  | .list l => NoNanElems l
  | .tuple l => NoNanElems l
  | .dict d => NoNanPairs d
  | _ => True

def NoNanElems : List V → Prop
  | [] => True
  | v :: t => NoNan v ∧ NoNanElems t

def NoNanPairs : List (Key × V) → Prop
  | [] => True
  | (_, v) :: t => NoNan v ∧ NoNanPairs t
end

end Verif.Spec
