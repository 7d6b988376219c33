import Verif.Model.Sharing

/-!
What datasets have in common, and what a program names.
-/

namespace Verif.Spec

open Sh

variable {V : Type}

/-- The dataset `d` holds the variable `r` (`d[name] is r`). -/
def HasVar (h : Heap V) (d r : Nat) : Prop :=
  ∃ D name, h.sets[d]? = some D ∧ (name, r) ∈ D.vars

/-- The dictionary of chunks of the dataset `d` is `c`. -/
def HasDict (h : Heap V) (d c : Nat) : Prop := ∃ D, h.sets[d]? = some D ∧ D.chunks = c

/-- A variable of the dataset `d` has its elements in the buffer `b`. -/
def HasBuf (h : Heap V) (d b : Nat) : Prop :=
  ∃ r o, HasVar h d r ∧ h.vars[r]? = some o ∧ o.array.buf = b

/-- Two datasets have no variable and no dictionary in common. -/
def Separate (h : Heap V) (d e : Nat) : Prop :=
  (∀ r, HasVar h d r → ¬ HasVar h e r) ∧ ∀ c, HasDict h d c → ¬ HasDict h e c

/-- Two datasets have nothing in common: no variable, no dictionary, no memory. -/
def Unshared (h : Heap V) (d e : Nat) : Prop :=
  Separate h d e ∧ ∀ b, HasBuf h d b → ¬ HasBuf h e b

/-- The array `k` of the program and the dataset `e` have no memory in common. -/
def UnsharedHand (h : Heap V) (k e : Nat) : Prop :=
  ∀ a, h.hands[k]? = some a → ¬ HasBuf h e a.buf

/-- The datasets that a call names. -/
def namesOf : Call V → List Nat
  | .array _ => []
  | .write _ _ _ => []
  | .dataset _ _ _ _ _ => []
  | .values n _ => [n]
  | .assign n _ _ => [n]
  | .fill n _ => [n]
  | .setChunk n _ _ => [n]
  | .selectVars n _ => [n]
  | .byDims n _ _ => [n]
  | .isel n _ => [n]
  | .delete n _ _ => [n]
  | .concat n l _ => n :: l
  | .setForInsertion n _ _ => [n]
  | .compute n => [n]
  | .rechunk n => [n]
  | .pickle n => [n]
  | .merge n m => [n, m]
  | .rename n _ => [n]
  | .dropVars n _ => [n]
  | .addVariable n _ _ _ => [n]
  | .fillAttrs n _ _ => [n]
  | .copyProperties n m => [n, m]

/-- The arrays of the program that a call names. -/
def handsOf : Call V → List Nat
  | .write k _ _ => [k]
  | .dataset l _ _ _ _ => l.map (·.hand)
  | .assign _ _ k => [k]
  | .addVariable _ _ _ (some k) => [k]
  | _ => []

/-- The call changes the elements of an array in place. -/
def InPlace : Call V → Prop
  | .write _ _ _ => True
  | _ => False

/-- The dataset whose variables, attributes or dictionary a call replaces, if any. -/
def target : Call V → Option Nat
  | .merge n _ => some n
  | .rename n _ => some n
  | .dropVars n _ => some n
  | .addVariable n _ _ _ => some n
  | .fillAttrs n _ _ => some n
  | .copyProperties n _ => some n
  | _ => none

/-- The calls of a program name only datasets and arrays of `D` and `K`, or made by the program
itself. -/
def NamesOnly (h : Heap V) (D K : Nat → Prop) (prog : List (Call V)) : Prop :=
  ∀ c ∈ prog, (∀ n ∈ namesOf c, D n ∨ h.sets.length ≤ n) ∧
    ∀ k ∈ handsOf c, K k ∨ h.hands.length ≤ k

/-- The objects that a program has made. -/
def Made (h : Heap V) : Prop := ∃ prog, h = run empty prog

end Verif.Spec
