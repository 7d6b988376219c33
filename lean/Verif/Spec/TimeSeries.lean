import Verif.Model.Py

/-!
Specification of the merge of two time series, stated on records `(time, content)`.
-/

namespace Verif.Spec

variable {α : Type}

/-- `x` is the smallest element of the list. -/
def IsMin (x : Int) (l : List Int) : Prop := x ∈ l ∧ ∀ y ∈ l, x ≤ y

/-- `x` is the largest element of the list. -/
def IsMax (x : Int) (l : List Int) : Prop := x ∈ l ∧ ∀ y ∈ l, y ≤ x

/-- The times of the records are in non-decreasing order. -/
def Sorted (l : List (Int × α)) : Prop := l.Pairwise (fun a b => a.1 ≤ b.1)

/-- The times of the records are in strictly increasing order. -/
def StrictSorted (l : List (Int × α)) : Prop := l.Pairwise (fun a b => a.1 < b.1)

/-- The expected result of a merge: the existing records before the first inserted time,
the inserted records, the existing records after the last inserted time. -/
def merged (existing inserted : List (Int × α)) (lo hi : Int) : List (Int × α) :=
  existing.filter (fun r => r.1 < lo) ++ inserted ++ existing.filter (fun r => hi < r.1)

/-- An instant is covered by the inserted times with tolerance `tol` if it is one of them,
or lies between two consecutive ones that are at most `tol` apart. -/
def Covered (tol : Int) (times : List Int) (t : Int) : Prop :=
  t ∈ times ∨ ∃ pre a b post, times = pre ++ a :: b :: post ∧ a < t ∧ t < b ∧ b - a ≤ tol

/-- `a` is the last time of a piece of the inserted times cut at the steps larger than
`tol`. -/
def PieceEnd (tol : Int) (times : List Int) (a : Int) : Prop :=
  ∃ pre post, times = pre ++ a :: post ∧ ∀ b, post.head? = some b → tol < b - a

end Verif.Spec
