import Verif.Model.DataExpression
import Verif.Spec.Dataset

/-!
What an expression on the variables of a dataset means: its value at a point, a point being an
index along each of the named dimensions.
-/

namespace Verif.Spec

open Nd Ds Dx

variable {V : Type}

/-- The names of constants. -/
def constants : List String := ["pi", "e"]

/-- The functions applied to each element of one array. -/
def unaryNames : List String :=
  ["sin", "cos", "tan", "exp", "log", "log10", "log2", "sqrt", "arcsin", "arccos", "arctan",
   "sinh", "cosh", "tanh", "arcsinh", "arccosh", "arctanh", "ceil", "floor", "round", "abs",
   "isfinite", "isinf", "isnan", "isnat"]

/-- The functions applied to the elements of two arrays. -/
def binaryNames : List String := ["arctan2", "power", "mod", "fmod", "remainder"]

/-- The functions that reduce an array to a number. -/
def reductionNames : List String :=
  ["min", "max", "sum", "prod", "mean", "std", "var", "median"]

/-- All the names that an expression may use besides those of the variables. -/
def reserved : List String :=
  constants ++ unaryNames ++ binaryNames ++ reductionNames ++ ["percentile"]

/-- The result of an operation on two elements: it is missing if one of them is. -/
def Combine (f : V → V → V) (x y r : Option V) : Prop :=
  (∃ a b, x = some a ∧ y = some b ∧ r = some (f a b)) ∨ ((x = none ∨ y = none) ∧ r = none)

/-- A list of dimensions that names once each dimension of `D` and of `E`, and no other. -/
def Union (D E F : List String) : Prop := F.Nodup ∧ ∀ d, d ∈ F ↔ d ∈ D ∨ d ∈ E

/-- The dimensions of an expression, in any order: those of the variables it uses, but for the
variables that are reduced to a number. -/
inductive Dims (vars : List (Var V)) : Term V → List String → Prop
  | num (v : V) : Dims vars (.num v) []
  | var (v : Var V) : v ∈ vars → Dims vars (.name v.name) v.dims
  | const (s : String) : s ∈ constants → (∀ v ∈ vars, v.name ≠ s) → Dims vars (.name s) []
  | op (o : String) (a b : Term V) (D E F : List String) : Dims vars a D → Dims vars b E →
      Union D E F → Dims vars (.bin o a b) F
  | unary (f : String) (a : Term V) (D : List String) : f ∈ unaryNames → Dims vars a D →
      Dims vars (.app1 f a) D
  | binary (f : String) (a b : Term V) (D E F : List String) : f ∈ binaryNames → Dims vars a D →
      Dims vars b E → Union D E F → Dims vars (.app2 f a b) F
  | reduction (f : String) (a : Term V) (D : List String) : f ∈ reductionNames → Dims vars a D →
      Dims vars (.app1 f a) []

/-- The point lies within the sizes of the dimensions. -/
def PointIn (size : String → Nat) (D : List String) (pt : String → Nat) : Prop :=
  ∀ d ∈ D, pt d < size d

/-- The value of an expression at a point, `none` for a missing value. -/
inductive PointVal (n : Vr.Num V) (lib : Lib V) (size : String → Nat) (vars : List (Var V)) :
    (String → Nat) → Term V → Option V → Prop
  | num (pt : String → Nat) (v : V) : PointVal n lib size vars pt (.num v) (some v)
  | value (pt : String → Nat) (v : Var V) (x : V) : v ∈ vars →
      v.array.get (v.dims.map pt) = some x → (∀ f, v.fill = some f → n.eqv x f = false) →
      PointVal n lib size vars pt (.name v.name) (some x)
  | missing (pt : String → Nat) (v : Var V) (x f : V) : v ∈ vars →
      v.array.get (v.dims.map pt) = some x → v.fill = some f → n.eqv x f = true →
      PointVal n lib size vars pt (.name v.name) none
  | const (pt : String → Nat) (s : String) : s ∈ constants → (∀ v ∈ vars, v.name ≠ s) →
      PointVal n lib size vars pt (.name s) (some (lib.const s))
  | op (pt : String → Nat) (o : String) (a b : Term V) (x y r : Option V) :
      PointVal n lib size vars pt a x → PointVal n lib size vars pt b y →
      Combine (lib.op o) x y r → PointVal n lib size vars pt (.bin o a b) r
  | unary (pt : String → Nat) (f : String) (a : Term V) (x : Option V) : f ∈ unaryNames →
      PointVal n lib size vars pt a x →
      PointVal n lib size vars pt (.app1 f a) (x.map (lib.unary f))
  | binary (pt : String → Nat) (f : String) (a b : Term V) (x y r : Option V) :
      f ∈ binaryNames → PointVal n lib size vars pt a x → PointVal n lib size vars pt b y →
      Combine (lib.binary f) x y r → PointVal n lib size vars pt (.app2 f a b) r
  | reduction (pt : String → Nat) (f : String) (a : Term V) (D : List String)
      (A : Arr (Option V)) (x : (String → Nat) → Option V) : f ∈ reductionNames →
      Dims vars a D → ArrOk A → A.shape = D.map size →
      (∀ q, PointIn size D q → A.get (D.map q) = some (x q)) →
      (∀ q, PointIn size D q → PointVal n lib size vars q a (x q)) →
      PointVal n lib size vars pt (.app1 f a) (lib.reduce f A)

/-- The expressions that combine variables whose dimensions are nested: those of one operand
are the last dimensions of the other one.  No variable has a reserved name. -/
inductive Nested (vars : List (Var V)) : Term V → List String → Prop
  | num (v : V) : Nested vars (.num v) []
  | var (v : Var V) : v ∈ vars → v.name ∉ reserved → Nested vars (.name v.name) v.dims
  | const (s : String) : s ∈ constants → (∀ v ∈ vars, v.name ≠ s) → Nested vars (.name s) []
  | op (o : String) (a b : Term V) (D E F : List String) : Nested vars a D → Nested vars b E →
      (E <:+ D ∧ F = D ∨ D <:+ E ∧ F = E) → Nested vars (.bin o a b) F
  | unary (f : String) (a : Term V) (D : List String) : f ∈ unaryNames → Nested vars a D →
      Nested vars (.app1 f a) D
  | binary (f : String) (a b : Term V) (D E F : List String) : f ∈ binaryNames →
      Nested vars a D → Nested vars b E → (E <:+ D ∧ F = D ∨ D <:+ E ∧ F = E) →
      Nested vars (.app2 f a b) F
  | reduction (f : String) (a : Term V) (D : List String) : f ∈ reductionNames →
      Nested vars a D → Nested vars (.app1 f a) []

/-- A dataset as the constructors build it: distinct names, arrays with as many axes as
dimensions, no dimension twice in a variable, and the same size of a dimension everywhere. -/
structure Regular (size : String → Nat) (vars : List (Var V)) : Prop where
  names : (vars.map (·.name)).Nodup
  dims : ∀ v ∈ vars, v.dims.Nodup
  shape : ∀ v ∈ vars, v.array.shape = v.dims.map size
  arrays : ∀ v ∈ vars, ArrOk v.array

/-- The length of the axis `i` of a shape, counted from the last one; a missing axis has length
one. -/
def axisLength (s : List Nat) (i : Nat) : Nat :=
  match s.reverse[i]? with
  | some n => n
  | none => 1

/-- Along each axis, counted from the last one, the lengths are equal or one of them is one, and
the length of the result is the other one. -/
def Broadcast (s t r : List Nat) : Prop :=
  r.length = max s.length t.length ∧ ∀ i,
    axisLength s i = axisLength t i ∧ axisLength r i = axisLength s i ∨
    axisLength s i = 1 ∧ axisLength r i = axisLength t i ∨
    axisLength t i = 1 ∧ axisLength r i = axisLength s i

/-- The element of an array of shape `s` that is used at the index `idx` of the result: the same
index along each axis, counted from the last one, and the first along an axis of length one. -/
def Source (s idx src : List Nat) : Prop :=
  src.length = s.length ∧ ∀ (i j : Nat), src.reverse[i]? = some j →
    axisLength s i = 1 ∧ j = 0 ∨ axisLength s i ≠ 1 ∧ idx.reverse[i]? = some j

end Verif.Spec
