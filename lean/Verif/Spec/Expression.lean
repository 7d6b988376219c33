import Verif.Model.Expression

/-! Meaning of the expressions that select partitions, without order of evaluation. -/

namespace Verif.Spec

open Expr

/-- `x // y` and `x % y`: the remainder has the sign of the divisor. -/
def Divides (x y q r : Int) : Prop :=
  x = y * q + r ∧ (0 ≤ r ∧ r < y ∨ y < r ∧ r ≤ 0)

/-- The number `v` is the value of the expression for the given keys. -/
inductive Value (keys : List (String × Int)) : Expr.Expr → Int → Prop where
  | lit (v : Int) : Value keys (.lit v) v
  | key (n : String) (v : Int) : (n, v) ∈ keys → n ≠ "range" → Value keys (.name n) v
  | add (a b x y) : Value keys a x → Value keys b y → Value keys (.arith .add a b) (x + y)
  | sub (a b x y) : Value keys a x → Value keys b y → Value keys (.arith .sub a b) (x - y)
  | mul (a b x y) : Value keys a x → Value keys b y → Value keys (.arith .mul a b) (x * y)
  | div (a b x y q r) : Value keys a x → Value keys b y → Divides x y q r →
      Value keys (.arith .floordiv a b) q
  | mod (a b x y q r) : Value keys a x → Value keys b y → Divides x y q r →
      Value keys (.arith .mod a b) r

/-- The relation that a comparison stands for. -/
def Compares : CmpOp → Int → Int → Prop
  | .eq, x, y => x = y
  | .ne, x, y => x ≠ y
  | .lt, x, y => x < y
  | .le, x, y => x < y ∨ x = y
  | .gt, x, y => y < x
  | .ge, x, y => y < x ∨ x = y

/-- The condition has the truth value `t` for the given keys. -/
inductive Says (keys : List (String × Int)) : Expr.Expr → Bool → Prop where
  | cmp (op a b x y t) : Value keys a x → Value keys b y → (t = true ↔ Compares op x y) →
      Says keys (.cmp op a b) t
  | both (a b s t) : Says keys a s → Says keys b t → Says keys (.land a b) (s && t)
  | either (a b s t) : Says keys a s → Says keys b t → Says keys (.lor a b) (s || t)
  | neg (a t) : Says keys a t → Says keys (.lnot a) (!t)
  | range (e a b x lo hi t) : Value keys e x → Value keys a lo → Value keys b hi →
      (t = true ↔ lo ≤ x ∧ x < hi) → Says keys (.inRange e a b) t
  | among (e l x t) : Value keys e x → (t = true ↔ x ∈ l) → Says keys (.isIn e l) t

/-- The number that an expression stands for: a condition stands for 1 or 0, any number but 0 is
true, and `and` and `or` give one of their operands. -/
inductive Means (keys : List (String × Int)) : Expr.Expr → Int → Prop where
  | lit (v : Int) : Means keys (.lit v) v
  | key (n : String) (v : Int) : (n, v) ∈ keys → n ≠ "range" → Means keys (.name n) v
  | add (a b x y) : Means keys a x → Means keys b y → Means keys (.arith .add a b) (x + y)
  | sub (a b x y) : Means keys a x → Means keys b y → Means keys (.arith .sub a b) (x - y)
  | mul (a b x y) : Means keys a x → Means keys b y → Means keys (.arith .mul a b) (x * y)
  | div (a b x y q r) : Means keys a x → Means keys b y → Divides x y q r →
      Means keys (.arith .floordiv a b) q
  | mod (a b x y q r) : Means keys a x → Means keys b y → Divides x y q r →
      Means keys (.arith .mod a b) r
  | holds (op a b x y) : Means keys a x → Means keys b y → Compares op x y →
      Means keys (.cmp op a b) 1
  | fails (op a b x y) : Means keys a x → Means keys b y → ¬ Compares op x y →
      Means keys (.cmp op a b) 0
  | and_false (a b) : Means keys a 0 → Means keys (.land a b) 0
  | and_true (a b x y) : Means keys a x → x ≠ 0 → Means keys b y → Means keys (.land a b) y
  | or_false (a b y) : Means keys a 0 → Means keys b y → Means keys (.lor a b) y
  | or_true (a b x) : Means keys a x → x ≠ 0 → Means keys (.lor a b) x
  | not_false (a) : Means keys a 0 → Means keys (.lnot a) 1
  | not_true (a x) : Means keys a x → x ≠ 0 → Means keys (.lnot a) 0
  | inside (e a b x lo hi) : Means keys e x → Means keys a lo → Means keys b hi →
      lo ≤ x → x < hi → Means keys (.inRange e a b) 1
  | outside (e a b x lo hi) : Means keys e x → Means keys a lo → Means keys b hi →
      x < lo ∨ hi ≤ x → Means keys (.inRange e a b) 0
  | among (e l x) : Means keys e x → x ∈ l → Means keys (.isIn e l) 1
  | notAmong (e l x) : Means keys e x → x ∉ l → Means keys (.isIn e l) 0

end Verif.Spec
