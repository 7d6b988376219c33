import Verif.Model.Py

/-!
Model of `zcollection/expression.py`.

The expressions are those of the Python grammar built from integers, names, arithmetic,
comparisons, `in range(...)`, membership in a tuple of integers and the Boolean operators.
Simplification: attribute access, calls other than `range`, strings, floats and
comprehensions are not modelled; the names of the code object (`co_names`) are the names of
the syntax tree (no elimination of dead code by the compiler).
-/

namespace Verif.Expr

/-- Comparison operators. -/
inductive CmpOp where
  | eq | ne | lt | le | gt | ge

/-- Arithmetic operators. -/
inductive ArithOp where
  | add | sub | mul | floordiv | mod

/-- Expressions. -/
inductive Expr where
  | lit (v : Int)
  | name (s : String)
  | arith (op : ArithOp) (a b : Expr)
  | cmp (op : CmpOp) (a b : Expr)
  | land (a b : Expr)
  | lor (a b : Expr)
  | lnot (a : Expr)
  | inRange (e a b : Expr)
  | isIn (e : Expr) (values : List Int)

/-- Values: integers, Booleans and the class `range` itself. -/
inductive Val where
  | int (v : Int)
  | bool (b : Bool)
  | rangeType
  deriving DecidableEq, Repr

/-- A number as an integer (`bool` is a subclass of `int`). -/
def Val.num : Val → Option Int
  | .int v => some v
  | .bool b => some (if b then 1 else 0)
  | .rangeType => none

/-- `bool(v)`. -/
def Val.truth : Val → Bool
  | .int v => decide (v ≠ 0)
  | .bool b => b
  | .rangeType => true

/-- Operand of an arithmetic operation or an order comparison. -/
def Val.toNum (v : Val) : Py Int :=
  match v.num with
  | some i => .ok i
  | none => .error .typeError

/-- Arithmetic of Python on integers. -/
def arith (op : ArithOp) (a b : Int) : Py Val :=
  match op with
  | .add => .ok (.int (a + b))
  | .sub => .ok (.int (a - b))
  | .mul => .ok (.int (a * b))
  | .floordiv => if b = 0 then .error .zeroDivisionError else .ok (.int (a.fdiv b))
  | .mod => if b = 0 then .error .zeroDivisionError else .ok (.int (a.fmod b))

/-- Comparison of two values. -/
def compare (op : CmpOp) (a b : Val) : Py Val :=
  match op with
  | .eq => .ok (.bool (decide (a.num = b.num)))
  | .ne => .ok (.bool (decide (a.num ≠ b.num)))
  | .lt => do return .bool (decide ((← a.toNum) < (← b.toNum)))
  | .le => do return .bool (decide ((← a.toNum) ≤ (← b.toNum)))
  | .gt => do return .bool (decide ((← a.toNum) > (← b.toNum)))
  | .ge => do return .bool (decide ((← a.toNum) ≥ (← b.toNum)))

/-- Evaluation by the Python interpreter; `look` gives the value of a name. -/
def eval (look : String → Py Val) : Expr → Py Val
  | .lit v => .ok (.int v)
  | .name s => look s
  | .arith op a b => do arith op (← (← eval look a).toNum) (← (← eval look b).toNum)
  | .cmp op a b => do
    let x ← eval look a
    let y ← eval look b
    compare op x y
  | .land a b => do
    let x ← eval look a
    if x.truth then eval look b else return x
  | .lor a b => do
    let x ← eval look a
    if x.truth then return x else eval look b
  | .lnot a => do
    let x ← eval look a
    return .bool (!x.truth)
  | .inRange e a b => do
    let x ← eval look e
    let lo ← (← eval look a).toNum
    let hi ← (← eval look b).toNum
    match x.num with
    | some i => return .bool (decide (lo ≤ i ∧ i < hi))
    | none => return .bool false
  | .isIn e vs => do
    let x ← eval look e
    match x.num with
    | some i => return .bool (decide (i ∈ vs))
    | none => return .bool false

/-- `co_names`: the names used by the expression; `range(...)` uses the name `range`. -/
def names : Expr → List String
  | .lit _ => []
  | .name s => [s]
  | .arith _ a b | .cmp _ a b | .land a b | .lor a b => names a ++ names b
  | .lnot a => names a
  | .inRange e a b => names e ++ "range" :: (names a ++ names b)
  | .isIn e _ => names e

/-- `variables[name]` for a dictionary built from pairs: the last one counts. -/
def lookup (variables : List (String × Int)) (name : String) : Option Int :=
  variables.reverse.lookup name

/-- expression.py:42-45: the local variables; a missing name raises `KeyError`, turned into
`NameError` (expression.py:51-52). -/
def localsOf (variables : List (String × Int)) : List String → Py (List (String × Int))
  | [] => .ok []
  | n :: t =>
    if n = "range" then localsOf variables t
    else
      match lookup variables n with
      | none => .error .nameError
      | some v => do
        let r ← localsOf variables t
        return (n, v) :: r

/-- expression.py:40-52 (`__call__`): locals, then builtins. -/
def call (e : Expr) (variables : List (String × Int)) : Py Val := do
  let locs ← localsOf variables (names e)
  eval (fun n =>
    match locs.lookup n with
    | some v => .ok (.int v)
    | none => if n = "range" then .ok .rangeType else .error .nameError) e

/-- An expression as a filter of partitions: the truth of its value. -/
def filter (e : Expr) (variables : List (String × Int)) : Py Bool := do
  let v ← call e variables
  return v.truth

end Verif.Expr
