import Verif.Model.Variable

/-!
Model of the expressions on the variables of a dataset (`zcollection/dataset.py`, class
`Expression`).

Simplifications: the expressions are built from numbers, names, binary operators, calls of a
name with one or two arguments, and attributes; other constructions of Python are left out.  A
number is an array of rank zero.  A dask array is the array it computes.  Types are not
modelled, and an operation outside of its domain (a division by zero) gives a value, while
`numpy.ma` masks the element.
-/

namespace Verif.Dx

open Nd Ds

variable {V : Type}

/-- The syntax tree built by `ast.parse` (dataset.py:894-895). -/
inductive Term (V : Type) where
  | num (v : V)
  | name (s : String)
  | bin (op : String) (a b : Term V)
  | app1 (f : String) (a : Term V)
  | app2 (f : String) (a b : Term V)
  | attr (a : Term V) (s : String)

/-- What kind of object a name of `BUILTINS` is. -/
inductive Kind where
  | const
  | unary
  | binary
  | reduction
  | param
  deriving DecidableEq

/-- dataset.py:850-892 `BUILTINS`: the numbers, the functions that numpy applies to each element
(of one or two arrays), those that reduce an array to a number, and `percentile`, a reduction
with a parameter. -/
def builtins : List (String × Kind) :=
  [("sin", .unary), ("cos", .unary), ("tan", .unary), ("pi", .const), ("e", .const),
   ("exp", .unary), ("log", .unary), ("log10", .unary), ("log2", .unary), ("sqrt", .unary),
   ("arcsin", .unary), ("arccos", .unary), ("arctan", .unary), ("arctan2", .binary),
   ("sinh", .unary), ("cosh", .unary), ("tanh", .unary), ("arcsinh", .unary),
   ("arccosh", .unary), ("arctanh", .unary), ("ceil", .unary), ("floor", .unary),
   ("round", .unary), ("abs", .unary), ("min", .reduction), ("max", .reduction),
   ("sum", .reduction), ("prod", .reduction), ("mean", .reduction), ("std", .reduction),
   ("var", .reduction), ("median", .reduction), ("percentile", .param), ("power", .binary),
   ("mod", .binary), ("fmod", .binary), ("remainder", .binary), ("isfinite", .unary),
   ("isinf", .unary), ("isnan", .unary), ("isnat", .unary)]

/-- `name in self.BUILTINS`. -/
def kindOf (s : String) : Option Kind := builtins.lookup s

/-- The values of an expression: arrays, masked elements being `none`, and functions. -/
inductive Val (V : Type) where
  | arr (a : Arr (Option V))
  | func (name : String) (k : Kind)

/-- numpy: its constants, its operators and functions on elements, its reductions, and the
attributes of the values. -/
structure Lib (V : Type) where
  const : String → V
  op : String → V → V → V
  unary : String → V → V
  binary : String → V → V → V
  reduce : String → Arr (Option V) → Option V
  percentile : Arr (Option V) → Arr (Option V) → Py (Option V)
  attr : String → Val V → Py (Val V)

/-- numpy's rule for one axis: equal lengths, or one of them is one. -/
def castDim (m n : Nat) : Py Nat :=
  if m = n then .ok m else if m = 1 then .ok n else if n = 1 then .ok m else .error .valueError

/-- The shapes, the last axis first; the missing axes are those of the other array. -/
def castRev : List Nat → List Nat → Py (List Nat)
  | [], t => .ok t
  | s, [] => .ok s
  | m :: s, n :: t => do
    let k ← castDim m n
    let r ← castRev s t
    .ok (k :: r)

/-- The shape of an operation on two arrays: `numpy.broadcast_shapes`. -/
def castShape (s t : List Nat) : Py (List Nat) := do
  let r ← castRev s.reverse t.reverse
  .ok r.reverse

/-- The index in an operand of shape `s` of an index of the result. -/
def castIndex (s idx : List Nat) : List Nat :=
  List.zipWith (fun n i => if n = 1 then 0 else i) s (idx.drop (idx.length - s.length))

/-- An operation on two elements: the result is masked if one of them is. -/
def lift2 (f : V → V → V) : Option V → Option V → Option V
  | some x, some y => some (f x y)
  | _, _ => none

/-- An operation on the elements of two arrays. -/
def map2 (f : V → V → V) (a b : Arr (Option V)) : Py (Arr (Option V)) := do
  let s ← castShape a.shape b.shape
  .ok { shape := s,
        get := fun idx =>
          if inBounds idx s then
            match a.get (castIndex a.shape idx), b.get (castIndex b.shape idx) with
            | some x, some y => some (lift2 f x y)
            | _, _ => none
          else none }

/-- A function of the elements of an array. -/
def map1 (f : V → V) (a : Arr (Option V)) : Arr (Option V) where
  shape := a.shape
  get idx := (a.get idx).map fun x => x.map f

/-- An array of rank zero. -/
def scalar (x : Option V) : Arr (Option V) := full [] x

/-- `a op b`; a function is no operand. -/
def operate (lib : Lib V) (o : String) : Val V → Val V → Py (Val V)
  | .arr a, .arr b => do
    let r ← map2 (lib.op o) a b
    .ok (.arr r)
  | _, _ => .error .typeError

/-- `f(a)`: an array cannot be called, nor can a function of two arguments be called with
one. -/
def call1 (lib : Lib V) : Val V → Val V → Py (Val V)
  | .func f .unary, .arr a => .ok (.arr (map1 (lib.unary f) a))
  | .func f .reduction, .arr a => .ok (.arr (scalar (lib.reduce f a)))
  | _, _ => .error .typeError

/-- `f(a, b)`.  Simplification: the second argument of functions of one array (the axis of a
reduction, the decimals of `round`) is left out. -/
def call2 (lib : Lib V) : Val V → Val V → Val V → Py (Val V)
  | .func f .binary, .arr a, .arr b => do
    let r ← map2 (lib.binary f) a b
    .ok (.arr r)
  | .func _ .param, .arr a, .arr b => do
    let r ← lib.percentile a b
    .ok (.arr (scalar r))
  | _, _, _ => .error .typeError

/-- Evaluation by the interpreter, `look` giving the value of a name. -/
def eval (lib : Lib V) (look : String → Py (Val V)) : Term V → Py (Val V)
  | .num v => .ok (.arr (scalar (some v)))
  | .name s => look s
  | .bin o a b => do
    let x ← eval lib look a
    let y ← eval lib look b
    operate lib o x y
  | .app1 f a => do
    let g ← look f
    let x ← eval lib look a
    call1 lib g x
  | .app2 f a b => do
    let g ← look f
    let x ← eval lib look a
    let y ← eval lib look b
    call2 lib g x y
  | .attr a s => do
    let x ← eval lib look a
    lib.attr s x

/-- `self.code.co_names`: the names and the attributes of the expression. -/
def coNames : Term V → List String
  | .num _ => []
  | .name s => [s]
  | .bin _ a b => coNames a ++ coNames b
  | .app1 f a => f :: coNames a
  | .app2 f a b => f :: (coNames a ++ coNames b)
  | .attr a s => coNames a ++ [s]

/-- dataset.py:899-902 the local variables: `zds.variables[name].data` for the names outside of
`BUILTINS`, `KeyError` for an unknown variable.  The data are the values of the variable, masked
where they equal the fill value (variable/array.py:85-99, variable/delayed_array.py:174-195). -/
def localsOf (n : Vr.Num V) (vars : List (Var V)) :
    List String → Py (List (String × Arr (Option V)))
  | [] => .ok []
  | s :: t =>
    if (kindOf s).isSome then localsOf n vars t
    else do
      let v ← getVarE vars s
      let r ← localsOf n vars t
      .ok ((s, Vr.valuesOf n v) :: r)

/-- The object that `BUILTINS` has under a name. -/
def builtin (lib : Lib V) (s : String) : Py (Val V) :=
  match kindOf s with
  | none => .error .nameError
  | some .const => .ok (.arr (scalar (some (lib.const s))))
  | some k => .ok (.func s k)

/-- dataset.py:905: a name is looked up in the local variables, then in the builtins. -/
def look (lib : Lib V) (locs : List (String × Arr (Option V))) (s : String) : Py (Val V) :=
  match locs.lookup s with
  | some a => .ok (.arr a)
  | none => builtin lib s

/-- dataset.py:897-910 `__call__`: a `KeyError` becomes `NameError`. -/
def call (n : Vr.Num V) (lib : Lib V) (e : Term V) (ds : Dataset V) : Py (Val V) :=
  match (do
    let locs ← localsOf n ds.vars (coNames e)
    eval lib (look lib locs) e : Py (Val V)) with
  | .error .keyError => .error .nameError
  | r => r

end Verif.Dx
