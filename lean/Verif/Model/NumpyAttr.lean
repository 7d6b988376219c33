import Verif.Model.ConfigText

/-!
Model of the values of attributes given with the types of numpy: `meta.Pair` (zcollection/meta.py:
25-67) turns them into values of Python when the attribute is made, and `==` of metadata compares
these values (meta.py:55-58, 160-163, 299-305).

`numpy.generic.item` and `numpy.ndarray.tolist` are those of numpy.  Simplifications: structured
types, `object`, `void` and `longdouble` are not modelled; a date out of the range of `datetime`
(numpy then gives an integer) is not modelled; a dictionary is taken to hold no value of numpy.
-/

namespace Verif.Na

open Json (V Key Flt)

/-- The unit of a date or of a duration of numpy. -/
inductive Tick where
  | year | month | week | day | hour | minute | second | milli | micro | nano | pico
  deriving DecidableEq, Repr

/-- A scalar of numpy. -/
inductive Scalar where
  | bool (b : Bool)
  | int (i : Int)
  /-- `double`: a `float64`, which is a `float` of Python -/
  | float (double : Bool) (f : Flt)
  | str (s : String)
  | bytes
  | complex
  /-- `none`: not a time -/
  | date (unit : Tick) (t : Option Int)
  | duration (unit : Tick) (t : Option Int)
  deriving DecidableEq, Repr

/-- `numpy.generic.item` -/
def item : Scalar → V
  | .bool b => .bool b
  | .int i => .int i
  | .float _ f => .float f
  | .str s => .str s
  | .bytes => .other
  | .complex => .other
  | .date _ none => .null
  | .date .nano (some t) => .int t
  | .date .pico (some t) => .int t
  | .date _ (some _) => .other
  | .duration _ none => .null
  | .duration .year (some t) => .int t
  | .duration .month (some t) => .int t
  | .duration .nano (some t) => .int t
  | .duration .pico (some t) => .int t
  | .duration _ (some _) => .other

/-- `numpy.ndarray.tolist`: an array is its shape and the element at each index. -/
def tolist : List Nat → (List Nat → Scalar) → V
  | [], f => item (f [])
  | n :: s, f => .list ((List.range n).map fun i => tolist s fun ix => f (i :: ix))

/-- The value of an attribute as the user gives it. -/
inductive Arg where
  | scalar (s : Scalar)
  | array (shape : List Nat) (f : List Nat → Scalar)
  | list (l : List Arg)
  | tuple (l : List Arg)
  /-- a value without anything of numpy -/
  | py (v : V)

mutual
/-- A value as `json` sees it inside of a list: of the scalars of numpy, `float64` and `str_` are
values of Python, the others are refused, as is an array. -/
def inside : Arg → V
  | .scalar (.float true f) => .float f
  | .scalar (.str s) => .str s
  | .scalar _ => .other
  | .array _ _ => .other
  | .list l => .list (insides l)
  | .tuple l => .tuple (insides l)
  | .py v => v

def insides : List Arg → List V
  | [] => []
  | a :: t => inside a :: insides t
end

/-- meta.py:40-50 (`Pair._encode`): only the value itself is converted, not what a list holds. -/
def encode : Arg → V
  | .scalar s => item s
  | .array shape f => tolist shape f
  | a => inside a

/-- meta.py:34-38 (`Pair.__init__`), 88-106 (`Attribute`) -/
def attrOf (name : String) (a : Arg) : Cft.Attr := (name, encode a)

mutual
/-- `==` of two values of Python that share no object (two objects that are the same are equal in
lists and dictionaries even if they are not a number).  Simplifications: an integer is not compared
with a float or a boolean, and `0.0` is told from `-0.0`; `other` is never equal. -/
def pyEq : V → V → Bool
  | .null, .null => true
  | .bool a, .bool b => a == b
  | .int a, .int b => a == b
  | .float a, .float b => a == b && a != .nan
  | .str a, .str b => a == b
  | .list a, .list b => pyEqs a b
  | .tuple a, .tuple b => pyEqs a b
  | .dict a, .dict b => a.length == b.length && pyIncl a b
  | _, _ => false

def pyEqs : List V → List V → Bool
  | [], [] => true
  | a :: s, b :: t => pyEq a b && pyEqs s t
  | _, _ => false

/-- Every key of the first has in the second an equal value. -/
def pyIncl : List (Key × V) → List (Key × V) → Bool
  | [], _ => true
  | (k, v) :: t, d =>
    (match d.lookup k with
      | some w => pyEq v w
      | none => false) && pyIncl t d
end

/-- meta.py:299-302 (`Dataset.__eq__`) -/
def sameMeta (a b : Cft.Ds) : Bool := pyEq (Cft.encodeDs a) (Cft.encodeDs b)

end Verif.Na
