import Verif.Model.Json

/-!
What a user expects of a value that goes through a file: which values can be written, what is
read where they were written, and which are read unchanged.
-/

namespace Verif.Spec

open Json (V Key)


mutual
/-- Every part of the value can be written: it is made of `None`, booleans, numbers, strings,
lists, tuples and dictionaries, the keys of which are not containers. -/
def Writable : V → Prop
  | .list l => WritableElems l
  | .tuple l => WritableElems l
  | .dict d => WritablePairs d
  | .other => False
  | _ => True

def WritableElems : List V → Prop
  | [] => True
  | v :: t => Writable v ∧ WritableElems t

def WritablePairs : List (Key × V) → Prop
  | [] => True
  | (k, v) :: t => k ≠ .other ∧ Writable v ∧ WritablePairs t
end

/-- Pairs of a dictionary in which a key is at the place where it comes first with the value it
has last. -/
def collapse (l : List (String × V)) : List (String × V) :=
  (l.map (·.1)).eraseDups.filterMap fun k => (l.reverse.lookup k).map fun v => (k, v)

/-- The text of a key. -/
def keyText : Key → String
  | .str s => s
  | .int i => String.ofList (Json.intText i)
  | .float f => String.ofList (Json.fltText f)
  | .bool true => "true"
  | .bool false => "false"
  | .null => "null"
  | .other => ""

mutual
/-- The value read where `v` was written: tuples become lists, keys become strings, and of two
keys that become the same string the last counts. -/
def readAs : V → V
  | .list l => .list (readElems l)
  | .tuple l => .list (readElems l)
  | .dict d => .dict ((collapse (readPairs d)).map fun kv => (.str kv.1, kv.2))
  | .null => .null
  | .bool b => .bool b
  | .int i => .int i
  | .float f => .float f
  | .str s => .str s
  | .other => .str ""

def readElems : List V → List V
  | [] => []
  | v :: t => readAs v :: readElems t

def readPairs : List (Key × V) → List (String × V)
  | [] => []
  | (k, v) :: t => (keyText k, readAs v) :: readPairs t
end

mutual
/-- A value with no tuple, the dictionaries of which have distinct strings as keys. -/
def Unaltered : V → Prop
  | .list l => UnalteredElems l
  | .tuple _ => False
  | .dict d => UnalteredPairs d
  | .other => False
  | _ => True

def UnalteredElems : List V → Prop
  | [] => True
  | v :: t => Unaltered v ∧ UnalteredElems t

def UnalteredPairs : List (Key × V) → Prop
  | [] => True
  | (k, v) :: t => (∃ s, k = .str s) ∧ k ∉ t.map (·.1) ∧ Unaltered v ∧ UnalteredPairs t
end

end Verif.Spec
