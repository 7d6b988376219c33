import Verif.Model.Path
import Verif.Model.Sort

/-!
Model of the listing of partitions: `zcollection/partitioning/abc.py` (`list_partitions`).

A directory is a list of named entries, in the (arbitrary) order in which the file system
returns them.
-/

namespace Verif.Listing

/-- A node of the file system. -/
inductive Node where
  | file
  | dir (entries : List (List Char × Node))

/-- Is the node a directory (`info['type'] == 'directory'`)? -/
def Node.isDir : Node → Bool
  | .file => false
  | .dir _ => true

/-- Path of an entry of a directory. -/
def child (path name : List Char) : List Char := path ++ '/' :: name

/-- `fs.ls(path)`: the entries of a directory, or the file itself. -/
def ls (path : List Char) : Node → List (List Char × Node)
  | .file => [(path, .file)]
  | .dir entries => entries.map fun e => (child path e.1, e.2)

/-- partitioning/abc.py:197-203: below the root all the entries are followed. -/
def deep : Nat → List Char → Node → List (List Char)
  | 0, path, n => (ls path n).map (·.1)
  | d + 1, path, n => (ls path n).flatMap fun c => deep d c.1 c.2

/-- partitioning/abc.py:177-184: the directories of the root that are not hidden.
Simplification: names of entries contain no separator, so that the last component of the
path is the name. -/
def folders (path : List Char) : Node → List (List Char × Node)
  | .file => []
  | .dir entries =>
    (entries.filter fun e => e.2.isDir && !(e.1.head? == some '.')).map
      fun e => (child path e.1, e.2)

/-- partitioning/abc.py:154-203 called from the root with `depth = len - 1`. -/
def listPartitions (len : Nat) (path : List Char) (root : Node) : List (List Char) :=
  match len with
  | 0 => []
  | 1 => (folders path root).map (·.1)
  | d + 2 => (folders path root).flatMap fun c => deep d c.1 c.2

/-- Comparison of tuples of integers by Python. -/
def lexLe : List Int → List Int → Bool
  | [], _ => true
  | _ :: _, [] => false
  | x :: a, y :: b => if x = y then lexLe a b else decide (x < y)

/-- Evaluate the sort key of every element. -/
def keyed (keys : List String) : List (List Char) → Py (List (List Char × List Int))
  | [] => .ok []
  | p :: t => do
    let k ← Path.parse keys p
    let r ← keyed keys t
    return (p, k.map (·.2)) :: r

/-- partitioning/abc.py:414-428: `sorted(list_partitions(...), key=self.parse)`.
Simplification: all the keys have the same names, so only the values are compared. -/
def sortedPartitions (keys : List String) (len : Nat) (path : List Char) (root : Node) :
    Py (List (List Char)) := do
  let l ← keyed keys (listPartitions len path root)
  return (Sort.isort (fun a b => lexLe a.2 b.2) l).map (·.1)

/-! ### Selection -/

/-- `s.replace(old, '')`: the occurrences are removed from left to right. -/
def removeAll (old : List Char) (s : List Char) : List Char :=
  match old, s with
  | [], s => s
  | _ :: _, [] => []
  | o :: old, c :: s =>
    if (o :: old).isPrefixOf (c :: s) then removeAll (o :: old) (s.drop old.length)
    else c :: removeAll (o :: old) s
termination_by s.length

/-- collection/abc.py:280-295 (`_is_selected`), after collection/abc.py:365.  Splitting a path
at the separators and joining the pieces again is the identity.  The expression returns the
truth of its value or raises. -/
def isSelected (keys : List String) (base item : List Char)
    (expr : Option (List (String × Int) → Py Bool)) : Py Bool :=
  match expr with
  | none => .ok true
  | some f => do
    let k ← Path.parse keys (removeAll base item)
    f k

/-- collection/abc.py:362-365. -/
def select (keys : List String) (base : List Char) (immutable : Option (List Char))
    (expr : Option (List (String × Int) → Py Bool)) : List (List Char) → Py (List (List Char))
  | [] => .ok []
  | p :: t => do
    let s ← if some p = immutable then .ok false else isSelected keys base p expr
    let r ← select keys base immutable expr t
    return if s then p :: r else r

/-- collection/abc.py:309-365 (`ReadOnlyCollection.partitions`).  Simplifications: `cache` and
`lock` are not used, `relative` is false, and the generator is consumed entirely. -/
def partitions (keys : List String) (len : Nat) (base : List Char)
    (immutable : Option (List Char)) (expr : Option (List (String × Int) → Py Bool))
    (root : Node) : Py (List (List Char)) := do
  let l ← sortedPartitions keys len base root
  select keys base immutable expr l

end Verif.Listing
