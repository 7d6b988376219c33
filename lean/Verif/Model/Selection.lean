import Verif.Model.Evaluate

/-!
The selection of variables by name (zcollection/dataset.py, meta.py, storage.py,
collection/abc.py, view/__init__.py).

The argument is an iterable of strings.  What Python does with it depends on its kind: an object
that can be iterated again and again, an iterator that is consumed, or a string, whose elements
are its characters while `in` searches for a substring.
-/

namespace Verif.Sl

open Nd Ds Vr

variable {V : Type}

/-- An iterable of strings: a list, tuple, set or dictionary view; an iterator with the elements
it still has; a string. -/
inductive Names where
  | seq (l : List String)
  | once (l : List String)
  | text (s : String)

/-- What an iteration returns. -/
def Names.elems : Names → List String
  | .seq l => l
  | .once l => l
  | .text s => s.toList.map String.singleton

/-- `bool(names)`: an iterator is always true. -/
def Names.truthy : Names → Bool
  | .seq l => !l.isEmpty
  | .once _ => true
  | .text s => !s.toList.isEmpty

/-- The elements of an iterator after the first one equal to `k`. -/
def afterFirst (k : String) : List String → List String
  | [] => []
  | x :: t => if x = k then t else afterFirst k t

/-- A list of characters is part of another one. -/
def isPart (k : List Char) : List Char → Bool
  | [] => k.isEmpty
  | c :: s => k.isPrefixOf (c :: s) || isPart k s

/-- `k in names`, and the object afterwards. -/
def Names.test (k : String) : Names → Bool × Names
  | .seq l => (decide (k ∈ l), .seq l)
  | .once l => (decide (k ∈ l), .once (afterFirst k l))
  | .text s => (isPart k.toList s.toList, .text s)

/-- `set(names)`, and the object afterwards. -/
def Names.consume : Names → List String × Names
  | .seq l => (l, .seq l)
  | .once l => (l, .once [])
  | .text s => ((Names.text s).elems, .text s)

/-- `names or keys`. -/
def orKeys (names : Option Names) (keys : List String) : Names :=
  match names with
  | none => .seq keys
  | some n => if n.truthy then n else .seq keys

/-- `[v for k, v in items if k in names]`. -/
def keepIn {α : Type} (key : α → String) : Names → List α → List α
  | _, [] => []
  | names, x :: t =>
    match names.test (key x) with
    | (true, names) => x :: keepIn key names t
    | (false, names) => keepIn key names t

/-- dataset.py:807-829 `get_dataset_variable_properties`, used by `Collection.variables`
(collection/abc.py:700-714) and `View.variables` (view/__init__.py:215-229): the description of
each variable and the shape `(0,) * rank` of its array, whose content is not modelled. -/
def variables (metas : List (VarMeta V)) (names : Option Names) : List (VarMeta V × List Nat) :=
  (keepIn (·.name) (orKeys names (metas.map (·.name))) metas).map fun m =>
    (m, m.dims.map fun _ => 0)

/-- dataset.py:468-493 `Dataset.to_dict` of variables in memory. -/
def toDict (n : Num V) (names : Option Names) (ds : Dataset V) : List (String × Arr (Option V)) :=
  (keepIn (·.name) (orKeys names (ds.vars.map (·.name))) ds.vars).map fun v =>
    (v.name, valuesOf n v)

/-- meta.py:276-297 `Dataset.select_variables(keep_variables, drop_variables)`, in the order of
the metadata, and the two arguments afterwards. -/
def selectVariables (all : List String) (keep drop : Option Names) :
    List String × Option Names × Option Names :=
  let (all, keep) := match keep with
    | none => (all, none)
    | some k => (all.filter fun n => decide (n ∈ k.consume.1), some k.consume.2)
  match drop with
  | none => (all, keep, none)
  | some d => (all.filter fun n => decide (n ∉ d.consume.1), keep, some d.consume.2)

/-- storage.py:328-336 the names that `open_zarr_group` opens in a store. -/
def opened (store : List String) (names : Option Names) : List String × Option Names :=
  match names with
  | none => (store, none)
  | some n => (store.filter fun k => decide (k ∈ n.consume.1), some n.consume.2)

/-- collection/detail.py:145-173 `_load_dataset`: the names read in the partition, then in the
directory of the immutable variables. -/
def loadNames (partition immutable : List String) (names : Option Names) :
    List String × List String :=
  let (a, names) := opened partition names
  (a, (opened immutable names).1)

/-- view/__init__.py:379-388 (`View.load`), view/detail.py:276-283: the names read in the
reference, then in the view. -/
def viewNames (reference view : List String) (names : Option Names) : List String × List String :=
  let (a, names, _) := selectVariables reference names none
  (a, (selectVariables view names none).1)

end Verif.Sl
