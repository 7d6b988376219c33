import Verif.Model.Array

/-!
Variables and datasets (zcollection/variable/abc.py, variable/array.py,
variable/delayed_array.py, dataset.py).

Simplifications: compressor, filters, dtype and variable attributes are one opaque value
`props` that is copied; attribute values are strings.  A Python dictionary is a list of
pairs with distinct keys, in order of insertion.
-/

namespace Verif.Ds

open Nd

variable {V : Type}

/-- variable/abc.py:305-342 `Variable`; `delayed` tells `DelayedArray` from `Array`. -/
structure Var (V : Type) where
  name : String
  delayed : Bool
  dims : List String
  array : Arr V
  fill : Option V
  props : Nat

/-- dataset.py:190-258 `Dataset`: the attributes of an instance. -/
structure Dataset (V : Type) where
  dims : List (String × Nat)
  vars : List (Var V)
  attrs : List (String × String)
  chunks : List (String × Nat)
  limit : Nat
  delayed : Bool

/-- `self.variables[var.name] = var` (dataset.py:241-242, 348): replaces the variable of the
same name, or adds it at the end. -/
def setVar (vars : List (Var V)) (v : Var V) : List (Var V) :=
  match vars with
  | [] => [v]
  | w :: t => if w.name = v.name then v :: t else w :: setVar t v

/-- `self.variables[name]`. -/
def getVar (vars : List (Var V)) (name : String) : Option (Var V) :=
  vars.find? fun v => decide (v.name = name)

/-- `self.variables[name]`, with `KeyError`. -/
def getVarE (vars : List (Var V)) (name : String) : Py (Var V) :=
  match getVar vars name with
  | none => .error .keyError
  | some v => .ok v

/-- dataset.py:177-186 the dimensions of one variable: a new dimension is recorded, a known
one must have the same size, a missing axis raises `ValueError`.  Axes without a name are
not checked. -/
def addDims (dims : List (String × Nat)) : List String → List Nat → Py (List (String × Nat))
  | [], _ => .ok dims
  | _ :: _, [] => .error .valueError
  | d :: ds, n :: shape =>
    match dims.lookup d with
    | none => addDims (dims ++ [(d, n)]) ds shape
    | some m => if m ≠ n then .error .valueError else addDims dims ds shape

/-- dataset.py:167-187 `_update_dimensions` -/
def updateDims (dims : List (String × Nat)) (delayed : Option Bool) :
    List (Var V) → Py (List (String × Nat) × Option Bool)
  | [] => .ok (dims, delayed)
  | v :: t => do
    let delayed ← match delayed with
      | none => .ok v.delayed
      | some d => if d ≠ v.delayed then .error .valueError else .ok d
    let dims ← addDims dims v.dims v.array.shape
    updateDims dims (some delayed) t

/-- dataset.py:224-258 `Dataset.__init__` -/
def mk (vars : List (Var V)) (attrs : List (String × String)) (chunks : List (String × Nat))
    (limit : Nat) (delayed : Option Bool) : Py (Dataset V) := do
  let vars := vars.foldl setVar []
  let (dims, delayed) ← updateDims [] delayed vars
  .ok { dims, vars, attrs, chunks, limit,
        delayed := match delayed with | none => true | some d => d }

/-- A dataset with the same attributes, chunks and limit. -/
def derive (ds : Dataset V) (vars : List (Var V)) (delayed : Option Bool) : Py (Dataset V) :=
  mk vars ds.attrs ds.chunks ds.limit delayed

/-- The first error of a list of computations, or all the results (list comprehensions
that call a function that may raise). -/
def mapPy {α β : Type} (f : α → Py β) : List α → Py (List β)
  | [] => .ok []
  | x :: t => do
    let y ← f x
    let ys ← mapPy f t
    .ok (y :: ys)

/-- variable/abc.py:394-411 `Variable.isel` -/
def Var.isel (v : Var V) (key : List Ix) : Py (Var V) := do
  let a ← getitem 0 key v.array
  .ok { v with array := a }

/-- `slices.get(dim, slice(None))` (dataset.py:549) -/
def sliceOf (slices : List (String × Ix)) (d : String) : Ix :=
  match slices.lookup d with
  | none => .slice .all
  | some ix => ix

/-- dataset.py:533-556 `Dataset.isel` -/
def isel (ds : Dataset V) (slices : List (String × Ix)) : Py (Dataset V) :=
  if ∃ s ∈ slices, ds.dims.lookup s.1 = none then .error .valueError
  else do
    let vars ← mapPy (fun v => v.isel (v.dims.map (sliceOf slices))) ds.vars
    derive ds vars (some ds.delayed)

/-- dataset.py:156-164 and 144-153 one variable of `_delete_vars`:
`var.dimensions.index(axis)` raises `ValueError` when the variable has no such dimension. -/
def deleteVar (ixs : Indexer) (axis : String) (v : Var V) : Py (Var V) :=
  match v.dims.idxOf? axis with
  | none => .error .valueError
  | some ax => do
    let a ← delete ax ixs v.array
    .ok { v with array := a }

/-- dataset.py:558-577 `Dataset.delete` -/
def deleteDs (ds : Dataset V) (ixs : Indexer) (axis : String) : Py (Dataset V) := do
  let vars ← mapPy (deleteVar ixs axis) ds.vars
  derive ds vars (some ds.delayed)

/-- variable/abc.py:50-104 `concat`: when the dimension is not a dimension of the variable,
or `concatenate` raises `ValueError`, the variable itself is returned. -/
def concatVar (v : Var V) (others : List (Var V)) (dim : String) : Py (Var V) :=
  if others = [] then .error .valueError
  else if ∃ o ∈ others, o.delayed ≠ v.delayed then .error .valueError
  else
    match v.dims.idxOf? dim with
    | none => .ok v
    | some ax =>
      match concatenate ax (v.array :: others.map (·.array)) with
      | .ok a => .ok { v with array := a }
      | .error .valueError => .ok v
      | .error e => .error e

/-- dataset.py:663-691 `Dataset.concat` -/
def concat (ds : Dataset V) (others : List (Dataset V)) (dim : String) : Py (Dataset V) :=
  if others = [] then .error .valueError
  else if ∃ o ∈ others, o.delayed ≠ ds.delayed then .error .valueError
  else do
    let vars ← mapPy (fun v => do
      let ws ← mapPy (fun o => getVarE o.vars v.name) others
      concatVar v ws dim) ds.vars
    derive ds vars (some ds.delayed)

/-- dataset.py:382-396 `Dataset.select_vars`; the argument `delayed` is not given. -/
def selectVars (ds : Dataset V) (names : List String) : Py (Dataset V) := do
  let vars ← mapPy (getVarE ds.vars) names
  derive ds vars none

/-- dataset.py:727-762 `Dataset.select_variables_by_dims`; the argument `delayed` is not
given. -/
def selectByDims (ds : Dataset V) (dims : List String) (predicate : Bool) : Py (Dataset V) :=
  let condition (v : Var V) : Bool :=
    if dims = [] then v.dims.isEmpty == predicate
    else (v.dims.any fun d => decide (d ∈ dims)) == predicate
  derive ds (ds.vars.filter condition) none

/-- dataset.py:703-708 the loop of `Dataset.merge` over the variables. -/
def mergeVars (vars : List (Var V)) : List (Var V) → List (Var V) × Py Unit
  | [] => (vars, .ok ())
  | v :: t =>
    if (getVar vars v.name).isSome then (vars, .error .valueError)
    else mergeVars (vars ++ [v]) t

/-- `dict.update` on pairs. -/
def dictUpdate {β : Type} (d : List (String × β)) : List (String × β) → List (String × β)
  | [] => d
  | (k, x) :: t =>
    dictUpdate (if (d.lookup k).isSome then d.map fun p => if p.1 = k then (k, x) else p
      else d ++ [(k, x)]) t

/-- dataset.py:693-725 `Dataset.merge`: the state of the dataset after the call, and the
outcome. -/
def merge (s o : Dataset V) : Dataset V × Py Unit :=
  if s.delayed ≠ o.delayed then (s, .error .valueError)
  else
    match mergeVars s.vars o.vars with
    | (vs, .error e) => ({ s with vars := vs }, .error e)
    | (vs, .ok ()) =>
      if ∃ p ∈ s.dims, ∃ q ∈ o.dims, p.1 = q.1 ∧ p.2 ≠ q.2 then
        ({ s with vars := vs }, .error .valueError)
      else
        ({ s with vars := vs, dims := dictUpdate s.dims o.dims,
                  attrs := dictUpdate s.attrs o.attrs }, .ok ())

/-- dataset.py:358-370 `Dataset.rename`: the state after the call and the outcome. -/
def rename (s : Dataset V) : List (String × String) → Dataset V × Py Unit
  | [] => (s, .ok ())
  | (old, new) :: t =>
    if (getVar s.vars new).isSome then (s, .error .valueError)
    else
      match getVar s.vars old with
      | none => (s, .error .keyError)
      | some v =>
        rename { s with vars := (s.vars.filter fun w => decide (w.name ≠ old)) ++
                                 [{ v with name := new }] } t

/-- dataset.py:372-380 `Dataset.drops_vars` -/
def dropVars (s : Dataset V) : List String → Dataset V × Py Unit
  | [] => (s, .ok ())
  | n :: t =>
    match getVar s.vars n with
    | none => (s, .error .keyError)
    | some _ => dropVars { s with vars := s.vars.filter fun w => decide (w.name ≠ n) } t

/-- The metadata of a variable to add (meta.py `Variable`). -/
structure VarMeta (V : Type) where
  name : String
  dims : List String
  fill : Option V
  props : Nat

/-- `zip(var.dimensions, data.shape)` with the sizes known to the dataset
(dataset.py:342-347). -/
def conflict (dims : List (String × Nat)) : List String → List Nat → Bool
  | d :: ds, n :: shape => (dims.lookup d != some n) || conflict dims ds shape
  | _, _ => false

/-- The sizes of the dimensions of a variable (dataset.py:336). -/
def sizes (dims : List (String × Nat)) (l : List String) : List Nat :=
  l.filterMap fun d => dims.lookup d

/-- dataset.py:315-356 `Dataset.add_variable`.  `none` as data asks for an array of fill
values; `noneValue` is the conversion of `None` to the type of the variable.
Simplification: the data is not a masked array. -/
def addVariable (s : Dataset V) (m : VarMeta V) (noneValue : Py V) (data : Option (Arr V)) :
    Dataset V × Py Unit :=
  if ∃ d ∈ m.dims, s.dims.lookup d = none then (s, .error .valueError)
  else
    let array : Py (Arr V) :=
      match data with
      | none => do
        let v ← match m.fill with
          | some v => .ok v
          | none => noneValue
        .ok (full (sizes s.dims m.dims) v)
      | some a => if conflict s.dims m.dims a.shape then .error .valueError else .ok a
    match array with
    | .error e => (s, .error e)
    | .ok a =>
      let v : Var V := { name := m.name, delayed := s.delayed, dims := m.dims, array := a,
                         fill := m.fill, props := m.props }
      ({ s with vars := setVar s.vars v }, .ok ())

/-- dataset.py:521-531 `fill_attrs`: `mds.variables[var.name]` raises `KeyError` for a variable
that is not in the metadata, whose variables have the names `names`.  The attributes that the
variables get are in Model/Attributes. -/
def fillAttrs (names : List String) (zds : Dataset V) : Py (Dataset V) :=
  if ∀ v ∈ zds.vars, v.name ∈ names then .ok zds else .error .keyError

/-- `fill_attrs` on the result of a load, if there is a dataset (collection/abc.py:657-658,
view/__init__.py:403-407). -/
def filled (names : List String) (r : Py (Option (Dataset V))) : Py (Option (Dataset V)) :=
  match r with
  | .error e => .error e
  | .ok none => .ok none
  | .ok (some zds) => do
    let zds ← fillAttrs names zds
    .ok (some zds)

end Verif.Ds
