import Verif.Model.Dataset

/-!
Datasets as objects: which objects the methods of datasets and variables share, and which they
create (zcollection/dataset.py, variable/abc.py, variable/array.py, variable/delayed_array.py).
In Model/Dataset a dataset is a value; here it is a reference to an object that holds
references to variables, which hold references to arrays.

Simplifications: as in Model/Dataset; the attributes of a variable are a number, 0 for no
attribute, and its compressor and filters, which no method changes, are not modelled.  The
arrays of the user are not masked arrays.  A dask array is the array it computes; the dask array
made of an array of the user holds a copy of it (dask copies an array of one chunk; the sharing
of the others is not modelled).
-/

namespace Verif.Sh

open Nd

variable {V : Type}

/-- A numpy array: the buffer that holds its elements, and the position in the buffer of each
element.  A basic slice of an array is another array on the same buffer. -/
structure Ref where
  buf : Nat
  view : Arr (List Nat)

/-- variable/abc.py:305-342 `Variable`: an instance of `DelayedArray` or `Array`. -/
structure VarObj (V : Type) where
  name : String
  delayed : Bool
  dims : List String
  array : Ref
  fill : Option V
  attrs : Nat

/-- dataset.py:190-258 `Dataset`: the attributes of an instance.  `vars` is the dictionary from
the names to the objects, `chunks` the dictionary of the chunks, which is an object of its
own. -/
structure DsObj where
  dims : List (String × Nat)
  vars : List (String × Nat)
  attrs : List (String × String)
  chunks : Nat
  limit : Nat
  delayed : Bool

/-- The objects of a program: the buffers, the variables, the dictionaries of chunks, the
datasets, and the numpy arrays that the program holds.  An object is the number of its place;
no place is used twice. -/
structure Heap (V : Type) where
  bufs : List (Arr V)
  vars : List (VarObj V)
  dicts : List (List (String × Nat))
  sets : List DsObj
  hands : List Ref

/-! ### Reading -/

/-- The elements of an array on the buffer `b`. -/
def through (w : Arr (List Nat)) (b : Arr V) : Arr V where
  shape := w.shape
  get idx := (w.get idx).bind b.get

/-- The elements of an array. -/
def Heap.read (h : Heap V) (r : Ref) : Option (Arr V) := (h.bufs[r.buf]?).map (through r.view)

/-- A variable object, with the elements of its array. -/
def Heap.valueOf (h : Heap V) (o : VarObj V) : Option (Ds.Var V) :=
  (h.read o.array).map fun a =>
    { name := o.name, delayed := o.delayed, dims := o.dims, array := a, fill := o.fill,
      props := o.attrs }

/-- The variable `r`. -/
def Heap.var (h : Heap V) (r : Nat) : Option (Ds.Var V) := (h.vars[r]?).bind h.valueOf

/-- The dataset `n`, as a value. -/
def Heap.see (h : Heap V) (n : Nat) : Option (Ds.Dataset V) :=
  (h.sets[n]?).bind fun d => (h.dicts[d.chunks]?).map fun chunks =>
    { dims := d.dims, vars := d.vars.filterMap fun p => h.var p.2, attrs := d.attrs,
      chunks, limit := d.limit, delayed := d.delayed }

/-- The variable objects of a dataset, in the order of the dictionary. -/
def Heap.objects (h : Heap V) (d : DsObj) : List (VarObj V) :=
  d.vars.filterMap fun p => h.vars[p.2]?

/-! ### Allocation -/

/-- An array on a buffer of its own, at the place `b`. -/
def whole (b : Nat) (a : Arr V) : Ref := ⟨b, ⟨a.shape, some⟩⟩

/-- New variables; their names and places. -/
def Heap.allocate (h : Heap V) (l : List (VarObj V)) : Heap V × List (String × Nat) :=
  ({ h with vars := h.vars ++ l }, l.mapIdx fun i o => (o.name, h.vars.length + i))

/-- `d[name] = x` on a dictionary. -/
def put {β : Type} (d : List (String × β)) (p : String × β) : List (String × β) :=
  match d with
  | [] => [p]
  | q :: t => if q.1 = p.1 then p :: t else q :: put t p

/-- dataset.py:224-258 `Dataset.__init__` on variables that exist: a new dictionary of the
variables and a new dictionary of the chunks. -/
def Heap.construct (h : Heap V) (vars : List (String × Nat)) (attrs : List (String × String))
    (chunks : List (String × Nat)) (limit : Nat) (delayed : Option Bool) : Heap V × Py Nat :=
  let vars := vars.foldl put []
  match Ds.updateDims [] delayed (vars.filterMap fun p => h.var p.2) with
  | .error e => (h, .error e)
  | .ok (dims, delayed) =>
    ({ h with dicts := h.dicts ++ [chunks],
              sets := h.sets ++ [{ dims, vars, attrs, chunks := h.dicts.length, limit,
                                   delayed := match delayed with | none => true | some b => b }] },
     .ok h.sets.length)

/-- New variables on arrays that exist, and a dataset of them (dataset.py:494-510, 625-631). -/
def Heap.build (h : Heap V) (l : List (VarObj V)) (attrs : List (String × String))
    (chunks : List (String × Nat)) (limit : Nat) (delayed : Option Bool) : Heap V × Py Nat :=
  (h.allocate l).1.construct (h.allocate l).2 attrs chunks limit delayed

/-- The array of a new variable: another one, or one on the buffer of the variable it is made
of. -/
inductive Joined (V : Type) where
  | fresh (a : Arr V)
  | same (w : Arr (List Nat))

/-- New variables, with new buffers for the new arrays. -/
def Heap.joined (h : Heap V) : List (VarObj V × Joined V) → Heap V × List (VarObj V)
  | [] => (h, [])
  | (o, .same w) :: t =>
    ((h.joined t).1, { o with array := ⟨o.array.buf, w⟩ } :: (h.joined t).2)
  | (o, .fresh a) :: t =>
    (({ h with bufs := h.bufs ++ [a] }.joined t).1,
     { o with array := whole h.bufs.length a } :: ({ h with bufs := h.bufs ++ [a] }.joined t).2)

/-- New variables, and a dataset of them (the list comprehensions before the calls of `Dataset`
in dataset.py:545-556, 570-577, 596-609, 683-691). -/
def Heap.derive (h : Heap V) (l : List (VarObj V × Joined V)) (attrs : List (String × String))
    (chunks : List (String × Nat)) (limit : Nat) (delayed : Option Bool) : Heap V × Py Nat :=
  (h.joined l).1.build (h.joined l).2 attrs chunks limit delayed

/-- New variables on copies of their arrays. -/
def Heap.copied (h : Heap V) (l : List (VarObj V)) : List (VarObj V × Joined V) :=
  l.filterMap fun o => (h.read o.array).map fun a => (o, .fresh a)

/-! ### The calls of a program -/

/-- A variable to construct: `Array(name, array, dims, fill_value, attrs)` or `DelayedArray`, of
the array `hand` that the program holds. -/
structure Given (V : Type) where
  name : String
  delayed : Bool
  dims : List String
  hand : Nat
  fill : Option V
  attrs : Nat

/-- What a program may do.  Datasets and arrays are designated by their places. -/
inductive Call (V : Type) where
  /-- `numpy.array(a)` -/
  | array (a : Arr V)
  /-- `array[idx] = v` on an array that the program holds -/
  | write (hand : Nat) (idx : List Nat) (v : V)
  /-- `Dataset([Array(...), ...], attrs, block_size_limit, chunks, delayed)` -/
  | dataset (l : List (Given V)) (attrs : List (String × String)) (chunks : List (String × Nat))
      (limit : Nat) (delayed : Option Bool)
  /-- `ds[name].values` -/
  | values (ds : Nat) (name : String)
  /-- `ds[name].values = array` -/
  | assign (ds : Nat) (name : String) (hand : Nat)
  /-- `ds[name].fill()` -/
  | fill (ds : Nat) (name : String)
  /-- `ds.chunks[dim] = n` -/
  | setChunk (ds : Nat) (dim : String) (n : Nat)
  /-- `ds.select_vars(names)` -/
  | selectVars (ds : Nat) (names : List String)
  /-- `ds.select_variables_by_dims(dims, predicate)` -/
  | byDims (ds : Nat) (dims : List String) (predicate : Bool)
  /-- `ds.isel(slices)` -/
  | isel (ds : Nat) (slices : List (String × Ix))
  /-- `ds.delete(indexer, axis)` -/
  | delete (ds : Nat) (ixs : Indexer) (axis : String)
  /-- `ds.concat(others, dim)` -/
  | concat (ds : Nat) (others : List Nat) (dim : String)
  /-- `ds.set_for_insertion(mds)`, with the chunks and the limit of `mds` -/
  | setForInsertion (ds : Nat) (chunks : List (String × Nat)) (limit : Nat)
  /-- `ds.compute()` -/
  | compute (ds : Nat)
  /-- `ds.rechunk()` -/
  | rechunk (ds : Nat)
  /-- `pickle.loads(pickle.dumps(ds))`, also done by dask to send a dataset to a worker -/
  | pickle (ds : Nat)
  /-- `ds.merge(other)` -/
  | merge (ds other : Nat)
  /-- `ds.rename(names)` -/
  | rename (ds : Nat) (names : List (String × String))
  /-- `ds.drops_vars(names)` -/
  | dropVars (ds : Nat) (names : List String)
  /-- `ds.add_variable(var, data)`; `noneValue` as in `Ds.addVariable` -/
  | addVariable (ds : Nat) (m : Ds.VarMeta V) (noneValue : Py V) (hand : Option Nat)
  /-- `ds.fill_attrs(mds)` (dataset.py:521-531), with the attributes of the dataset and of the
  variables -/
  | fillAttrs (ds : Nat) (attrs : List (String × String)) (vars : List (String × Nat))
  /-- `ds.copy_properties(other)` (dataset.py:512-519) -/
  | copyProperties (ds other : Nat)

/-- What a call returns. -/
inductive Res where
  | unit
  | ds (n : Nat)
  | hand (n : Nat)
  deriving DecidableEq

/-- The outcome of a constructor. -/
def asDs : Heap V × Py Nat → Heap V × Py Res
  | (h, .ok n) => (h, .ok (.ds n))
  | (h, .error e) => (h, .error e)

/-- The array that a new variable holds for the array of the user `r` (variable/array.py:24-47
`_as_numpy_array`, variable/delayed_array.py:95-119 `_as_dask_array`): `numpy.asanyarray` returns
the array itself. -/
def Heap.adopt (h : Heap V) (delayed : Bool) (r : Ref) : Option (Heap V × Ref) :=
  if delayed then
    (h.read r).map fun a => ({ h with bufs := h.bufs ++ [a] }, whole h.bufs.length a)
  else some (h, r)

/-- The constructors of the variables of a list, one after the other (variable/array.py:63-82,
variable/delayed_array.py:150-173). -/
def Heap.givens (h : Heap V) : List (Given V) → Option (Heap V × List (VarObj V))
  | [] => some (h, [])
  | g :: t =>
    (h.hands[g.hand]?).bind fun r => (h.adopt g.delayed r).bind fun p =>
      (p.1.givens t).map fun q =>
        (q.1, { name := g.name, delayed := g.delayed, dims := g.dims, array := p.2,
                fill := g.fill, attrs := g.attrs } :: q.2)

/-- `ds.variables[name]`: the variable and its place. -/
def Heap.getObj (h : Heap V) (d : DsObj) (name : String) : Py (Nat × VarObj V) :=
  match (d.vars.lookup name).bind fun r => (h.vars[r]?).map fun o => (r, o) with
  | none => .error .keyError
  | some p => .ok p

/-- variable/abc.py:394-411 `Variable.isel`: a basic slice, on the same buffer.  An index of no
axis left is an element, which is not a part of the array; Simplification: it is an array of
rank 0. -/
def Heap.iselVar (h : Heap V) (o : VarObj V) (key : List Ix) : Py (VarObj V × Joined V) := do
  let w ← getitem 0 key o.array.view
  if w.shape = [] then
    match h.bufs[o.array.buf]? with
    | none => .error .nameError
    | some b => .ok (o, .fresh (through w b))
  else .ok (o, .same w)

/-- dataset.py:533-556 `Dataset.isel` -/
def Heap.isel (h : Heap V) (d : DsObj) (chunks : List (String × Nat))
    (slices : List (String × Ix)) : Heap V × Py Nat :=
  if ∃ s ∈ slices, d.dims.lookup s.1 = none then (h, .error .valueError)
  else
    match Ds.mapPy (fun (o : VarObj V) => h.iselVar o (o.dims.map (Ds.sliceOf slices)))
        (h.objects d) with
    | .error e => (h, .error e)
    | .ok l =>
      h.derive l d.attrs chunks d.limit (some d.delayed)

/-- dataset.py:144-164 one variable of `_delete_vars`: the new array. -/
def Heap.deleteVar (h : Heap V) (ixs : Indexer) (axis : String) (o : VarObj V) :
    Py (VarObj V × Joined V) :=
  match h.valueOf o with
  | none => .error .nameError
  | some v => do
    let w ← Ds.deleteVar ixs axis v
    .ok (o, .fresh w.array)

/-- dataset.py:558-577 `Dataset.delete`: `numpy.delete` returns a copy. -/
def Heap.deleteDs (h : Heap V) (d : DsObj) (chunks : List (String × Nat)) (ixs : Indexer)
    (axis : String) : Heap V × Py Nat :=
  match Ds.mapPy (h.deleteVar ixs axis) (h.objects d) with
  | .error e => (h, .error e)
  | .ok l => h.derive l d.attrs chunks d.limit (some d.delayed)

/-- variable/abc.py:50-104 `concat` on objects: `concatenate` returns a new array; without it
the new variable holds the array of the variable. -/
def Heap.concatVar (h : Heap V) (o : VarObj V) (others : List (VarObj V)) (dim : String) :
    Py (VarObj V × Joined V) :=
  if others.isEmpty then .error .valueError
  else if others.any fun x => x.delayed != o.delayed then .error .valueError
  else
    match o.dims.idxOf? dim with
    | none => .ok (o, .same o.array.view)
    | some ax =>
      match concatenate ax ((o :: others).filterMap fun x => h.read x.array) with
      | .ok a => .ok (o, .fresh a)
      | .error .valueError => .ok (o, .same o.array.view)
      | .error e => .error e

/-- dataset.py:663-691 `Dataset.concat` -/
def Heap.concat (h : Heap V) (d : DsObj) (chunks : List (String × Nat)) (others : List DsObj)
    (dim : String) : Heap V × Py Nat :=
  if others.isEmpty then (h, .error .valueError)
  else if others.any fun o => o.delayed != d.delayed then (h, .error .valueError)
  else
    match Ds.mapPy (fun (o : VarObj V) => do
        let ws ← Ds.mapPy (fun x => h.getObj x o.name) others
        h.concatVar o (ws.map (·.2)) dim) (h.objects d) with
    | .error e => (h, .error e)
    | .ok l =>
      h.derive l d.attrs chunks d.limit (some d.delayed)

/-- The predicate of dataset.py:744-752 -/
def wanted (dims : List String) (predicate : Bool) (o : VarObj V) : Bool :=
  if dims = [] then o.dims.isEmpty == predicate
  else (o.dims.any fun d => decide (d ∈ dims)) == predicate

/-- dataset.py:382-396 `Dataset.select_vars`: the variables themselves. -/
def Heap.selectVars (h : Heap V) (d : DsObj) (chunks : List (String × Nat))
    (names : List String) : Heap V × Py Nat :=
  match Ds.mapPy (h.getObj d) names with
  | .error e => (h, .error e)
  | .ok l => h.construct (l.map fun p => (p.2.name, p.1)) d.attrs chunks d.limit none

/-- dataset.py:727-762 `Dataset.select_variables_by_dims`: the variables themselves. -/
def Heap.byDims (h : Heap V) (d : DsObj) (chunks : List (String × Nat)) (dims : List String)
    (predicate : Bool) : Heap V × Py Nat :=
  h.construct (d.vars.filter fun p => (h.vars[p.2]?).any (wanted dims predicate)) d.attrs chunks
    d.limit none

/-- dataset.py:579-609 `Dataset.compute`: the dataset itself, or new variables on the computed
arrays. -/
def Heap.compute (h : Heap V) (n : Nat) (d : DsObj) (chunks : List (String × Nat)) :
    Heap V × Py Nat :=
  if !d.delayed then (h, .ok n)
  else
    h.derive (h.copied ((h.objects d).map fun o => { o with delayed := false })) d.attrs chunks
      d.limit (some false)

/-- dataset.py:611-631 `Dataset.rechunk`: the dataset itself, or new variables on the same
elements. -/
def Heap.rechunk (h : Heap V) (n : Nat) (d : DsObj) (chunks : List (String × Nat)) :
    Heap V × Py Nat :=
  if !d.delayed then (h, .ok n) else h.build (h.objects d) d.attrs chunks d.limit none

/-- dataset.py:286-295 `__getstate__` and `__setstate__`: copies of the dictionaries, the
variables and the arrays.  Simplification: an array that two variables of the dataset hold is
copied twice. -/
def Heap.pickle (h : Heap V) (d : DsObj) (chunks : List (String × Nat)) : Heap V × Py Nat :=
  let q := h.joined (h.copied (h.objects d))
  let p := q.1.allocate q.2
  ({ p.1 with dicts := p.1.dicts ++ [chunks],
              sets := p.1.sets ++ [{ d with vars := p.2, chunks := p.1.dicts.length }] },
   .ok p.1.sets.length)

/-- dataset.py:703-708 the loop of `Dataset.merge`: the variables themselves. -/
def mergeVars (vars : List (String × Nat)) :
    List (String × Nat) → List (String × Nat) × Py Unit
  | [] => (vars, .ok ())
  | p :: t =>
    if (vars.lookup p.1).isSome then (vars, .error .valueError)
    else mergeVars (vars ++ [p]) t

/-- dataset.py:693-725 `Dataset.merge`: the dataset after the call, and the outcome. -/
def mergeDs (s o : DsObj) : DsObj × Py Unit :=
  if s.delayed ≠ o.delayed then (s, .error .valueError)
  else
    match mergeVars s.vars o.vars with
    | (vs, .error e) => ({ s with vars := vs }, .error e)
    | (vs, .ok ()) =>
      if ∃ p ∈ s.dims, ∃ q ∈ o.dims, p.1 = q.1 ∧ p.2 ≠ q.2 then
        ({ s with vars := vs }, .error .valueError)
      else
        ({ s with vars := vs, dims := Ds.dictUpdate s.dims o.dims,
                  attrs := Ds.dictUpdate s.attrs o.attrs }, .ok ())

/-- dataset.py:358-370 `Dataset.rename`, variable/abc.py:428-444 `Variable.rename`: a new variable
on the same array. -/
def Heap.rename (h : Heap V) (d : DsObj) : List (String × String) → Heap V × DsObj × Py Unit
  | [] => (h, d, .ok ())
  | (old, new) :: t =>
    if (d.vars.lookup new).isSome then (h, d, .error .valueError)
    else
      match h.getObj d old with
      | .error e => (h, d, .error e)
      | .ok (_, o) =>
        { h with vars := h.vars ++ [{ o with name := new }] }.rename
          { d with vars := (d.vars.filter fun (p : String × Nat) => decide (p.1 ≠ old)) ++
                            [(new, h.vars.length)] } t

/-- dataset.py:372-380 `Dataset.drops_vars` -/
def dropVars (d : DsObj) : List String → DsObj × Py Unit
  | [] => (d, .ok ())
  | n :: t =>
    match d.vars.lookup n with
    | none => (d, .error .keyError)
    | some _ => dropVars { d with vars := d.vars.filter fun p => decide (p.1 ≠ n) } t

/-- dataset.py:334-347 the data of `add_variable`: an array of the program, or a new array of
fill values. -/
def Heap.dataFor (h : Heap V) (d : DsObj) (m : Ds.VarMeta V) (noneValue : Py V)
    (hand : Option Ref) : Py (Heap V × Ref) :=
  match hand with
  | none =>
    match (match m.fill with | some v => (.ok v : Py V) | none => noneValue) with
    | .error e => .error e
    | .ok v =>
      .ok ({ h with bufs := h.bufs ++ [full (Ds.sizes d.dims m.dims) v] },
           whole h.bufs.length (full (Ds.sizes d.dims m.dims) v))
  | some r =>
    if Ds.conflict d.dims m.dims r.view.shape then .error .valueError
    else
      match h.adopt d.delayed r with
      | none => .error .nameError
      | some p => .ok p

/-- dataset.py:315-356 `Dataset.add_variable` -/
def Heap.addVariable (h : Heap V) (d : DsObj) (m : Ds.VarMeta V) (noneValue : Py V)
    (hand : Option Ref) : Heap V × DsObj × Py Unit :=
  if ∃ x ∈ m.dims, d.dims.lookup x = none then (h, d, .error .valueError)
  else
    match h.dataFor d m noneValue hand with
    | .error e => (h, d, .error e)
    | .ok (h, r) =>
      ({ h with vars := h.vars ++ [{ name := m.name, delayed := d.delayed, dims := m.dims,
                                     array := r, fill := m.fill, attrs := m.props }] },
       { d with vars := put d.vars (m.name, h.vars.length) }, .ok ())

/-- dataset.py:529-531 and variable/abc.py:446-452 the loop of `fill_attrs` over the variables:
those before the first that is not in the metadata are changed. -/
def fillLoop (m : List (String × Nat)) :
    List (String × Nat) → List (VarObj V) → List (VarObj V) × Py Unit
  | [], vars => (vars, .ok ())
  | (n, r) :: t, vars =>
    match vars[r]? with
    | none => (vars, .error .nameError)
    | some o =>
      match m.lookup n with
      | none => (vars, .error .keyError)
      | some a => fillLoop m t (vars.set r { o with attrs := a })

/-- An in-place change of a buffer. -/
def store (b : Arr V) (p : List Nat) (v : V) : Arr V where
  shape := b.shape
  get q := if q = p then some v else b.get q

/-- Changes the dataset `n`. -/
def Heap.setDs (h : Heap V) (n : Nat) (d : DsObj) : Heap V := { h with sets := h.sets.set n d }

/-- Changes the variable `r`. -/
def Heap.setObj (h : Heap V) (r : Nat) (o : VarObj V) : Heap V := { h with vars := h.vars.set r o }

/-- The dataset `n` and its dictionary of chunks. -/
def Heap.getDs (h : Heap V) (n : Nat) : Option (DsObj × List (String × Nat)) :=
  (h.sets[n]?).bind fun d => (h.dicts[d.chunks]?).map fun c => (d, c)

/-- variable/array.py:117-134, variable/delayed_array.py:211-229 the setter of `values`: the
variable holds the array of the program (`numpy.asanyarray`). -/
def Heap.assign (h : Heap V) (r : Nat) (o : VarObj V) (a : Ref) : Heap V × Py Res :=
  if a.view.shape.length ≠ o.dims.length then (h, .error .valueError)
  else
    match h.adopt o.delayed a with
    | none => (h, .error .nameError)
    | some (h, a) => (h.setObj r { o with array := a }, .ok .unit)

/-- variable/array.py:154-163, variable/delayed_array.py:267-277 `fill`: the variable holds a new
array. -/
def Heap.fill (h : Heap V) (r : Nat) (o : VarObj V) : Heap V :=
  match o.fill with
  | none => h
  | some v =>
    let a := full o.array.view.shape v
    { h with bufs := h.bufs ++ [a] }.setObj r { o with array := whole h.bufs.length a }

/-- variable/array.py:102-114, variable/delayed_array.py:197-209 `values`: the array itself, or,
with a fill value (`numpy.ma.masked_equal` copies) or when it is computed, another one. -/
def Heap.values (h : Heap V) (o : VarObj V) : Heap V × Py Res :=
  if o.fill.isNone && !o.delayed then
    ({ h with hands := h.hands ++ [o.array] }, .ok (.hand h.hands.length))
  else
    match h.read o.array with
    | none => (h, .error .nameError)
    | some a =>
      ({ h with bufs := h.bufs ++ [a], hands := h.hands ++ [whole h.bufs.length a] },
       .ok (.hand h.hands.length))

/-- `array[idx] = v`: `IndexError` out of bounds. -/
def Heap.write (h : Heap V) (r : Ref) (idx : List Nat) (v : V) : Heap V × Py Res :=
  if inBounds idx r.view.shape then
    match r.view.get idx, h.bufs[r.buf]? with
    | some p, some b => ({ h with bufs := h.bufs.set r.buf (store b p v) }, .ok .unit)
    | _, _ => (h, .error .indexError)
  else (h, .error .indexError)

/-- A call on the dataset `n`; a name that does not designate a dataset raises `NameError`. -/
def Heap.on (h : Heap V) (n : Nat)
    (f : DsObj → List (String × Nat) → Heap V × Py Res) : Heap V × Py Res :=
  match h.getDs n with
  | none => (h, .error .nameError)
  | some (d, c) => f d c

/-- A call on the variable `name` of the dataset `n`. -/
def Heap.onVar (h : Heap V) (n : Nat) (name : String)
    (f : Nat → VarObj V → Heap V × Py Res) : Heap V × Py Res :=
  h.on n fun d _ =>
    match h.getObj d name with
    | .error e => (h, .error e)
    | .ok (r, o) => f r o

/-- The end of a call that changes the dataset `n`. -/
def Heap.changed (h : Heap V) (n : Nat) (d : DsObj) : Py Unit → Heap V × Py Res
  | .ok () => (h.setDs n d, .ok .unit)
  | .error e => (h.setDs n d, .error e)

/-- One call: the objects after it, and what it returns or raises. -/
def step (h : Heap V) : Call V → Heap V × Py Res
  | .array a =>
    ({ h with bufs := h.bufs ++ [a], hands := h.hands ++ [whole h.bufs.length a] },
     .ok (.hand h.hands.length))
  | .write k idx v =>
    match h.hands[k]? with
    | none => (h, .error .nameError)
    | some r => h.write r idx v
  | .dataset l attrs chunks limit delayed =>
    match h.givens l with
    | none => (h, .error .nameError)
    | some (h, l) => asDs (h.build l attrs chunks limit delayed)
  | .values n name => h.onVar n name fun _ o => h.values o
  | .assign n name k => h.onVar n name fun r o =>
    match h.hands[k]? with
    | none => (h, .error .nameError)
    | some a => h.assign r o a
  | .fill n name => h.onVar n name fun r o => (h.fill r o, .ok .unit)
  | .setChunk n dim x => h.on n fun d c =>
    ({ h with dicts := h.dicts.set d.chunks (put c (dim, x)) }, .ok .unit)
  | .selectVars n names => h.on n fun d c => asDs (h.selectVars d c names)
  | .byDims n dims predicate => h.on n fun d c => asDs (h.byDims d c dims predicate)
  | .isel n slices => h.on n fun d c => asDs (h.isel d c slices)
  | .delete n ixs axis => h.on n fun d c => asDs (h.deleteDs d c ixs axis)
  | .concat n others dim => h.on n fun d c =>
    match others.mapM h.getDs with
    | none => (h, .error .nameError)
    | some l => asDs (h.concat d c (l.map (·.1)) dim)
  | .setForInsertion n chunks limit => h.on n fun d _ =>
    asDs (h.build ((h.objects d).map fun o => { o with attrs := 0 }) [] chunks limit none)
  | .compute n => h.on n fun d c => asDs (h.compute n d c)
  | .rechunk n => h.on n fun d c => asDs (h.rechunk n d c)
  | .pickle n => h.on n fun d c => asDs (h.pickle d c)
  | .merge n other => h.on n fun d _ => h.on other fun o _ =>
    h.changed n (mergeDs d o).1 (mergeDs d o).2
  | .rename n names => h.on n fun d _ =>
    (h.rename d names).1.changed n (h.rename d names).2.1 (h.rename d names).2.2
  | .dropVars n names => h.on n fun d _ => h.changed n (dropVars d names).1 (dropVars d names).2
  | .addVariable n m noneValue hand => h.on n fun d _ =>
    match hand with
    | none =>
      (h.addVariable d m noneValue none).1.changed n (h.addVariable d m noneValue none).2.1
        (h.addVariable d m noneValue none).2.2
    | some k =>
      match h.hands[k]? with
      | none => (h, .error .nameError)
      | some r =>
        (h.addVariable d m noneValue (some r)).1.changed n
          (h.addVariable d m noneValue (some r)).2.1 (h.addVariable d m noneValue (some r)).2.2
  | .fillAttrs n attrs m => h.on n fun d _ =>
    { h with vars := (fillLoop m d.vars h.vars).1 }.changed n { d with attrs }
      (fillLoop m d.vars h.vars).2
  | .copyProperties n other => h.on n fun d _ => h.on other fun o _ =>
    (h.setDs n { d with chunks := o.chunks, limit := o.limit }, .ok .unit)

/-- A program: the calls are made one after the other; the exceptions are caught. -/
def run (h : Heap V) : List (Call V) → Heap V
  | [] => h
  | c :: t => run (step h c).1 t

/-- No object. -/
def empty : Heap V := ⟨[], [], [], [], []⟩

end Verif.Sh
