import Verif.Model.Dataset
import Verif.Model.Batches

/-!
`Collection.update`, `map` and `map_overlap` (zcollection/collection/__init__.py,
collection/abc.py, collection/detail.py).

Simplifications: the content of a partition is the list of its variables (the files are in
Model/Storage, the chunks in Model/Chunks); the order of the variables of a loaded dataset,
which is the order of a Python set, is the order of storage; group attributes are not
modelled; the arrays returned by a callback are not masked.  Loading a partition that does
not exist raises `KeyError`.  `P` is the type of the paths of the partitions.
-/

namespace Verif.Upd

open Nd Ds

variable {P V : Type} [DecidableEq P]

/-- The variables stored in each partition. -/
abbrev Store (P V : Type) := P → Option (List (Var V))

/-- A dictionary of arrays. -/
abbrev Dict (V : Type) := List (String × Arr V)

/-- What the user gives: a function of the dataset and, when it takes `partition_info`, of
the slice that designates the partition. -/
abbrev Callback (V R : Type) := Dataset V → Option (Nat × Nat) → Py R

/-- storage.py:305-342 `open_zarr_group`, for the variables of a group. -/
def openGroup (delayed : Bool) (sel : Option (List String)) (vars : List (Var V)) :
    Py (Dataset V) :=
  mk ((vars.filter fun v => match sel with
      | none => true
      | some l => decide (v.name ∈ l)).map fun v => { v with delayed := delayed })
    [] [] 0 (some delayed)

/-- storage.py:326 opening the group of a partition. -/
def openPart (delayed : Bool) (sel : Option (List String)) (st : Store P V) (p : P) :
    Py (Dataset V) :=
  match st p with
  | none => .error .keyError
  | some vars => openGroup delayed sel vars

/-- `zds.merge(other)`, then `zds`. -/
def mergeInto (zds o : Dataset V) : Py (Dataset V) :=
  match Ds.merge zds o with
  | (r, .ok ()) => .ok r
  | (_, .error e) => .error e

/-- The arguments of an update: collection/detail.py:298-311; `imm` are the variables of the
immutable dataset, `parts` the selected partitions. -/
structure Cfg (P V : Type) where
  delayed : Bool
  imm : Option (List (Var V))
  sel : Option (List String)
  depth : Nat
  dim : String
  trim : Bool
  parts : List P

/-- collection/detail.py:146-173 `_load_dataset` -/
def loadDataset (c : Cfg P V) (st : Store P V) (p : P) : Py (Dataset V) := do
  let zds ← openPart c.delayed c.sel st p
  match c.imm with
  | none => .ok zds
  | some iv => do
    let o ← openGroup c.delayed c.sel iv
    mergeInto zds o

/-- collection/detail.py:219-225 the partitions of the window, in order:
`partitions.index(partition)`, then the indices from `where - depth` to `where + depth` that
are within bounds. -/
def window (parts : List P) (depth : Nat) (p : P) : Py (List P) :=
  match parts.idxOf? p with
  | none => .error .valueError
  | some w =>
    .ok ((List.range (2 * depth + 1)).filterMap fun k =>
      -- ix = w - depth + k
      if depth ≤ w + k then parts[w + k - depth]? else none)

/-- collection/detail.py:204-217 `calculate_slice`; a dataset without the dimension raises
`KeyError`. -/
def calcSlice (dim : String) (p : P) (start : Nat) (last : Nat × Nat) :
    List (Dataset V × P) → Py (Nat × Nat)
  | [] => .ok last
  | (zds, q) :: t =>
    match zds.dims.lookup dim with
    | none => .error .keyError
    | some size =>
      if p = q then .ok (start, start + size)
      else calcSlice dim p (start + size) (start, start + size) t

/-- collection/detail.py:240-242 `groups.pop(0)`, concatenated with the other groups if there
are some. -/
def joinGroups (dim : String) : List (Dataset V) → Py (Dataset V)
  | [] => .error .indexError
  | [zds] => .ok zds
  | zds :: o :: rest => concat zds (o :: rest) dim

/-- collection/detail.py:176-250 `_load_dataset_with_overlap`.  With an immutable dataset the
variables of the *partition* are merged (line 246). -/
def loadOverlap (c : Cfg P V) (st : Store P V) (p : P) : Py (Dataset V × (Nat × Nat)) := do
  let ps ← window c.parts c.depth p
  let groups ← mapPy (openPart c.delayed c.sel st) ps
  let indices ← calcSlice c.dim p 0 (0, 0) (groups.zip ps)
  let zds ← joinGroups c.dim groups
  match c.imm with
  | none => .ok (zds, indices)
  | some _ => do
    let o ← openPart c.delayed c.sel st p
    let zds ← mergeInto zds o
    .ok (zds, indices)

/-- collection/detail.py:41-55 `_get_slices` applied to an array (line 130-133). -/
def trimArray (zds : Dataset V) (dim : String) (ind : Nat × Nat) (name : String) (a : Arr V) :
    Py (Arr V) :=
  match getVar zds.vars name with
  | none => .error .keyError
  | some v =>
    match v.dims.idxOf? dim with
    | none => .error .valueError
    | some ax =>
      getitem 0 ((List.replicate v.dims.length (Ix.slice .all)).set ax
        (.slice ⟨some ind.1, some ind.2, none⟩)) a

/-- The arrays to write in a partition, each with its own possible failure: the callback is
called once (collection/detail.py:285-287, 344-353, 123-126). -/
def items (c : Cfg P V) (f : Callback V (Dict V)) (st : Store P V) (p : P) :
    Py (List (String × Py (Arr V))) :=
  if c.depth = 0 then do
    let zds ← loadDataset c st p
    let d ← f zds none
    .ok (d.map fun x => (x.1, .ok x.2))
  else do
    let (zds, ind) ← loadOverlap c st p
    let d ← f zds (some ind)
    .ok (d.map fun x => (x.1, if c.trim then trimArray zds c.dim ind x.1 x.2 else .ok x.2))

/-- storage.py:345-377 `update_zarr_array` for a variable of a partition: a variable that does
not exist cannot be opened, an array of another shape is refused. -/
def writeVar (vars : List (Var V)) (name : String) (a : Arr V) : Py (List (Var V)) :=
  match getVar vars name with
  | none => .error .valueError
  | some v =>
    if a.shape ≠ v.array.shape then .error .valueError
    else .ok (setVar vars { v with array := a })

/-- Replaces the content of one partition. -/
def setPart (st : Store P V) (p : P) (vars : List (Var V)) : Store P V :=
  fun q => if q = p then some vars else st q

/-- One call of `update_zarr_array` for a partition. -/
def writeItem (st : Store P V) (p : P) (x : String × Py (Arr V)) : Py (Store P V) := do
  let a ← x.2
  match st p with
  | none => .error .valueError
  | some vars => do
    let vars ← writeVar vars x.1 a
    .ok (setPart st p vars)

/-- collection/detail.py:288-293, 128-143: the writes, one after the other, up to the first
exception. -/
def writeAll (st : Store P V) (p : P) : List (String × Py (Arr V)) → Store P V × Py Unit
  | [] => (st, .ok ())
  | x :: t =>
    match writeItem st p x with
    | .error e => (st, .error e)
    | .ok st' => writeAll st' p t

/-- The writes when the callback returns dask arrays: storage.py:367-368 computes the array
when it is about to be written, which reads the stored variables at that moment.  `k` is the
number of the variable. -/
def writeLazy (c : Cfg P V) (f : Callback V (Dict V)) (p : P) (st : Store P V) :
    List Nat → Store P V × Py Unit
  | [] => (st, .ok ())
  | k :: t =>
    match items c f st p with
    | .error e => (st, .error e)
    | .ok l =>
      match l[k]? with
      | none => (st, .error .keyError)
      | some x =>
        match writeItem st p x with
        | .error e => (st, .error e)
        | .ok st' => writeLazy c f p st' t

/-- One round of the loop of `wrap_function` (collection/detail.py:282-293, 336-363).
`isLazy` tells whether the callback returns dask arrays. -/
def updatePart (c : Cfg P V) (f : Callback V (Dict V)) (isLazy : Bool) (st : Store P V) (p : P) :
    Store P V × Py Unit :=
  match items c f st p with
  | .error e => (st, .error e)
  | .ok l => if isLazy then writeLazy c f p st (List.range l.length) else writeAll st p l

/-- `wrap_function` for a list of partitions. -/
def updateParts (c : Cfg P V) (f : Callback V (Dict V)) (isLazy : Bool) (st : Store P V) :
    List P → Store P V × Py Unit
  | [] => (st, .ok ())
  | p :: t =>
    match updatePart c f isLazy st p with
    | (st', .error e) => (st', .error e)
    | (st', .ok ()) => updateParts c f isLazy st' t

/-- collection/__init__.py:77-105 `_infer_callable` and
collection/detail.py:58-93 `_try_infer_callable`: the names of the variables returned for the
first selected partition.  The immutable variables are not loaded.  `known` are the variables of the metadata. -/
def infer (c : Cfg P V) (f : Callback V (Dict V)) (known : List String) (st : Store P V) :
    Py (List String) :=
  match c.parts with
  | [] => .ok []
  | p :: _ => do
    let zds ← openPart c.delayed c.sel st p
    match zds.dims.lookup c.dim with
    | none => .error .keyError
    | some n =>
      match f zds (some (0, n)) with
      | .error _ => .error .runtimeError
      | .ok d =>
        if ∃ x ∈ d, x.1 ∉ known then .error .valueError else .ok (d.map (·.1))

/-- collection/__init__.py:478-585 `Collection.update`, the workers processing their batches
one after the other (see `Machine` for the other schedules).  `vars` is the argument
`variables`, `workers` the number of batches. -/
def update (c : Cfg P V) (depth : Int) (f : Callback V (Dict V)) (isLazy : Bool)
    (known vars : List String) (workers : Int) (st : Store P V) : Store P V × Py Unit :=
  match (if vars = [] then infer c f known st else .ok vars) with
  | .error e => (st, .error e)
  | .ok [] => (st, .ok ())
  | .ok (v :: vs) =>
    if depth < 0 then (st, .error .valueError)
    else
      let c := { c with
        depth := depth.toNat
        sel := if depth ≠ 0 then c.sel.map fun l => l ++ (v :: vs).filter (· ∉ l) else c.sel }
      match Batches.splitSequence c.parts (some workers) with
      | .error e => (st, .error e)
      | .ok bs => updateParts c f isLazy st bs.flatten

/-! ### The workers -/

/-- Where the processing of a partition is: the arrays still to write. -/
inductive Local (V : Type) where
  | idle
  | writing (l : List (String × Py (Arr V)))
  | done
  | failed

/-- The store and where each partition is. -/
structure Machine (P V : Type) where
  store : Store P V
  loc : P → Local V

/-- The next action for the partition `p`: load the data and call the callback, or write one
variable.  collection/__init__.py:579-584 the batches are processed by several workers, so
the actions for different partitions interleave. -/
def Machine.step (c : Cfg P V) (f : Callback V (Dict V)) (m : Machine P V) (p : P) :
    Machine P V :=
  let goto (l : Local V) : P → Local V := fun q => if q = p then l else m.loc q
  match m.loc p with
  | .idle =>
    match items c f m.store p with
    | .error _ => { m with loc := goto .failed }
    | .ok l => { m with loc := goto (.writing l) }
  | .writing [] => { m with loc := goto .done }
  | .writing (x :: t) =>
    match writeItem m.store p x with
    | .error _ => { m with loc := goto .failed }
    | .ok st => { store := st, loc := goto (.writing t) }
  | .done => m
  | .failed => m

/-- A run: the partitions in the order in which the workers act on them. -/
def Machine.run (c : Cfg P V) (f : Callback V (Dict V)) (m : Machine P V) (sched : List P) :
    Machine P V :=
  sched.foldl (Machine.step c f) m

/-- The start: nothing was done yet. -/
def Machine.start (st : Store P V) : Machine P V := { store := st, loc := fun _ => .idle }

/-! ### map -/

/-- collection/abc.py:369-444 `map`: the bag, in order.  `parse` is `partitioning.parse`. -/
def mapParts {K R : Type} (c : Cfg P V) (parse : P → Py K) (f : Callback V R) (st : Store P V) :
    Py (List (K × R)) :=
  mapPy (fun p => do
    let zds ← loadDataset c st p
    let k ← parse p
    let r ← f zds none
    .ok (k, r)) c.parts

/-- collection/abc.py:447-559 `map_overlap` -/
def mapOverlap {K R : Type} (c : Cfg P V) (parse : P → Py K) (f : Callback V R)
    (st : Store P V) : Py (List (K × R)) :=
  mapPy (fun p => do
    let (zds, ind) ← loadOverlap c st p
    let k ← parse p
    let r ← f zds (some ind)
    .ok (k, r)) c.parts

end Verif.Upd
