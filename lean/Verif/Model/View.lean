import Verif.Model.Update
import Verif.Model.Sort

/-!
Views: zcollection/view/__init__.py and zcollection/view/detail.py.

The directories of a view and of its reference hold partitions; a partition of the view holds
arrays and the array `.checksum`.

Simplifications: the directory of the view and the one of the reference are either the same
or disjoint; chunks are in Model/Chunks; the axis has one dimension; the kind of exception
raised when a handler cannot remove a directory that does not exist is not modelled.  `hash`
stands for the SHA-256 of the bytes of the axis.  Filters are predicates on partitions (their
evaluation is in Model/Expression).  `D` is the type of the directories, `P` of the relative
paths of the partitions.
-/

namespace Verif.Vw

open Nd Ds Upd

variable {D P V H : Type} [DecidableEq D] [DecidableEq P] [DecidableEq H]

/-- view/detail.py:64-78 `AxisReference`, also the content of the array `.checksum`
(view/detail.py:468-492). -/
structure AxisRef (V H : Type) where
  values : List V
  dim : String
  sum : H

/-- The content of the directory of a partition: its arrays and the array `.checksum`. -/
structure Part (V H : Type) where
  vars : List (Var V)
  check : Option (AxisRef V H)

/-- What does not change: the directories of the view and of the reference, the name of the
axis, the dimension of the partitioning (`partition_properties.dim`), the metadata of the
reference, the hash function, the equality of numpy, and what an array without fill value
holds when it was not written. -/
structure Env (D V H : Type) where
  base : D
  refDir : D
  axis : String
  dim : String
  refMeta : List (VarMeta V)
  hash : List V → H
  eqv : V → V → Bool
  undef : List Nat → V

/-- The directories. -/
abbrev Files (D P V H : Type) := D → P → Option (Part V H)

/-- The directories, the metadata of the view in memory and those of the file `.view`. -/
structure State (D P V H : Type) where
  files : Files D P V H
  metas : List (VarMeta V)
  saved : List (VarMeta V)

/-- Replaces or removes the content of a partition. -/
def put (fs : Files D P V H) (d : D) (p : P) (c : Option (Part V H)) : Files D P V H :=
  fun d' p' => if d' = d ∧ p' = p then c else fs d' p'

/-- The values of an array of one dimension (view/detail.py:463, 653). -/
def axisValues (a : Arr V) : Py (List V) :=
  match a.shape with
  | [n] => mapPy (fun (i : Nat) => match a.get [i] with
      | none => .error .indexError
      | some v => .ok v) (List.range n)
  | _ => .error .valueError

/-- view/detail.py:442-465 `_calculate_axis_reference`; a partition that does not exist or has
no axis raises `KeyError`. -/
def axisRef (e : Env D V H) (ref : Option (Part V H)) : Py (AxisRef V H) :=
  match ref with
  | none => .error .keyError
  | some r =>
    match getVar r.vars e.axis with
    | none => .error .keyError
    | some v => do
      let values ← axisValues v.array
      match v.dims with
      | [] => .error .indexError
      | dim :: _ => .ok { values, dim, sum := e.hash values }

/-- What an array holds where nothing was written (view/detail.py:109-116 `zarr.full`). -/
def blank (e : Env D V H) (fill : Option V) (idx : List Nat) : V :=
  match fill with
  | some f => f
  | none => e.undef idx

/-- meta.py:375-393 `search_same_dimensions_as` -/
def template (e : Env D V H) (m : VarMeta V) : Py String :=
  match e.refMeta.find? fun t => decide (t.dims = m.dims) with
  | none => .error .valueError
  | some t => .ok t.name

/-- view/detail.py:81-119 `_create_zarr_array`: an array of the shape of the template that
replaces an array of the same name. -/
def createArray (e : Env D V H) (group : List (Var V)) (tmpl : String) (m : VarMeta V)
    (part : Part V H) : Py (Part V H) :=
  match getVar group tmpl with
  | none => .error .keyError
  | some t =>
    let v : Var V := { name := m.name, delayed := false, dims := m.dims,
                       array := tabulate t.array.shape (blank e m.fill), fill := m.fill,
                       props := m.props }
    .ok { part with vars := setVar part.vars v }

/-- view/detail.py:560-568 the variables of a partition. -/
def createAll (e : Env D V H) (group : List (Var V)) : List (VarMeta V) → Part V H →
    Py (Part V H)
  | [], part => .ok part
  | m :: t, part => do
    let tmpl ← template e m
    let part ← createArray e group tmpl m part
    createAll e group t part

/-- view/detail.py:468-492 `_write_checksum_array`: zarr refuses to write in an existing array
of another size. -/
def writeCheck (part : Part V H) (a : AxisRef V H) : Py (Part V H) :=
  match part.check with
  | none => .ok { part with check := some a }
  | some c =>
    if c.values.length = a.values.length then
      .ok { part with check := some { values := a.values, dim := c.dim, sum := a.sum } }
    else .error .valueError

/-- view/detail.py:538-575 `_sync_partition`, for a partition of the view that does not exist
or was just removed: the content afterwards and the outcome.  If it fails the directory is
removed. -/
def syncPartition (e : Env D V H) (metas : List (VarMeta V)) (ref : Option (Part V H)) :
    Option (Part V H) × Py Unit :=
  match ref with
  | none => (none, .error .keyError)
  | some r =>
    match (do
      let part ← createAll e r.vars metas { vars := [], check := none }
      let a ← axisRef e ref
      writeCheck part a) with
    | .error err => (none, .error err)
    | .ok part => (some part, .ok ())

/-- zarr `array.resize` at the axis `ax`: the values within the new bounds are kept, the new
ones are not written (see Model/Chunks). -/
def resize (e : Env D V H) (ax n : Nat) (v : Var V) : Var V :=
  { v with array := tabulate (v.array.shape.set ax n) fun idx =>
      match v.array.get idx with
      | some x => x
      | none => blank e v.fill idx }

/-- view/detail.py:593-601 one array of the partition; an array with fewer axes than
dimensions raises `IndexError`. -/
def extendVar (e : Env D V H) (a : AxisRef V H) (v : Var V) : Py (Var V) :=
  match v.dims.idxOf? a.dim with
  | none => .ok v
  | some ax =>
    if ax < v.array.shape.length then .ok (resize e ax a.values.length v)
    else .error .indexError

/-- view/detail.py:593-601 for the array `.checksum`, whose dimension is a string.
Simplification: `axis_name in dimensions`, which looks for a part of the string, is an
equality. -/
def extendCheck (undef : List V → Nat → List V) (a c : AxisRef V H) : AxisRef V H :=
  if c.dim = a.dim then { c with values := undef c.values a.values.length } else c

/-- The `n` first values of an array, followed by anything. -/
def resized (e : Env D V H) (l : List V) (n : Nat) : List V :=
  (l ++ (List.range (n - l.length)).map fun (i : Nat) => e.undef [i]).take n

/-- view/detail.py:578-608 `_extend_partition`; if it fails the partition is removed. -/
def extendPartition (e : Env D V H) (part : Part V H) (a : AxisRef V H) :
    Option (Part V H) × Py Unit :=
  match (do
    let vars ← mapPy (extendVar e a) part.vars
    writeCheck { vars, check := part.check.map (extendCheck (resized e) a) } a) with
  | .error err => (none, .error err)
  | .ok part => (some part, .ok ())

/-- view/detail.py:654-655: the axis of the view is the beginning of the axis of the
reference. -/
def startsWith (e : Env D V H) (view ref : List V) : Bool :=
  decide (view.length < ref.length) &&
    (List.zipWith e.eqv view (ref.take view.length)).all id

/-- view/detail.py:611-668 `_sync` for one partition, given what the view (`cur`) and the
reference hold: the new content, and whether the partition was (or, for a dry run, is) to
synchronise. -/
def syncOne (e : Env D V H) (dry : Bool) (metas : List (VarMeta V))
    (ref cur : Option (Part V H)) : Option (Part V H) × Py Bool :=
  match cur with
  | none =>
    if dry then (none, .ok true)
    else
      match syncPartition e metas ref with
      | (c, .ok ()) => (c, .ok true)
      | (c, .error err) => (c, .error err)
  | some part =>
    match part.check with
    | none => (cur, .error .valueError)
    | some c =>
      match axisRef e ref with
      | .error err => (cur, .error err)
      | .ok a =>
        if a.sum ≠ c.sum then
          if startsWith e c.values a.values then
            if dry then (cur, .ok true)
            else
              match extendPartition e part a with
              | (c, .ok ()) => (c, .ok true)
              | (c, .error err) => (c, .error err)
          else if dry then (cur, .ok true)
          else
            match syncPartition e metas ref with
            | (c, .ok ()) => (c, .ok true)
            | (c, .error err) => (c, .error err)
        else (cur, .ok false)

/-- storage.py:47-82 `execute_transaction` of one task for each partition: the tasks are all
executed, then the first exception is raised.  A task reads the reference and changes the
partition of the view. -/
def runTasks {α : Type} (e : Env D V H)
    (f : Option (Part V H) → Option (Part V H) → Option (Part V H) × Py α)
    (fs : Files D P V H) : List P → Files D P V H × Py (List (P × α))
  | [] => (fs, .ok [])
  | p :: t =>
    let r := f (fs e.refDir p) (fs e.base p)
    let rest := runTasks e f (put fs e.base p r.1) t
    match r.2, rest.2 with
    | .error err, _ => (rest.1, .error err)
    | .ok _, .error err => (rest.1, .error err)
    | .ok x, .ok xs => (rest.1, .ok ((p, x) :: xs))

/-- view/detail.py:513-535 `_write_checksum`, for a partition that does not exist. -/
def writeChecksum (e : Env D V H) (ref cur : Option (Part V H)) :
    Option (Part V H) × Py Unit :=
  match axisRef e ref with
  | .error err => (cur, .error err)
  | .ok a => (some { vars := [], check := some a }, .ok ())

/-- view/__init__.py:106-127 `_init_partitions`; `listing` are the partitions of the
reference. -/
def initPartitions (e : Env D V H) (listing : List P) (filters : P → Bool)
    (fs : Files D P V H) : Files D P V H × Py Unit :=
  match runTasks e (writeChecksum e) fs
      ((listing.filter filters).filter fun p => (fs e.base p).isNone) with
  | (fs', .ok _) => (fs', .ok ())
  | (fs', .error err) => (fs', .error err)

/-- view/__init__.py:98-104 creation of a view. -/
def create (e : Env D V H) (listing : List P) (filters : Option (P → Bool))
    (fs : Files D P V H) : State D P V H × Py Unit :=
  match initPartitions e listing (match filters with | none => fun _ => true | some f => f) fs with
  | (fs', r) => ({ files := fs', metas := [], saved := [] }, r)

/-- view/__init__.py:755-806 `View.sync`: the partitions that were synchronised.  Without
partition in the reference, `execute_transaction` returns `None`, which cannot be filtered
(`TypeError`, line 804). -/
def sync (e : Env D V H) (listing : List P) (filters : Option (P → Bool))
    (st : State D P V H) : State D P V H × Py (List P) :=
  let init : State D P V H × Py Unit :=
    match filters with
    | none => (st, .ok ())
    | some f =>
      match initPartitions e listing f st.files with
      | (fs, r) => ({ files := fs, metas := st.metas, saved := st.metas }, r)
  match init with
  | (st, .error err) => (st, .error err)
  | (st, .ok ()) =>
    if listing = [] then (st, .error .typeError)
    else
      match runTasks e (syncOne e false st.metas) st.files listing with
      | (fs, .error err) => ({ st with files := fs }, .error err)
      | (fs, .ok l) => ({ st with files := fs }, .ok ((l.filter (·.2)).map (·.1)))

/-- view/__init__.py:733-753 `View.is_synced` -/
def isSynced (e : Env D V H) (listing : List P) (st : State D P V H) :
    State D P V H × Py Bool :=
  if listing = [] then (st, .error .typeError)
  else
    match runTasks e (syncOne e true st.metas) st.files listing with
    | (fs, .error err) => ({ st with files := fs }, .error err)
    | (fs, .ok l) => ({ st with files := fs }, .ok ((l.filter (·.2)).isEmpty))

/-- view/__init__.py:198-213 `View.partitions` -/
def partitions (e : Env D V H) (listing : List P) (filters : P → Bool)
    (fs : Files D P V H) : List P :=
  (listing.filter filters).filter fun p => (fs e.base p).isSome

/-- view/detail.py:81-119 `_create_zarr_array` as a task of `add_variable`. -/
def addTask (e : Env D V H) (tmpl : String) (m : VarMeta V) (ref cur : Option (Part V H)) :
    Option (Part V H) × Py Unit :=
  match ref, cur with
  | some r, some part =>
    match createArray e r.vars tmpl m part with
    | .error err => (cur, .error err)
    | .ok part => (some part, .ok ())
  | _, _ => (cur, .error .keyError)

/-- view/detail.py:122-143 `_drop_zarr_zarr` -/
def dropTask (name : String) (ignoreErrors : Bool) (cur : Option (Part V H)) :
    Option (Part V H) × Py Unit :=
  match cur with
  | none => (none, if ignoreErrors then .ok () else .error .osError)
  | some part =>
    if (getVar part.vars name).isSome then
      (some { part with vars := part.vars.filter fun v => decide (v.name ≠ name) }, .ok ())
    else (cur, if ignoreErrors then .ok () else .error .osError)

/-- view/__init__.py:231-302 `View.add_variable`.  `dims` are the dimensions of the
metadata, checked by `meta.Dataset.add_variable` (meta.py:328-352). -/
def addVariable (e : Env D V H) (listing : List P) (dims : List String) (m : VarMeta V)
    (st : State D P V H) : State D P V H × Py Unit :=
  if m.name ∈ e.refMeta.map (·.name) ∨ m.name ∈ st.metas.map (·.name) then
    (st, .error .valueError)
  else if ∃ d ∈ m.dims, d ∉ dims then (st, .error .valueError)
  else
    let st := { st with metas := st.metas ++ [m] }
    match template e m with
    | .error err => (st, .error err)
    | .ok tmpl =>
      let existing := partitions e listing (fun _ => true) st.files
      if existing = [] then (st, .ok ())
      else
        match runTasks e (addTask e tmpl m) st.files existing with
        | (fs, .ok _) => ({ st with files := fs, saved := st.metas }, .ok ())
        | (fs, .error err) =>
          let fs := (runTasks e (fun _ cur => dropTask m.name true cur) fs
            (partitions e listing (fun _ => true) fs)).1
          ({ st with files := fs }, .error err)

/-- view/detail.py:231-243 `_assert_variable_handled` -/
def handled (e : Env D V H) (metas : List (VarMeta V)) (name : String) : Py Unit :=
  if name ∈ e.refMeta.map (·.name) then .error .valueError
  else if name ∉ metas.map (·.name) then .error .valueError
  else .ok ()

/-- view/__init__.py:305-334 `View.drop_variable` -/
def dropVariable (e : Env D V H) (listing : List P) (name : String) (st : State D P V H) :
    State D P V H × Py Unit :=
  match handled e st.metas name with
  | .error err => (st, .error err)
  | .ok () =>
    let metas := st.metas.filter fun m => decide (m.name ≠ name)
    let st := { st with metas := metas, saved := metas }
    match runTasks e (fun _ cur => dropTask name false cur) st.files
        (partitions e listing (fun _ => true) st.files) with
    | (fs, .ok _) => ({ st with files := fs }, .ok ())
    | (fs, .error err) => ({ st with files := fs }, .error err)

/-! ### Loading -/

/-- meta.py:276-297 `select_variables(keep_variables)`, in the order of the metadata. -/
def selectNames (metas : List (VarMeta V)) (sel : Option (List String)) : List String :=
  (metas.map (·.name)).filter fun n => match sel with
    | none => true
    | some l => decide (n ∈ l)

/-- view/detail.py:190-198, 208-215 opening an array of the view. -/
def openArray (delayed : Bool) (part : Option (Part V H)) (name : String) : Py (Var V) :=
  match part with
  | none => .error .keyError
  | some part => do
    let v ← getVarE part.vars name
    .ok { v with delayed := delayed }

/-- `zds.add_variable(item.metadata(), item.array)` (view/detail.py:203-216). -/
def addArray (zds : Dataset V) (v : Var V) : Py (Dataset V) :=
  match Ds.addVariable zds { name := v.name, dims := v.dims, fill := v.fill, props := v.props }
      (.error .typeError) (some v.array) with
  | (zds, .ok ()) => .ok zds
  | (_, .error err) => .error err

/-- All the variables of the view. -/
def addArrays (zds : Dataset V) : List (Var V) → Py (Dataset V)
  | [] => .ok zds
  | v :: t => do
    let zds ← addArray zds v
    addArrays zds t

/-- view/detail.py:146-228 `_load_one_dataset`.  Simplification: a slice is given by its
bounds, without step. -/
def loadOne (e : Env D V H) (delayed : Bool) (refSel names : List String)
    (ref cur : Option (Part V H)) (slices : List (Nat × Nat)) : Py (Dataset V) :=
  match ref with
  | none => .error .keyError
  | some r => do
    let zds ← openGroup delayed (some refSel) r.vars
    if zds.dims = [] then do
      let vars ← mapPy (openArray delayed cur) names
      mk vars [] [] 0 none
    else do
      let vars ← mapPy (openArray delayed cur) names
      let zds ← addArrays zds vars
      if slices = [] then .ok zds
      else do
        let l ← mapPy (fun s => isel zds [(e.dim, .slice ⟨some (s.1 : Int), some (s.2 : Int),
          none⟩)]) slices
        joinGroups e.dim l

/-- collection/abc.py:91-127 `build_indexer_args`: the partitions of the indexer that are among
`parts`, in order, with their slices.  `le` is the order of the keys; the keys of a partition
and its path are identified. -/
def indexerArgs (le : P → P → Bool) (indexer : List (P × (Nat × Nat))) (parts : List P) :
    List (P × List (Nat × Nat)) :=
  (Sort.isort le (parts.filter fun p => indexer.any fun x => decide (x.1 = p)).eraseDups).map
    fun p => (p, (indexer.filter fun x => decide (x.1 = p)).map (·.2))

/-- view/__init__.py:366-402 `View.load` up to the attributes.  With an indexer,
`partitions=self.partitions()` is given to `build_indexer_args`, which does not use the filters
(collection/abc.py:119). -/
def loadBare (e : Env D V H) (le : P → P → Bool) (listing : List P) (delayed : Bool)
    (filters : P → Bool) (indexer : Option (List (P × (Nat × Nat))))
    (sel : Option (List String)) (st : State D P V H) : Py (Option (Dataset V)) :=
  if st.metas = [] then .error .valueError
  else
    let args := match indexer with
      | some ix => indexerArgs le ix (partitions e listing (fun _ => true) st.files)
      | none => (partitions e listing filters st.files).map fun p => (p, [])
    match mapPy (fun (x : P × List (Nat × Nat)) =>
        loadOne e delayed (selectNames e.refMeta sel) (selectNames st.metas sel)
          (st.files e.refDir x.1) (st.files e.base x.1) x.2) args with
    | .error err => .error err
    | .ok [] => .ok none
    | .ok (zds :: rest) => do
      let zds ← joinGroups e.dim (zds :: rest)
      .ok (some zds)

/-- view/__init__.py:336-407 `View.load`.  The metadata given to `fill_attrs` is a copy of the
one of the reference updated with the one of the view (lines 403-405). -/
def load (e : Env D V H) (le : P → P → Bool) (listing : List P) (delayed : Bool)
    (filters : P → Bool) (indexer : Option (List (P × (Nat × Nat))))
    (sel : Option (List String)) (st : State D P V H) : Py (Option (Dataset V)) :=
  filled ((e.refMeta ++ st.metas).map (·.name))
    (loadBare e le listing delayed filters indexer sel st)

/-! ### Updating -/

/-- The arguments of `View.update` (view/__init__.py:409-421); `workers` is the number of
batches (lines 523-525).  `isLazy` tells whether the callback returns dask arrays. -/
structure How where
  delayed : Bool
  isLazy : Bool
  depth : Int
  trim : Bool
  workers : Int

/-- view/detail.py:246-286 `_load_datasets_list`: the datasets with the paths of their
partitions. -/
def loadList (e : Env D V H) (delayed : Bool) (sel : Option (List String))
    (metas : List (VarMeta V)) (parts : List P) (fs : Files D P V H) :
    Py (List (Dataset V × P)) :=
  mapPy (fun p => do
    let zds ← loadOne e delayed (selectNames e.refMeta sel) (selectNames metas sel)
      (fs e.refDir p) (fs e.base p) []
    .ok (zds, p)) parts

/-- view/detail.py:299-347 `_select_overlap`.  `next` on an exhausted generator, which the
task reports as `RuntimeError`, is not reached: the partition is in the list. -/
def selectOverlap (e : Env D V H) (depth : Nat) (dsl : List (Dataset V × P)) (p : P) :
    Py (Dataset V × (Nat × Nat)) :=
  match (dsl.map (·.2)).idxOf? p with
  | none => .error .runtimeError
  | some w =>
    match ((List.range (2 * depth + 1)).filterMap fun k =>
        -- ix = w - depth + k
        if depth ≤ w + k then dsl[w + k - depth]? else none) with
    | [] => .error .indexError
    | x :: rest => do
      let zds ← concat x.1 (rest.map (·.1)) e.dim
      let ind ← calcSlice e.dim p 0 (0, 0) (x :: rest)
      .ok (zds, ind)

/-- The arrays to write in a partition, each with its own possible failure: the callback is
called once (view/detail.py:372-374, 419-434, collection/detail.py:123-143). -/
def callItems (e : Env D V H) (how : How) (f : Callback V (Dict V)) (dsl : List (Dataset V × P))
    (p : P) : Py (List (String × Py (Arr V))) :=
  if how.depth = 0 then
    match dsl.find? fun x => decide (x.2 = p) with
    | none => .error .keyError
    | some x => do
      let d ← f x.1 none
      .ok (d.map fun y => (y.1, .ok y.2))
  else do
    let (zds, ind) ← selectOverlap e how.depth.toNat dsl p
    let d ← f zds (some ind)
    .ok (d.map fun y => (y.1, if how.trim then trimArray zds e.dim ind y.1 y.2 else .ok y.2))

/-- One call of `update_zarr_array` for a partition of the view (view/detail.py:375-380,
collection/detail.py:128-143). -/
def writeOne (e : Env D V H) (fs : Files D P V H) (p : P) (x : String × Py (Arr V)) :
    Py (Files D P V H) := do
  let a ← x.2
  match fs e.base p with
  | none => .error .valueError
  | some part => do
    let vars ← writeVar part.vars x.1 a
    .ok (put fs e.base p (some { part with vars }))

/-- The writes, one after the other, up to the first exception. -/
def writeItems (e : Env D V H) (fs : Files D P V H) (p : P) :
    List (String × Py (Arr V)) → Files D P V H × Py Unit
  | [] => (fs, .ok ())
  | x :: t =>
    match writeOne e fs p x with
    | .error err => (fs, .error err)
    | .ok fs => writeItems e fs p t

/-- The writes when the datasets are delayed and the callback returns dask arrays: an array is
computed when it is about to be written (storage.py:367-368), from what the files hold at that
moment.  `k` is the number of the variable. -/
def writeDelayed (e : Env D V H) (how : How) (f : Callback V (Dict V))
    (now : Files D P V H → Py (List (Dataset V × P))) (p : P) (fs : Files D P V H) :
    List Nat → Files D P V H × Py Unit
  | [] => (fs, .ok ())
  | k :: t =>
    match (do
      let dsl ← now fs
      let l ← callItems e how f dsl p
      match l[k]? with
      | none => .error .keyError
      | some x => writeOne e fs p x) with
    | .error err => (fs, .error err)
    | .ok fs => writeDelayed e how f now p fs t

/-- One round of the loops of view/detail.py:372-380 and 419-434.  `now` gives the datasets:
those loaded at the beginning, or, if they are delayed, what the files hold. -/
def updateOne (e : Env D V H) (how : How) (f : Callback V (Dict V))
    (now : Files D P V H → Py (List (Dataset V × P))) (fs : Files D P V H) (p : P) :
    Files D P V H × Py Unit :=
  match (do
    let dsl ← now fs
    callItems e how f dsl p) with
  | .error err => (fs, .error err)
  | .ok l =>
    if how.delayed && how.isLazy then writeDelayed e how f now p fs (List.range l.length)
    else writeItems e fs p l

/-- view/detail.py:369-380, 409-437 `wrap_function`: one batch, up to the first exception. -/
def updateBatch (e : Env D V H) (how : How) (f : Callback V (Dict V))
    (now : Files D P V H → Py (List (Dataset V × P))) (fs : Files D P V H) :
    List P → Files D P V H × Py Unit
  | [] => (fs, .ok ())
  | p :: t =>
    match updateOne e how f now fs p with
    | (fs, .error err) => (fs, .error err)
    | (fs, .ok ()) => updateBatch e how f now fs t

/-- The batches (view/__init__.py:526-531), one after the other: the failure of one does not
stop the others, then the first exception is raised (storage.py:47-82). -/
def updateBatches (e : Env D V H) (how : How) (f : Callback V (Dict V))
    (now : Files D P V H → Py (List (Dataset V × P))) (fs : Files D P V H) :
    List (List P) → Files D P V H × Py Unit
  | [] => (fs, .ok ())
  | b :: t =>
    match updateBatch e how f now fs b with
    | (fs, .error err) => ((updateBatches e how f now fs t).1, .error err)
    | (fs, .ok ()) => updateBatches e how f now fs t

/-- view/__init__.py:502-508, view/detail.py:406-407: the checks made when there is an
overlap; `names` are the variables returned for the first dataset. -/
def checkDepth (how : How) (sel : Option (List String)) (names : List String) : Py Unit :=
  if how.depth = 0 then .ok ()
  else if ∃ l, sel = some l ∧ ∀ n ∈ names, n ∉ l then .error .valueError
  else if how.depth < 0 then .error .valueError
  else .ok ()

/-- view/__init__.py:409-535 `View.update`, the batches one after the other.  The names
returned for the first dataset are checked (lines 487-494). -/
def update (e : Env D V H) (how : How) (listing : List P) (filters : P → Bool)
    (sel : Option (List String)) (f : Callback V (Dict V)) (st : State D P V H) :
    State D P V H × Py Unit :=
  if st.metas = [] then (st, .error .valueError)
  else
    let parts := partitions e listing filters st.files
    match loadList e how.delayed sel st.metas parts st.files with
    | .error err => (st, .error err)
    | .ok [] => (st, .ok ())
    | .ok (x :: rest) =>
      match x.1.dims.lookup e.dim with
      | none => (st, .error .keyError)
      | some n =>
        match f x.1 (some (0, n)) with
        | .error _ => (st, .error .runtimeError)
        | .ok d =>
          match mapPy (fun y => handled e st.metas y.1) d with
          | .error err => (st, .error err)
          | .ok _ =>
            match checkDepth how sel (d.map (·.1)) with
            | .error err => (st, .error err)
            | .ok () =>
              match Batches.splitSequence parts (some how.workers) with
              | .error err => (st, .error err)
              | .ok bs =>
                let now : Files D P V H → Py (List (Dataset V × P)) := fun fs =>
                  if how.delayed then loadList e true sel st.metas parts fs else .ok (x :: rest)
                match updateBatches e how f now st.files bs with
                | (fs, r) => ({ st with files := fs }, r)

/-! ### map -/

/-- view/__init__.py:539-622 `View.map`: the bag, in order.  `parse` is
`partitioning.parse`. -/
def mapView {K R : Type} (e : Env D V H) (delayed : Bool) (listing : List P)
    (filters : P → Bool) (sel : Option (List String)) (parse : P → Py K) (f : Callback V R)
    (st : State D P V H) : Py (List (K × R)) :=
  if st.metas = [] then .error .valueError
  else do
    let dsl ← loadList e delayed sel st.metas (partitions e listing filters st.files) st.files
    mapPy (fun (x : Dataset V × P) => do
      let k ← parse x.2
      let r ← f x.1 none
      .ok (k, r)) dsl

/-- view/__init__.py:624-731 `View.map_overlap` -/
def mapViewOverlap {K R : Type} (e : Env D V H) (delayed : Bool) (depth : Int)
    (listing : List P) (filters : P → Bool) (sel : Option (List String)) (parse : P → Py K)
    (f : Callback V R) (st : State D P V H) : Py (List (K × R)) :=
  if depth < 0 then .error .valueError
  else if st.metas = [] then .error .valueError
  else do
    let dsl ← loadList e delayed sel st.metas (partitions e listing filters st.files) st.files
    mapPy (fun (x : Dataset V × P) => do
      let (zds, ind) ← selectOverlap e depth.toNat dsl x.2
      let k ← parse x.2
      let r ← f zds (some ind)
      .ok (k, r)) dsl

end Verif.Vw
