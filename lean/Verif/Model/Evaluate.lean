import Verif.Model.Variable

/-!
The evaluation of delayed variables and datasets: `persist`, `rechunk`, `compute` and `to_dict`
(zcollection/dataset.py, variable/delayed_array.py).

The behaviour of dask (`persist`, `compute`, `map_blocks`, `rechunk`) and of zarr is a trusted
reading of their documentation.

Simplifications: a dask array is the array it computes, with the sizes of its blocks and the kind
of its blocks (plain, masked or compressed); when a method raises, what it did to the variables
before is not modelled; the class of the object that holds the computed values is not modelled
(`values` of one compressed block is a `CompressedArray`).
-/

namespace Verif.Ev

open Nd Ds Vr

variable {V : Type}

/-- What the libraries know: numpy about values, `conv f` the fill value of a masked array that
was given `f` (converted to the type of the elements), the equality of zarr and the size of the
chunks that it chooses for a shape. -/
structure Lib (V : Type) where
  num : Num V
  conv : V → V
  same : V → V → Bool
  guess : List Nat → List Nat

/-- The attribute `array` of a `DelayedArray`: a dask array whose blocks are plain arrays, masked
arrays (the data, the mask and the fill value) or compressed arrays (their fill value, and for
each index the block that holds it and the index within the block), or a tuple that holds a dask
array. -/
inductive Body (V : Type) where
  | plain (a : Arr V)
  | masked (a : Arr V) (mask : List Nat → Bool) (fill : V)
  | compressed (shape : List Nat) (fill : Option V)
      (part : List Nat → Option (Chunk.CArray V × List Nat))
  | tuple (b : Body V)

/-- variable/delayed_array.py:136-173 `DelayedArray`; `grid` is the list of the sizes of the
blocks along each dimension (`array.chunks`). -/
structure LVar (V : Type) where
  name : String
  dims : List String
  body : Body V
  grid : List (List Nat)
  fill : Option V
  props : Nat

/-- dataset.py:190-258 a `Dataset` of delayed variables. -/
structure LDataset (V : Type) where
  dims : List (String × Nat)
  vars : List (LVar V)
  attrs : List (String × String)
  chunks : List (String × Nat)
  limit : Nat

/-- A delayed dataset whose variables hold plain arrays cut into the given blocks. -/
def ofDataset (grid : String → List (List Nat)) (ds : Dataset V) : LDataset V where
  dims := ds.dims
  vars := ds.vars.map fun v =>
    { name := v.name, dims := v.dims, body := .plain v.array, grid := grid v.name,
      fill := v.fill, props := v.props }
  attrs := ds.attrs
  chunks := ds.chunks
  limit := ds.limit

/-- The data of the compressed blocks. -/
def content (shape : List Nat) (part : List Nat → Option (Chunk.CArray V × List Nat)) : Arr V where
  shape := shape
  get idx := (part idx).bind fun p => (Chunk.readEager p.1.array).get p.2

/-- The data, without mask. -/
def Body.raw : Body V → Arr V
  | .plain a => a
  | .masked a _ _ => a
  | .compressed shape _ part => content shape part
  | .tuple b =>
    { shape := 1 :: b.raw.shape
      get := fun idx => match idx with | 0 :: t => b.raw.get t | _ => none }

/-- variable/abc.py:349-352 `Variable.shape`; a tuple has no attribute `shape`. -/
def Body.shape : Body V → Py (List Nat)
  | .tuple _ => .error .attributeError
  | b => .ok b.raw.shape

/-- The elements that are masked when the array is computed. -/
def Body.hidden (eqv : V → V → Bool) : Body V → List Nat → Bool
  | .plain _, _ => false
  | .masked _ mask _, idx => mask idx
  | .compressed _ _ part, idx =>
    match part idx with
    | none => false
    | some p => match p.1.get eqv p.2 with
      | some none => true
      | _ => false
  | .tuple b, idx => match idx with | 0 :: t => b.hidden eqv t | _ => false

/-- `numpy.ma.masked_equal(array, f)`: masked, or equal to `f`. -/
def Body.equalMask (eqv : V → V → Bool) (b : Body V) (f : V) (idx : List Nat) : Bool :=
  b.hidden eqv idx || (match b.raw.get idx with | some x => eqv x f | none => false)

/-- variable/delayed_array.py:244-265 `DelayedArray.compute`, and `values` (198-211). -/
def LVar.values (lib : Lib V) (v : LVar V) : Arr (Option V) where
  shape := v.body.raw.shape
  get idx := (v.body.raw.get idx).map fun x =>
    if (match v.fill with
      | none => v.body.hidden lib.num.eqv idx
      | some f => v.body.equalMask lib.num.eqv f idx) then none else some x

/-- variable/delayed_array.py:175-195 `DelayedArray.data`. -/
def LVar.data (lib : Lib V) (v : LVar V) : Py (Body V) :=
  match v.fill with
  | none => .ok v.body
  | some f =>
    match v.body with
    | .masked a mask g => .ok (.masked a mask g)
    | .tuple _ => .error .attributeError
    | b => .ok (.masked b.raw (b.equalMask lib.num.eqv f) (lib.conv f))

/-- The block of a dimension that holds a position: its start, its size, and the position within
the block. -/
def blockAt (start : Nat) : List Nat → Nat → Option (Nat × Nat × Nat)
  | [], _ => none
  | b :: t, i => if i < b then some (start, b, i) else blockAt (start + b) t (i - b)

/-- The block that holds an index: its first index, its shape, and the index within the block. -/
def locate : List (List Nat) → List Nat → Option (List Nat × List Nat × List Nat)
  | [], [] => some ([], [], [])
  | b :: bs, i :: idx =>
    match blockAt 0 b i, locate bs idx with
    | some (s, n, k), some (ss, ns, ks) => some (s :: ss, n :: ns, k :: ks)
    | _, _ => none
  | _, _ => none

/-- One block of an array. -/
def blockOf (a : Arr V) (start shape : List Nat) : Arr V where
  shape := shape
  get k := if inBounds k shape then a.get (List.zipWith (· + ·) start k) else none

/-- compressed_array.py:44-62 `CompressedArray(block, fill_value=fill)`: a masked array is
stored without its mask. -/
def compressBlock (lib : Lib V) (fill : Option V) (a : Arr V) : Chunk.CArray V where
  array := Chunk.zarrArray lib.same a (lib.guess a.shape) fill
  fill := fill

/-- dataset.py:651-654 `var.array.map_blocks(CompressedArray, fill_value=var.fill_value)`; a
compressed block is kept as it is. -/
def compress (lib : Lib V) (v : LVar V) : Py (LVar V) :=
  match v.body with
  | .tuple _ => .error .attributeError
  | .compressed _ _ _ => .ok v
  | b => .ok { v with
      body := .compressed b.raw.shape v.fill fun idx =>
        (locate v.grid idx).map fun p =>
          (compressBlock lib v.fill (blockOf b.raw p.1 p.2.1), p.2.2) }

/-- dataset.py:633-661 `Dataset.persist` of delayed variables. -/
def persist (lib : Lib V) (compressed : Bool) (ds : LDataset V) : Py (LDataset V) := do
  let vars ← if compressed then mapPy (compress lib) ds.vars else .ok ds.vars
  let vars ← mapPy (fun v => do
    let b ← v.data lib
    .ok { v with body := b }) vars
  .ok { ds with vars }

/-- variable/delayed_array.py:231-242 `DelayedArray.persist`: `dask.base.persist` returns a
tuple. -/
def LVar.persist (v : LVar V) : LVar V := { v with body := .tuple v.body }

/-- `ds.variables[name].persist()`. -/
def persistVar (name : String) (ds : LDataset V) : Py (LDataset V) :=
  if ∃ v ∈ ds.vars, v.name = name then
    .ok { ds with vars := ds.vars.map fun v => if v.name = name then v.persist else v }
  else .error .keyError

/-- variable/delayed_array.py:345-364 `DelayedArray.rechunk`, with the sizes that dask derives
from the arguments.  The blocks of a compressed array are read; those that are not cut stay
compressed, which is not modelled. -/
def LVar.rechunk (v : LVar V) (specs : List Chunk.ChunkSpec) : Py (LVar V) :=
  match v.body with
  | .tuple _ => .error .attributeError
  | .compressed shape _ part => do
    let grid ← Chunk.rechunk shape specs
    .ok { v with body := .plain (content shape part), grid }
  | b => do
    let grid ← Chunk.rechunk b.raw.shape specs
    .ok { v with grid }

/-- The variable as seen by the constructor of a dataset, which needs the name and the shape. -/
def LVar.erase (v : LVar V) : Var V where
  name := v.name
  delayed := true
  dims := v.dims
  array := v.body.raw
  fill := v.fill
  props := v.props

/-- dataset.py:611-631 `Dataset.rechunk` of delayed variables. -/
def rechunk (specs : String → List Chunk.ChunkSpec) (ds : LDataset V) : Py (LDataset V) := do
  let vars ← mapPy (fun v => v.rechunk (specs v.name)) ds.vars
  let r ← Ds.mk (vars.map LVar.erase) ds.attrs ds.chunks ds.limit none
  .ok { ds with vars, dims := r.dims }

/-- What `dask.base.compute(v.array)` returns, as it is seen by the constructor of `Array`: a
masked array if the blocks are masked, or compressed with a fill value. -/
def Body.result (lib : Lib V) : Body V → Chunk.Input V
  | .masked a mask g => ⟨a, some (mask, g)⟩
  | .compressed shape (some f) part =>
    ⟨content shape part, some (Body.hidden lib.num.eqv (.compressed shape (some f) part), lib.conv f)⟩
  | b => ⟨b.raw, none⟩

/-- variable/delayed_array.py:379-385, 410-425, 437-444: `dask.persist(v)` gives a new variable on
the array of `data`; `__dask_graph__` of a tuple raises. -/
def LVar.daskPersist (lib : Lib V) (v : LVar V) : Py (LVar V) :=
  match v.body with
  | .tuple _ => .error .attributeError
  | _ => do
    let b ← v.data lib
    .ok { v with body := b }

/-- variable/delayed_array.py:414-415: `dask.array.from_array` keeps the mask of the array. -/
def asBody (r : Chunk.Input V) : Body V :=
  match r.masked with
  | none => .plain r.array
  | some (mask, g) => .masked r.array mask g

/-- variable/delayed_array.py:379-385, 410-435: `dask.compute(v)` gives a new variable on the
computed array (`dask.array.from_array`, which cuts it into the blocks `auto`). -/
def LVar.daskCompute (lib : Lib V) (auto : List Nat → List (List Nat)) (v : LVar V) :
    Py (LVar V) :=
  match v.body with
  | .tuple _ => .error .attributeError
  | _ => do
    let b ← v.data lib
    let r := b.result lib
    .ok { v with body := asBody r, grid := auto r.array.shape }

/-- dataset.py:579-609 `Dataset.compute` of delayed variables. -/
def compute (lib : Lib V) (ds : LDataset V) : Py (Dataset V) := do
  let vars ← mapPy (fun v =>
    new lib.num false v.name (v.body.result lib) v.dims v.fill v.props) ds.vars
  Ds.mk vars ds.attrs ds.chunks ds.limit (some false)

/-- What is done to a delayed dataset. -/
inductive Op where
  | persist (compressed : Bool)
  | rechunk (specs : String → List Chunk.ChunkSpec)
  | persistVar (name : String)

/-- One step. -/
def step (lib : Lib V) (ds : LDataset V) : Op → Py (LDataset V)
  | .persist c => persist lib c ds
  | .rechunk s => rechunk s ds
  | .persistVar n => persistVar n ds

/-- Several steps, one after the other. -/
def run (lib : Lib V) : List Op → LDataset V → Py (LDataset V)
  | [], ds => .ok ds
  | o :: t, ds => do
    let ds ← step lib ds o
    run lib t ds

/-- `variables or tuple(self.variables.keys())` (dataset.py:485): an empty selection is the same
as no selection. -/
def wanted (names : Option (List String)) (all : List String) : List String :=
  match names with
  | none => all
  | some [] => all
  | some l => l

/-- dataset.py:468-493 `Dataset.to_dict` of delayed variables: the names and the computed
arrays. -/
def toDict (lib : Lib V) (names : Option (List String)) (ds : LDataset V) :
    Py (List (String × Arr (Option V))) :=
  mapPy (fun v => do
    let b ← v.data lib
    .ok (v.name, { v with body := b, fill := none }.values lib))
    (ds.vars.filter fun v => decide (v.name ∈ wanted names (ds.vars.map (·.name))))

end Verif.Ev
