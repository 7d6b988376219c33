import Verif.Model.Array

/-!
Arrays stored in chunks: storage.py `write_zarr_variable`, `_to_zarr`, `update_zarr_array`,
`open_zarr_group`, variable/array.py, variable/delayed_array.py and compressed_array.py.

The behaviour of zarr (a chunk that holds only fill values is not written, a missing chunk
reads as the fill value, chunks beyond the bounds are padded with the fill value) and of dask
(`rechunk`, `store`) is a trusted reading of their documentation.

Simplifications: compressors and filters are the identity (lossy filters are excluded);
dtypes are not modelled.
-/

namespace Verif.Chunk

open Nd

variable {V : Type}

/-- variable/delayed_array.py:32-39 `_blockdims_from_blockshape` for one dimension; the same
function as dask's `blockdims_from_blockshape`, used by `rechunk` (storage.py:176-179). -/
def blockdims (n c : Nat) : Py (List Nat) :=
  if n = 0 then .ok [0]
  else if c = 0 then .error .zeroDivisionError
  else .ok (List.replicate (n / c) c ++ if n % c = 0 then [] else [n % c])

/-- The chunk size asked for one dimension (storage.py:169-175): `-1` or a size.  `'auto'` is
the size that dask chooses. -/
inductive ChunkSpec where
  | whole
  | size (c : Nat)
  deriving DecidableEq

/-- storage.py:169-175 `var_chunks`: without user's choice, or for a dimension the user does
not mention, the whole dimension. -/
def specOf (chunks : Option (List (String × Nat))) (dim : String) : ChunkSpec :=
  match chunks with
  | none => .whole
  | some l => match l.lookup dim with
    | none => .whole
    | some c => .size c

/-- storage.py:176-179 `data.rechunk` for one dimension. -/
def rechunkDim (n : Nat) : ChunkSpec → Py (List Nat)
  | .whole => .ok [n]
  | .size c => blockdims n c

/-- The blocks of all the dimensions. -/
def rechunk : List Nat → List ChunkSpec → Py (List (List Nat))
  | n :: shape, s :: specs => do
    let b ← rechunkDim n s
    let bs ← rechunk shape specs
    .ok (b :: bs)
  | [], _ => .ok []
  | n :: shape, [] => do
    let bs ← rechunk shape []
    .ok ([n] :: bs)

/-- storage.py:96 `[chunk[0] for chunk in array.chunks]` -/
def chunkShape : List (List Nat) → Py (List Nat)
  | [] => .ok []
  | [] :: _ => .error .indexError
  | (c :: _) :: t => do
    let cs ← chunkShape t
    .ok (c :: cs)

/-- The bounds of consecutive blocks. -/
def bounds (start : Nat) : List Nat → List (Nat × Nat)
  | [] => []
  | b :: t => (start, start + b) :: bounds (start + b) t

/-- The regions of the blocks: the product of the bounds of each dimension. -/
def regions : List (List Nat) → List (List (Nat × Nat))
  | [] => [[]]
  | b :: t => (bounds 0 b).flatMap fun r => (regions t).map fun rs => r :: rs

/-- The index lies in the region. -/
def inRegion : List (Nat × Nat) → List Nat → Bool
  | [], [] => true
  | r :: rs, i :: idx => decide (r.1 ≤ i ∧ i < r.2) && inRegion rs idx
  | _, _ => false

/-- All the indices of a shape. -/
def indices : List Nat → List (List Nat)
  | [] => [[]]
  | n :: shape => (List.range n).flatMap fun i => (indices shape).map fun idx => i :: idx

/-- A zarr array (storage.py:97-105): the chunks that were written, each a function of the
index within the chunk. -/
structure ZArray (V : Type) where
  shape : List Nat
  chunk : List Nat
  fill : Option V
  data : List Nat → Option (List Nat → Option V)

/-- The number of the chunk that holds an index, and the index within this chunk. -/
def chunkOf (cs idx : List Nat) : List Nat := List.zipWith (fun c i => i / c) cs idx

@[inherit_doc chunkOf]
def within (cs idx : List Nat) : List Nat := List.zipWith (fun c i => i % c) cs idx

/-- The index in the array of the index `l` of the chunk `g`. -/
def globalIdx : List Nat → List Nat → List Nat → List Nat
  | c :: cs, g :: gs, l :: ls => (g * c + l) :: globalIdx cs gs ls
  | _, _, _ => []

/-- zarr: the value read at an index; a missing chunk reads as the fill value (`none` means
undefined, without fill value). -/
def ZArray.read (z : ZArray V) (idx : List Nat) : Option V :=
  match z.data (chunkOf z.chunk idx) with
  | some c => c (within z.chunk idx)
  | none => z.fill

/-- The content of a chunk, missing or not. -/
def ZArray.content (z : ZArray V) (g l : List Nat) : Option V :=
  match z.data g with
  | some c => c l
  | none => z.fill

/-- zarr: all the values of the chunk are the fill value, for the equality `eqv` of numpy. -/
def allFill (eqv : V → V → Bool) (cs : List Nat) (fill : Option V) (c : List Nat → Option V) :
    Bool :=
  match fill with
  | none => false
  | some f => (indices cs).all fun l => match c l with
    | none => false
    | some x => eqv x f

/-- zarr `target[region] = values`: each chunk that meets the region is updated, and removed
if it holds only fill values and `write_empty_chunks` is false. -/
def ZArray.write (eqv : V → V → Bool) (writeEmpty : Bool) (z : ZArray V)
    (region : List (Nat × Nat)) (values : List Nat → Option V) : ZArray V :=
  { z with
    data := fun g =>
      if (indices z.chunk).any fun l => inRegion region (globalIdx z.chunk g l) then
        let c : List Nat → Option V := fun l =>
          if inRegion region (globalIdx z.chunk g l) then values (globalIdx z.chunk g l)
          else z.content g l
        if ¬ writeEmpty ∧ allFill eqv z.chunk z.fill c then none else some c
      else z.data g }

/-- storage.py:85-112 `_to_zarr`: an empty array with chunks of the size of the first block
of each dimension, then each block stored one after the other. -/
def toZarr (eqv : V → V → Bool) (a : Arr V) (blocks : List (List Nat)) (fill : Option V) :
    Py (ZArray V) := do
  let cs ← chunkShape blocks
  .ok ((regions blocks).foldl (fun z r => z.write eqv false r a.get)
    { shape := a.shape, chunk := cs, fill, data := fun _ => none })

/-- storage.py:135-193 `write_zarr_variable`: the data; see Model/Storage for the failures. -/
def writeVariable (eqv : V → V → Bool) (a : Arr V) (fill : Option V) (dims : List String)
    (chunks : Option (List (String × Nat))) : Py (ZArray V) := do
  let blocks ← rechunk a.shape (dims.map (specOf chunks))
  toZarr eqv a blocks fill

/-- storage.py:345-377 `update_zarr_array`: the whole array is replaced; zarr refuses values
of another shape.  `write_empty_chunks` has its default value. -/
def updateArray (eqv : V → V → Bool) (z : ZArray V) (a : Arr V) : Py (ZArray V) :=
  if a.shape = z.shape then .ok (z.write eqv true (z.shape.map fun n => (0, n)) a.get)
  else .error .valueError

/-- variable/array.py:165-190 `Array.from_zarr`: `array[...]`. -/
def readEager (z : ZArray V) : Arr V where
  shape := z.shape
  get idx := if inBounds idx z.shape then z.read idx else none

/-- The start of the block that holds the position `i`, and the position within the block. -/
def blockOf (start : Nat) : List Nat → Nat → Option (Nat × Nat)
  | [], _ => none
  | b :: t, i => if i < b then some (start, i) else blockOf (start + b) t (i - b)

/-- variable/delayed_array.py:70-76 the blocks of the dask array. -/
def normalized : List Nat → List Nat → Py (List (List Nat))
  | n :: shape, c :: cs => do
    let b ← blockdims n c
    let bs ← normalized shape cs
    .ok (b :: bs)
  | _, _ => .ok []

/-- The index read in the stored array for an index of the dask array: start of the block
plus index within the block. -/
def viaBlocks : List (List Nat) → List Nat → Option (List Nat)
  | [], [] => some []
  | b :: bs, i :: idx =>
    match blockOf 0 b i, viaBlocks bs idx with
    | some (s, k), some r => some ((s + k) :: r)
    | _, _ => none
  | _, _ => none

/-- variable/delayed_array.py:42-92, 279-315 `DelayedArray.from_zarr`: each block reads its
region of the stored array. -/
def readDelayed (z : ZArray V) : Py (Arr V) := do
  let bs ← normalized z.shape z.chunk
  .ok { shape := z.shape, get := fun idx => (viaBlocks bs idx).bind z.read }

/-- What the user gives to the constructor of a variable: an array, or a masked array with
its mask and its fill value. -/
structure Input (V : Type) where
  array : Arr V
  masked : Option ((List Nat → Bool) × V)

/-- variable/abc.py:107-134 `not_equal`; `ty x` stands for `type(x)` and `eqv` for `==`.  A
value is not a number when it is not equal to itself.  `None` is not a value here. -/
def notEqual (ty : V → Nat) (eqv : V → V → Bool) (a b : V) : Bool :=
  if ty a ≠ ty b then true
  else if ! eqv a a && ! eqv b b then false
  else if eqv a b then false
  else true

/-- variable/array.py:24-47 `_as_numpy_array`, variable/delayed_array.py:95-119
`_as_dask_array`: masked values are replaced by the fill value of the masked array, which
must be the one of the variable for the comparison `ne`. -/
def asArray (ne : V → V → Bool) (i : Input V) (fill : Option V) : Py (Arr V × Option V) :=
  match i.masked with
  | none => .ok (i.array, fill)
  | some (mask, f) =>
    if (match fill with | none => false | some g => ne g f) then .error .valueError
    else .ok ({ shape := i.array.shape,
                get := fun idx => if mask idx then (i.array.get idx).map fun _ => f
                  else i.array.get idx }, some f)

/-- variable/array.py:102-114, variable/delayed_array.py:197-209, 244-265 `values`: the values
equal to the fill value are masked (`some none`). -/
def values (eqv : V → V → Bool) (fill : Option V) (a : Arr V) (idx : List Nat) :
    Option (Option V) :=
  (a.get idx).map fun x => match fill with
    | none => some x
    | some f => if eqv x f then none else some x

/-! ### compressed_array.py -/

/-- compressed_array.py:29-62 `CompressedArray`: the zarr array and `_fill_value`. -/
structure CArray (V : Type) where
  array : ZArray V
  fill : Option V

/-- zarr `zarr.array(data, chunks=..., fill_value=...)`: one write of the whole array, empty
chunks included. -/
def zarrArray (eqv : V → V → Bool) (a : Arr V) (cs : List Nat) (fill : Option V) : ZArray V :=
  ZArray.write eqv true { shape := a.shape, chunk := cs, fill, data := fun _ => none }
    (a.shape.map fun n => (0, n)) a.get

/-- compressed_array.py:50-52 the constructor for a `numpy.ndarray`; without `fill_value` the
zarr array has its default fill value `zero`. -/
def CArray.new (eqv : V → V → Bool) (zero : V) (a : Arr V) (cs : List Nat) (fill : Option V) :
    CArray V where
  array := zarrArray eqv a cs (match fill with | none => some zero | some f => some f)
  fill := fill

/-- compressed_array.py:77-92, 185-200 `__getitem__` and `__array__`, at one index: the value,
or `some none` for a missing value. -/
def CArray.get (eqv : V → V → Bool) (c : CArray V) (idx : List Nat) : Option (Option V) :=
  values eqv c.fill (readEager c.array) idx

/-- compressed_array.py:169-183 `rechunk`: the result is built from a zarr array, so its
`_fill_value` is `None`. -/
def CArray.rechunk (eqv : V → V → Bool) (c : CArray V) (cs : List Nat) : CArray V where
  array := zarrArray eqv (readEager c.array) cs c.fill
  fill := none

/-- compressed_array.py:185-200 `__array__`: an array of values that may be missing. -/
def CArray.toArray (eqv : V → V → Bool) (c : CArray V) : Arr (Option V) where
  shape := c.array.shape
  get := c.get eqv

/-- compressed_array.py:307-313 `_concatenate_compressed_array`. -/
def concatenation (eqv : V → V → Bool) (ax : Nat) (arrays : List (CArray V)) :
    Py (Arr (Option V)) :=
  concatenate ax (arrays.map (CArray.toArray eqv))

/-- compressed_array.py:202-208 `_cast`: the operand of a numpy function, with the fill value
of the array on which the function was called. -/
def CArray.cast (eqv : V → V → Bool) (self obj : CArray V) (idx : List Nat) :
    Option (Option V) :=
  values eqv self.fill (readEager obj.array) idx

end Verif.Chunk
