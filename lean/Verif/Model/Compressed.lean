import Verif.Model.Chunks
import Verif.Model.Dataset

/-!
Compressed arrays as objects of a program: construction, shared data, indexing, assignment, and
the protocols by which numpy applies its functions to them (`zcollection/compressed_array.py`).

The behaviour of zarr (basic indexing, assignment by chunks) and of numpy (`__array_ufunc__`,
`__array_function__`) is a trusted reading of their documentation.

Simplifications: as in Model/Chunks, compressors are the identity and dtypes are not modelled;
keys are tuples of integers and slices; an array of rank one is not taken for a number in an
assignment to one element.
-/

namespace Verif.Ca

open Nd Chunk

variable {V : Type}

/-- zarr: a slice cannot go backwards (`NegativeStepError`, an `IndexError`). -/
def forward (s : Slice) : Py Unit :=
  match s.step with
  | none => .ok ()
  | some k => if k < 0 then .error .indexError else .ok ()

/-- zarr: the shape of what a key designates, and the refusals: more indices than axes, an
integer out of bounds or a negative step raise `IndexError`, a step of zero `ValueError`. -/
def selShape : List Ix → List Nat → Py (List Nat)
  | [], shape => .ok shape
  | .int i :: key, n :: shape => do
    let _ ← indexPositions n [i]
    selShape key shape
  | .slice s :: key, n :: shape => do
    let _ ← forward s
    let pos ← positions n s
    let rest ← selShape key shape
    .ok (pos.length :: rest)
  | _ :: _, [] => .error .indexError

/-- zarr: the index, in what a key designates, of the element of the array at an index, if it is
designated. -/
def project : List Ix → List Nat → List Nat → Option (List Nat)
  | [], _, idx => some idx
  | .int i :: key, n :: shape, p :: idx =>
    if (if i < 0 then i + n else i) = (p : Int) then project key shape idx else none
  | .slice s :: key, n :: shape, p :: idx =>
    match positions n s with
    | .ok pos =>
      match pos.idxOf? p with
      | some x => (project key shape idx).map fun j => x :: j
      | none => none
    | .error _ => none
  | _, _, _ => none

/-- What is assigned: a number, or an array that may be masked. -/
inductive Value (V : Type) where
  | num (v : V)
  | arr (data : Arr V) (mask : Option (List Nat → Bool))

/-- zarr: the value at an index: a number everywhere; the data of the array, the mask being
ignored. -/
def Value.get : Value V → List Nat → Option V
  | .num v, _ => some v
  | .arr d _, j => d.get j

/-- zarr: an array must have the shape of what is designated; it is not repeated. -/
def Value.fits (s : List Nat) : Value V → Bool
  | .num _ => true
  | .arr d _ => decide (d.shape = s)

/-- The index of the value that the element at an index of the array is replaced with. -/
def target (key : List Ix) (shape idx : List Nat) : Option (List Nat) :=
  if inBounds idx shape then project key shape idx else none

/-- zarr `array[key] = value`: each chunk with a designated element is read, changed and
written, empty chunks included. -/
def assigned (z : ZArray V) (key : List Ix) (v : Value V) : ZArray V :=
  { z with
    data := fun g =>
      if (indices z.chunk).any fun l => (target key z.shape (globalIdx z.chunk g l)).isSome then
        some fun l =>
          match target key z.shape (globalIdx z.chunk g l) with
          | some j => v.get j
          | none => z.content g l
      else z.data g }

/-- compressed_array.py:94-105 `__setitem__` -/
def setArray (z : ZArray V) (key : List Ix) (v : Value V) : Py (ZArray V) := do
  let s ← selShape key z.shape
  if v.fits s then .ok (assigned z key v) else .error .valueError

/-- The zarr arrays in memory, and the compressed arrays: the zarr array of each
(`self._array`) and its `_fill_value`. -/
structure World (V : Type) where
  arrays : List (ZArray V)
  objs : List (Nat × Option V)

/-- A compressed array. -/
def World.obj (w : World V) (i : Nat) : Option (CArray V) :=
  match w.objs[i]? with
  | none => none
  | some (k, f) =>
    match w.arrays[k]? with
    | none => none
    | some z => some ⟨z, f⟩

/-- compressed_array.py:77-92 `__getitem__` -/
def getItem (eqv : V → V → Bool) (c : CArray V) (key : List Ix) : Py (Arr (Option V)) := do
  let _ ← selShape key c.array.shape
  let b ← getitem 0 key (readEager c.array)
  .ok { shape := b.shape, get := values eqv c.fill b }

/-- What a program does: it builds a compressed array from an array, from a zarr array or from a
compressed array, each with a keyword `fill_value` or not, it calls `rechunk`, or it assigns. -/
inductive Op (V : Type) where
  | new (a : Arr V) (cs : List Nat) (fill : Option V)
  | zarr (z : ZArray V) (fill : Option V)
  | wrap (i : Nat) (fill : Option V)
  | rechunk (i : Nat) (cs : List Nat)
  | assign (i : Nat) (key : List Ix) (v : Value V)

/-- A new zarr array, and a compressed array for it. -/
def World.push (w : World V) (z : ZArray V) (fill : Option V) : World V :=
  ⟨w.arrays ++ [z], w.objs ++ [(w.arrays.length, fill)]⟩

/-- One operation; an object that does not exist raises `NameError`.
compressed_array.py:44-62 the constructor (arguments are refused with a zarr array, and ignored
with a compressed array, which shares its data); 169-183 `rechunk`; 94-105 `__setitem__`. -/
def step (eqv : V → V → Bool) (zero : V) (w : World V) : Op V → World V × Py Unit
  | .new a cs fill =>
    (w.push (CArray.new eqv zero a cs fill).array fill, .ok ())
  | .zarr z fill =>
    match fill with
    | some _ => (w, .error .valueError)
    | none => (w.push z none, .ok ())
  | .wrap i _ =>
    match w.objs[i]? with
    | none => (w, .error .nameError)
    | some o => ({ w with objs := w.objs ++ [o] }, .ok ())
  | .rechunk i cs =>
    match w.obj i with
    | none => (w, .error .nameError)
    | some c => (w.push (c.rechunk eqv cs).array (c.rechunk eqv cs).fill, .ok ())
  | .assign i key v =>
    match w.objs[i]? with
    | none => (w, .error .nameError)
    | some (k, _) =>
      match w.arrays[k]? with
      | none => (w, .error .nameError)
      | some z =>
        match setArray z key v with
        | .error e => (w, .error e)
        | .ok z' => ({ w with arrays := w.arrays.set k z' }, .ok ())

/-- A program; it goes on after an exception. -/
def run (eqv : V → V → Bool) (zero : V) (w : World V) : List (Op V) → World V
  | [] => w
  | o :: t => run eqv zero (step eqv zero w o).1 t

/-! ### The protocols of numpy -/

/-- An argument of a numpy function: a compressed array, an array, a dask array, a number of
Python, a scalar of numpy that is not a number of Python (`numpy.float32`, `numpy.int64`,
`numpy.datetime64`, ...), or another object. -/
inductive Arg (V : Type) where
  | comp (c : CArray V)
  | arr (a : Arr (Option V))
  | dask (a : Arr (Option V))
  | num (v : V)
  | scalar (v : V)
  | other

/-- compressed_array.py:202-216 `_cast` -/
def castArg (eqv : V → V → Bool) (self : CArray V) : Arg V → Py (Arg V)
  | .comp c => .ok (.arr { shape := c.array.shape, get := self.cast eqv c })
  | .arr a => .ok (.arr a)
  | .dask a => .ok (.arr a)
  | .num v => .ok (.num v)
  | .scalar _ => .error .typeError
  | .other => .error .typeError

/-- The compressed array of an argument. -/
def Arg.comp? : Arg V → Option (CArray V)
  | .comp c => some c
  | _ => none

/-- An argument as an array, a number having the rank zero. -/
def Arg.plain : Arg V → Py (Arr (Option V))
  | .arr a => .ok a
  | .dask a => .ok a
  | .num v => .ok (full [] (some v))
  | .scalar v => .ok (full [] (some v))
  | .comp _ => .error .typeError
  | .other => .error .typeError

/-- The method of a ufunc: `ufunc(...)`, `ufunc.reduce(...)`, or another one. -/
inductive Method where
  | call
  | reduce
  | other
  deriving DecidableEq

/-- numpy `ufunc(*args, out=out)`: if an argument or the output is a compressed array, the
method `__array_ufunc__` of the first one is called (compressed_array.py:242-268), which calls
the function again with the arguments it has cast and the same output; `NotImplemented` makes
numpy raise `TypeError`.  `fuel` is the number of nested calls that Python allows, beyond which
it raises `RecursionError`, a `RuntimeError`. -/
def ufunc {R : Type} (eqv : V → V → Bool) (f : List (Arr (Option V)) → Py R) (m : Method)
    (out : Option (CArray V)) : Nat → List (Arg V) → Py R
  | fuel, args =>
    match (args.findSome? Arg.comp?).or out with
    | none => do
      let l ← Ds.mapPy Arg.plain args
      f l
    | some self =>
      match fuel with
      | 0 => .error .runtimeError
      | fuel + 1 => do
        let inputs ← Ds.mapPy (castArg eqv self) args
        if m = .other then .error .typeError
        else ufunc eqv f m out fuel inputs

/-- A positional argument of a numpy function: an object, or a list of objects. -/
inductive Pos (V : Type) where
  | one (a : Arg V)
  | seq (l : List (Arg V))

/-- The arguments that numpy examines: it looks into the lists (`numpy.concatenate`). -/
def Pos.all : Pos V → List (Arg V)
  | .one a => [a]
  | .seq l => l

/-- compressed_array.py:236-239: only the positional arguments that are compressed arrays are
replaced. -/
def Pos.decompress (eqv : V → V → Bool) : Pos V → Pos V
  | .one (.comp c) => .one (.arr (c.toArray eqv))
  | p => p

/-- numpy `func(*args, **kwargs)`: if an argument is a compressed array, its method
`__array_function__` is called (compressed_array.py:218-240), which calls the function again.
Simplification: all the arguments of the function are examined by numpy. -/
def function {R : Type} (eqv : V → V → Bool) (f : List (Pos V) → List (String × Arg V) → Py R)
    (kwargs : List (String × Arg V)) : Nat → List (Pos V) → Py R
  | fuel, args =>
    match (args.flatMap Pos.all ++ kwargs.map (·.2)).findSome? Arg.comp? with
    | none => f args kwargs
    | some _ =>
      match fuel with
      | 0 => .error .runtimeError
      | fuel + 1 => function eqv f kwargs fuel (args.map (Pos.decompress eqv))

end Verif.Ca
