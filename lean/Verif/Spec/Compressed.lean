import Verif.Model.Compressed
import Verif.Spec.Item

/-!
What compressed arrays should do: plain arrays in memory, some of which are shared.
-/

namespace Verif.Spec

open Nd Chunk Ca

variable {V : Type}

/-- The shape of what a key designates in an array: an integer within the bounds fixes an axis,
a slice that does not go backwards keeps one, the axes that are not named are kept. -/
inductive SelectionShape : List Ix → List Nat → List Nat → Prop
  | done (shape : List Nat) : SelectionShape [] shape shape
  | int (i : Int) (n : Nat) (key : List Ix) (shape s : List Nat) : -(n : Int) ≤ i → i < n →
      SelectionShape key shape s → SelectionShape (.int i :: key) (n :: shape) s
  | slice (sl : Slice) (n : Nat) (pos : List Nat) (key : List Ix) (shape s : List Nat) :
      (∀ k, sl.step = some k → 0 < k) → positions n sl = .ok pos → SelectionShape key shape s →
      SelectionShape (.slice sl :: key) (n :: shape) (pos.length :: s)

/-- A value that can be assigned to what has this shape, and what it has at each index. -/
inductive Assignable : Value V → List Nat → (List Nat → Option V) → Prop
  | num (v : V) (s : List Nat) : Assignable (.num v) s fun _ => some v
  | arr (d : Arr V) (m : Option (List Nat → Bool)) : ArrOk d → Assignable (.arr d m) d.shape d.get

/-- `b` is `a` with the designated elements replaced, and only these. -/
structure Replaced (key : List Ix) (v : List Nat → Option V) (a b : Arr V) : Prop where
  shape : b.shape = a.shape
  outside : ∀ idx, ¬ Inside a.shape idx → b.get idx = none
  new : ∀ j src, Inside a.shape src → Designates key a.shape j src → b.get src = v j
  old : ∀ idx, (∀ j, ¬ Designates key a.shape j idx) → b.get idx = a.get idx

/-- The arrays of a program, and the objects it has: which array, and which fill value. -/
structure Memory (V : Type) where
  cells : List (Arr V)
  objs : List (Nat × Option V)

/-- The size of the chunks that zarr accepts for an array. -/
def ChunksFor (cs shape : List Nat) : Prop := cs.length = shape.length ∧ ∀ c ∈ cs, 0 < c

/-- One operation that is accepted.  A compressed array of an array has its own data; that of a
compressed array shares it, whatever the fill value that is given; the result of `rechunk` has
its own data and no fill value; an assignment changes the data of the object. -/
inductive MemStep : Memory V → Op V → Memory V → Prop
  | new (m : Memory V) (a : Arr V) (cs : List Nat) (fill : Option V) : ArrOk a →
      ChunksFor cs a.shape →
      MemStep m (.new a cs fill) ⟨m.cells ++ [a], m.objs ++ [(m.cells.length, fill)]⟩
  | zarr (m : Memory V) (z : ZArray V) (a : Arr V) : ArrOk a → ChunksFor z.chunk z.shape →
      z.shape = a.shape → (∀ idx, Inside a.shape idx → z.read idx = a.get idx) →
      MemStep m (.zarr z none) ⟨m.cells ++ [a], m.objs ++ [(m.cells.length, none)]⟩
  | wrap (m : Memory V) (i : Nat) (fill : Option V) (o : Nat × Option V) : m.objs[i]? = some o →
      MemStep m (.wrap i fill) ⟨m.cells, m.objs ++ [o]⟩
  | rechunk (m : Memory V) (i k : Nat) (f : Option V) (a : Arr V) (cs : List Nat) :
      m.objs[i]? = some (k, f) → m.cells[k]? = some a → ChunksFor cs a.shape →
      MemStep m (.rechunk i cs) ⟨m.cells ++ [a], m.objs ++ [(m.cells.length, none)]⟩
  | assign (m : Memory V) (i k : Nat) (f : Option V) (a b : Arr V) (key : List Ix) (v : Value V)
      (s : List Nat) (g : List Nat → Option V) :
      m.objs[i]? = some (k, f) → m.cells[k]? = some a → SelectionShape key a.shape s →
      Assignable v s g → Replaced key g a b →
      MemStep m (.assign i key v) ⟨m.cells.set k b, m.objs⟩

/-- The operations that are refused: a fill value with a zarr array, a key that does not fit the
array, an array of another shape than what the key designates. -/
inductive Refused : Memory V → Op V → Prop
  | zarr (m : Memory V) (z : ZArray V) (f : V) : Refused m (.zarr z (some f))
  | key (m : Memory V) (i k : Nat) (f : Option V) (a : Arr V) (key : List Ix) (v : Value V) :
      m.objs[i]? = some (k, f) → m.cells[k]? = some a →
      (∀ s, ¬ SelectionShape key a.shape s) → Refused m (.assign i key v)
  | shape (m : Memory V) (i k : Nat) (f : Option V) (a d : Arr V) (key : List Ix) (s : List Nat)
      (mask : Option (List Nat → Bool)) :
      m.objs[i]? = some (k, f) → m.cells[k]? = some a → SelectionShape key a.shape s →
      d.shape ≠ s → Refused m (.assign i key (.arr d mask))

/-- A program: each of its operations is accepted, or refused and without effect. -/
inductive MemRun : Memory V → List (Op V) → Memory V → Prop
  | nil (m : Memory V) : MemRun m [] m
  | step (m m' m'' : Memory V) (o : Op V) (t : List (Op V)) : MemStep m o m' → MemRun m' t m'' →
      MemRun m (o :: t) m''
  | skip (m m' : Memory V) (o : Op V) (t : List (Op V)) : Refused m o → MemRun m t m' →
      MemRun m (o :: t) m'

/-- What is read: an element equal to the fill value is missing. -/
def Appears (eqv : V → V → Bool) (fill : Option V) (x : V) (r : Option V) : Prop :=
  (∀ f, fill = some f → eqv x f = true → r = none) ∧
    ((∀ f, fill = some f → eqv x f = false) → r = some x)

/-- The array that an argument of a numpy function stands for: a compressed array stands for its
data, those equal to its own fill value being missing; a number for an array of rank zero. -/
inductive Stands (eqv : V → V → Bool) : Arg V → Arr (Option V) → Prop
  | comp (c : CArray V) (A : Arr (Option V)) : A.shape = c.array.shape →
      (∀ idx, ¬ Inside A.shape idx → A.get idx = none) →
      (∀ idx, Inside A.shape idx → ∃ x y, c.array.read idx = some x ∧ A.get idx = some y ∧
        Appears eqv c.fill x y) → Stands eqv (.comp c) A
  | arr (A : Arr (Option V)) : Stands eqv (.arr A) A
  | dask (A : Arr (Option V)) : Stands eqv (.dask A) A
  | num (v : V) : Stands eqv (.num v) (full [] (some v))
  | scalar (v : V) : Stands eqv (.scalar v) (full [] (some v))

/-- The arrays that the arguments stand for, in order. -/
inductive AllStand (eqv : V → V → Bool) : List (Arg V) → List (Arr (Option V)) → Prop
  | nil : AllStand eqv [] []
  | cons (a : Arg V) (A : Arr (Option V)) (l : List (Arg V)) (L : List (Arr (Option V))) :
      Stands eqv a A → AllStand eqv l L → AllStand eqv (a :: l) (A :: L)

/-- A positional argument of a numpy function, with its compressed arrays replaced by the arrays
they stand for, in lists too. -/
inductive PosStands (eqv : V → V → Bool) : Pos V → Pos V → Prop
  | comp (c : CArray V) (A : Arr (Option V)) : Stands eqv (.comp c) A →
      PosStands eqv (.one (.comp c)) (.one (.arr A))
  | one (a : Arg V) : (∀ c, a ≠ .comp c) → PosStands eqv (.one a) (.one a)
  | seq (l : List (Arg V)) (L : List (Arr (Option V))) : AllStand eqv l L →
      (∃ c, .comp c ∈ l) → PosStands eqv (.seq l) (.seq (L.map .arr))
  | other (l : List (Arg V)) : (∀ c, .comp c ∉ l) → PosStands eqv (.seq l) (.seq l)

/-- All the positional arguments. -/
inductive AllPos (eqv : V → V → Bool) : List (Pos V) → List (Pos V) → Prop
  | nil : AllPos eqv [] []
  | cons (a A : Pos V) (l L : List (Pos V)) : PosStands eqv a A → AllPos eqv l L →
      AllPos eqv (a :: l) (A :: L)

end Verif.Spec
