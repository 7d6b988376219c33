import Verif.Spec.Sharing
import Verif.Model.Variable

/-!
What a call on objects gives, against what it gives on values.
-/

namespace Verif.Spec

open Nd Sh

variable {V : Type}

/-- The call makes the dataset `y`, or raises the exception `y`. -/
def Builds (x : Heap V × Py Res) (y : Py (Ds.Dataset V)) : Prop :=
  match x.2 with
  | .ok (.ds n) => ∃ s, x.1.see n = some s ∧ y = .ok s
  | .ok _ => False
  | .error e => y = .error e

/-- After the call the dataset `d` is `y.1`, and the outcome is `y.2`. -/
def Becomes (x : Heap V × Py Res) (d : Nat) (y : Ds.Dataset V × Py Unit) : Prop :=
  x.1.see d = some y.1 ∧
    match y.2 with
    | .ok () => x.2 = .ok .unit
    | .error e => x.2 = .error e

/-- The dataset with the variable `name` replaced. -/
def withVar (s : Ds.Dataset V) (name : String) (f : Ds.Var V → Ds.Var V) : Ds.Dataset V :=
  { s with vars := s.vars.map fun v => if v.name = name then f v else v }

/-- The datasets of a list, as values. -/
def seeAll (h : Heap V) (l : List Nat) : List (Ds.Dataset V) := l.filterMap h.see

/-- The variable that a constructor makes of an array of the program. -/
def givenVal (h : Heap V) (g : Given V) : Option (Ds.Var V) :=
  ((h.hands[g.hand]?).bind h.read).map fun a =>
    { name := g.name, delayed := g.delayed, dims := g.dims, array := a, fill := g.fill,
      props := g.attrs }

/-- The attributes `m` of the variables; those before the first that is not in `m` are
changed. -/
def fillVars (m : List (String × Nat)) : List (Ds.Var V) → List (Ds.Var V) × Py Unit
  | [] => ([], .ok ())
  | v :: t =>
    match m.lookup v.name with
    | none => (v :: t, .error .keyError)
    | some a => ({ v with props := a } :: (fillVars m t).1, (fillVars m t).2)

/-- The calls that change objects which several datasets may hold. -/
def Touches : Call V → Prop
  | .write _ _ _ => True
  | .assign _ _ _ => True
  | .fill _ _ => True
  | .fillAttrs _ _ _ => True
  | .setChunk _ _ _ => True
  | _ => False

/-! ### Programs on values -/

/-- The datasets and the arrays of a program, as values: nothing is shared. -/
structure World (V : Type) where
  sets : List (Ds.Dataset V)
  arrays : List (Arr V)

/-- A call on the dataset `n`. -/
def World.on (w : World V) (n : Nat) (f : Ds.Dataset V → World V × Py Res) : World V × Py Res :=
  match w.sets[n]? with
  | none => (w, .error .nameError)
  | some s => f s

/-- A new dataset. -/
def World.new (w : World V) : Py (Ds.Dataset V) → World V × Py Res
  | .ok s => ({ w with sets := w.sets ++ [s] }, .ok (.ds w.sets.length))
  | .error e => (w, .error e)

/-- Another value for the dataset `n`. -/
def World.change (w : World V) (n : Nat) : Ds.Dataset V × Py Unit → World V × Py Res
  | (s, .ok ()) => ({ w with sets := w.sets.set n s }, .ok .unit)
  | (s, .error e) => ({ w with sets := w.sets.set n s }, .error e)

/-- A new array. -/
def World.hold (w : World V) (a : Arr V) : World V × Py Res :=
  ({ w with arrays := w.arrays ++ [a] }, .ok (.hand w.arrays.length))

/-- The variable made of an array. -/
def World.given (w : World V) (g : Sh.Given V) : Option (Ds.Var V) :=
  (w.arrays[g.hand]?).map fun a =>
    { name := g.name, delayed := g.delayed, dims := g.dims, array := a, fill := g.fill,
      props := g.attrs }

/-- What a reader of the documentation expects of a call: each method does what it says on the
dataset it is called on, and nothing else. -/
def World.step (w : World V) : Call V → World V × Py Res
  | .array a => w.hold a
  | .write k idx v =>
    match w.arrays[k]? with
    | none => (w, .error .nameError)
    | some a =>
      if inBounds idx a.shape then ({ w with arrays := w.arrays.set k (store a idx v) }, .ok .unit)
      else (w, .error .indexError)
  | .dataset l attrs chunks limit delayed =>
    match l.mapM w.given with
    | none => (w, .error .nameError)
    | some vars => w.new (Ds.mk vars attrs chunks limit delayed)
  | .values n name => w.on n fun s =>
    match Ds.getVar s.vars name with
    | none => (w, .error .keyError)
    | some x => w.hold x.array
  | .assign n name k => w.on n fun s =>
    match Ds.getVar s.vars name with
    | none => (w, .error .keyError)
    | some x =>
      match w.arrays[k]? with
      | none => (w, .error .nameError)
      | some a => w.change n
          (if a.shape.length ≠ x.dims.length then (s, .error .valueError)
           else (withVar s name fun w => { w with array := a }, .ok ()))
  | .fill n name => w.on n fun s => w.change n
      (if (Ds.getVar s.vars name).isSome then (withVar s name Vr.fillVar, .ok ())
       else (s, .error .keyError))
  | .setChunk n dim x => w.on n fun s =>
    w.change n ({ s with chunks := put s.chunks (dim, x) }, .ok ())
  | .selectVars n names => w.on n fun s => w.new (Ds.selectVars s names)
  | .byDims n dims predicate => w.on n fun s => w.new (Ds.selectByDims s dims predicate)
  | .isel n slices => w.on n fun s => w.new (Ds.isel s slices)
  | .delete n ixs axis => w.on n fun s => w.new (Ds.deleteDs s ixs axis)
  | .concat n others dim => w.on n fun s =>
    match others.mapM fun k => w.sets[k]? with
    | none => (w, .error .nameError)
    | some l => w.new (Ds.concat s l dim)
  | .setForInsertion n chunks limit => w.on n fun s =>
    w.new (Ds.mk (s.vars.map fun v => { v with props := 0 }) [] chunks limit none)
  | .compute n => w.on n fun s =>
    if s.delayed then
      w.new (Ds.mk (s.vars.map fun v => { v with delayed := false }) s.attrs s.chunks s.limit
        (some false))
    else (w, .ok (.ds n))
  | .rechunk n => w.on n fun s =>
    if s.delayed then w.new (Ds.derive s s.vars none) else (w, .ok (.ds n))
  | .pickle n => w.on n fun s => w.new (.ok s)
  | .merge n other => w.on n fun s => w.on other fun o => w.change n (Ds.merge s o)
  | .rename n names => w.on n fun s => w.change n (Ds.rename s names)
  | .dropVars n names => w.on n fun s => w.change n (Ds.dropVars s names)
  | .addVariable n m noneValue none => w.on n fun s =>
    w.change n (Ds.addVariable s m noneValue none)
  | .addVariable n m noneValue (some k) => w.on n fun s =>
    match w.arrays[k]? with
    | none => (w, .error .nameError)
    | some a => w.change n (Ds.addVariable s m noneValue (some a))
  | .fillAttrs n attrs m => w.on n fun s =>
    w.change n ({ s with attrs, vars := (fillVars m s.vars).1 }, (fillVars m s.vars).2)
  | .copyProperties n other => w.on n fun s => w.on other fun o =>
    w.change n ({ s with chunks := o.chunks, limit := o.limit }, .ok ())

/-- A program on values. -/
def World.run (w : World V) : List (Call V) → World V
  | [] => w
  | c :: t => (w.step c).1.run t

/-- What the calls of a program on values return or raise. -/
def World.results (w : World V) : List (Call V) → List (Py Res)
  | [] => []
  | c :: t => (w.step c).2 :: (w.step c).1.results t

/-- What the calls of a program return or raise. -/
def resultsOf (h : Heap V) : List (Call V) → List (Py Res)
  | [] => []
  | c :: t => (Sh.step h c).2 :: resultsOf (Sh.step h c).1 t

/-- The datasets and the arrays of a program show the values `w`. -/
structure Depicts (h : Heap V) (w : World V) : Prop where
  sets : h.sets.length = w.sets.length
  hands : h.hands.length = w.arrays.length
  set : ∀ n : Nat, h.see n = w.sets[n]?
  hand : ∀ k : Nat, (h.hands[k]?).bind h.read = w.arrays[k]?

/-- The call changes no object that is held twice: the array it writes into has its memory in
common with no dataset and no other array; the dataset whose variables it changes has no variable
in common with another; the dataset whose chunks it changes has its own dictionary. -/
def Private (h : Heap V) : Call V → Prop
  | .write k _ _ => ∀ a, h.hands[k]? = some a → (∀ e, ¬ HasBuf h e a.buf) ∧
      ∀ (j : Nat) b, j ≠ k → h.hands[j]? = some b → b.buf ≠ a.buf
  | .assign n _ _ => ∀ e r, e ≠ n → HasVar h n r → ¬ HasVar h e r
  | .fill n _ => ∀ e r, e ≠ n → HasVar h n r → ¬ HasVar h e r
  | .fillAttrs n _ _ => ∀ e r, e ≠ n → HasVar h n r → ¬ HasVar h e r
  | .setChunk n _ _ => ∀ e c, e ≠ n → HasDict h n c → ¬ HasDict h e c
  | _ => True

/-- Each call of the program is private. -/
def PrivateRun (h : Heap V) : List (Call V) → Prop
  | [] => True
  | c :: t => Private h c ∧ PrivateRun (Sh.step h c).1 t

end Verif.Spec
