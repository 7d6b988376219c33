import Verif.Model.View
import Verif.Spec.Update

/-! Specification of views. -/

namespace Verif.Spec

open Nd Ds Upd Vw

variable {D P V H : Type}

/-- The partition of the reference has the axis `l` along the dimension `dim`. -/
def HasAxis (e : Env D V H) (ref : Option (Part V H)) (l : List V) (dim : String) : Prop :=
  ∃ r, ref = some r ∧ ∃ v, (r.vars.find? fun w => decide (w.name = e.axis)) = some v ∧
    v.array.shape = [l.length] ∧
    (∀ (i : Nat) (x : V), l[i]? = some x → v.array.get [i] = some x) ∧ v.dims.head? = some dim

/-- The variables of a partition have the length `n` along the dimension `dim`. -/
def Long (dim : String) (n : Nat) (vars : List (Var V)) : Prop :=
  ∀ v ∈ vars, ∀ ax : Nat, v.dims.idxOf? dim = some ax → v.array.shape[ax]? = some n

/-- A partition of a view is sound: the checksum it stores is the one of the axis it stores,
and its variables have the length of this axis. -/
structure Sound (e : Env D V H) (part : Part V H) : Prop where
  sum : ∀ c, part.check = some c → c.sum = e.hash c.values
  long : ∀ c, part.check = some c → Long c.dim c.values.length part.vars
  names : (part.vars.map (·.name)).Nodup
  arrays : ∀ v ∈ part.vars, ArrOk v.array

/-- The partition of the reference is consistent: all the variables have the length of its
axis, and the dimensions recorded in the metadata. -/
structure SoundRef (e : Env D V H) (r : Part V H) : Prop where
  long : ∀ l dim, HasAxis e (some r) l dim → Long dim l.length r.vars
  dims : ∀ m ∈ e.refMeta, ∀ v, (r.vars.find? fun w => decide (w.name = m.name)) = some v →
    v.dims = m.dims

/-- All the partitions are sound, for one dimension of the axis. -/
structure SoundView (e : Env D V H) (fs : Files D P V H) : Prop where
  view : ∀ p part, fs e.base p = some part → Sound e part
  ref : ∀ p r, fs e.refDir p = some r → SoundRef e r
  dim : ∀ p part c, fs e.base p = some part → part.check = some c → c.dim = e.dim
  refDim : ∀ p l d, HasAxis e (fs e.refDir p) l d → d = e.dim

/-- The hash function has no collision between the axes stored in the view and those of the
reference. -/
def NoCollision (e : Env D V H) (fs : Files D P V H) : Prop :=
  ∀ p part c l d, fs e.base p = some part → part.check = some c →
    HasAxis e (fs e.refDir p) l d → e.hash c.values = e.hash l → c.values = l

/-- The partition of the view holds the axis of the reference, the checksum of this axis, and
variables of this length. -/
def InStep (e : Env D V H) (ref cur : Option (Part V H)) : Prop :=
  ∃ part c l dim, cur = some part ∧ part.check = some c ∧ HasAxis e ref l dim ∧
    c.values = l ∧ c.sum = e.hash l ∧ Long dim l.length part.vars

/-- Every value of the array is the fill value, and the array has the given shape. -/
def AllFill (a : Arr V) (shape : List Nat) (f : V) : Prop :=
  a.shape = shape ∧ ∀ idx, Inside shape idx → a.get idx = some f

/-- The variable `v'` is the variable `v` whose dimension `dim` was extended to the length
`n`: the values are kept and the new ones are fill values. -/
structure Extended (dim : String) (n : Nat) (v v' : Var V) : Prop where
  same : v'.name = v.name ∧ v'.dims = v.dims ∧ v'.fill = v.fill ∧ v'.props = v.props
  other : dim ∉ v.dims → v'.array = v.array
  shape : ∀ ax, v.dims.idxOf? dim = some ax → v'.array.shape = v.array.shape.set ax n
  kept : ∀ idx, Inside v.array.shape idx → v'.array.get idx = v.array.get idx
  added : ∀ idx, Inside v'.array.shape idx → ¬ Inside v.array.shape idx → ∀ f, v.fill = some f →
    v'.array.get idx = some f

/-- A variable of the view that holds nothing but fill values, with the shape of a variable of
the reference that has the same dimensions. -/
def Reset (r : Part V H) (m : VarMeta V) (v : Var V) : Prop :=
  v.name = m.name ∧ v.dims = m.dims ∧ v.fill = m.fill ∧ v.props = m.props ∧ ∃ t ∈ r.vars,
    v.array.shape = t.array.shape ∧ t.dims = m.dims ∧
    ∀ f, m.fill = some f → AllFill v.array t.array.shape f

/-- The partitions of the reference are consistent. -/
structure GoodRef (e : Env D V H) (fs : Files D P V H) : Prop where
  part : ∀ p r, fs e.refDir p = some r → SoundRef e r
  dim : ∀ p l d, HasAxis e (fs e.refDir p) l d → d = e.dim

/-- A callback that returns well formed arrays. -/
def GoodCallback (f : Callback V (Dict V)) : Prop :=
  ∀ zds ind d, f zds ind = .ok d → ∀ x ∈ d, ArrOk x.2

/-- A callback that returns well formed arrays when it is given well formed arrays. -/
def MapsArrays (f : Callback V (Dict V)) : Prop :=
  ∀ zds ind d, (∀ v ∈ zds.vars, ArrOk v.array) → f zds ind = .ok d → ∀ x ∈ d, ArrOk x.2

/-- The arrays of the reference are well formed. -/
def RefArrays (e : Env D V H) (fs : Files D P V H) : Prop :=
  ∀ p r, fs e.refDir p = some r → ∀ v ∈ r.vars, ArrOk v.array

/-- The partitions of the view are in step with the reference. -/
def AllInStep (e : Env D V H) (listing : List P) (fs : Files D P V H) : Prop :=
  ∀ p ∈ listing, fs e.base p ≠ none → InStep e (fs e.refDir p) (fs e.base p)

/-- The states of a view after any history: operations on the view, successful or not, and
changes of the reference.  If `careful`, variables are only added when the view is in step
with the reference. -/
inductive Reach [DecidableEq D] [DecidableEq P] [DecidableEq H] (e : Env D V H)
    (careful : Bool) : State D P V H → Prop where
  | created (listing : List P) (filters : Option (P → Bool)) (fs : Files D P V H) :
      (∀ p, fs e.base p = none) → GoodRef e fs → listing.Nodup →
      Reach e careful (create e listing filters fs).1
  | reference (st : State D P V H) (fs : Files D P V H) :
      Reach e careful st → (∀ p, fs e.base p = st.files e.base p) → GoodRef e fs →
      Reach e careful { st with files := fs }
  | sync (st : State D P V H) (listing : List P) (filters : Option (P → Bool)) :
      Reach e careful st → listing.Nodup → Reach e careful (Vw.sync e listing filters st).1
  | add (st : State D P V H) (listing : List P) (dims : List String) (m : VarMeta V) :
      Reach e careful st → listing.Nodup → (careful = true → AllInStep e listing st.files) →
      Reach e careful (Vw.addVariable e listing dims m st).1
  | drop (st : State D P V H) (listing : List P) (name : String) :
      Reach e careful st → listing.Nodup → Reach e careful (Vw.dropVariable e listing name st).1
  | update (st : State D P V H) (how : How) (listing : List P) (filters : P → Bool)
      (sel : Option (List String)) (f : Callback V (Dict V)) :
      Reach e careful st → listing.Nodup →
      (GoodCallback f ∨ MapsArrays f ∧ RefArrays e st.files) →
      Reach e careful (Vw.update e how listing filters sel f st).1
  | reopen (st : State D P V H) : Reach e careful st →
      Reach e careful { st with metas := st.saved }

end Verif.Spec
