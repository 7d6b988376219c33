import Verif.Spec.ViewLoad
import Verif.Spec.Overlap

/-! Specification of the updates of a view and of the functions mapped over a view. -/

namespace Verif.Spec

open Nd Ds Upd Vw

variable {D P V H : Type}

/-- The partitions that an operation on a view works on, in order. -/
def selected (e : Env D V H) (listing : List P) (filters : P → Bool) (st : State D P V H) :
    List P :=
  listing.filter fun p => filters p && (viewStore e st p).isSome

/-- The dataset shows the partitions `ps` of the view, one after the other: the chosen
variables of the view and of the reference, and nothing else. -/
structure Shows (e : Env D V H) (st : State D P V H) (size : P → Nat)
    (sel : Option (List String)) (ps : List P) (zds : Dataset V) : Prop where
  holds : HoldsWindow e.dim size sel (viewStore e st) ps zds
  only : OnlyShown sel (viewStore e st) ps zds

/-- The records of the partition at the position `i`, among those of its neighbours. -/
def place (size : P → Nat) (parts : List P) (depth i : Nat) (p : P) : Nat × Nat :=
  (((parts.take i).drop (i - depth)).map size |>.sum,
    (((parts.take i).drop (i - depth)).map size).sum + size p)

/-- The two contents of the directory of a partition differ at most by the values of the
variables `names`. -/
inductive SamePart (names : List String) : Option (Part V H) → Option (Part V H) → Prop where
  | absent : SamePart names none none
  | present (a b : Part V H) : b.check = a.check → SameVars names a.vars b.vars →
      SamePart names (some a) (some b)

/-- The values of a variable in a partition of the view. -/
def viewValues (e : Env D V H) (st : State D P V H) (p : P) (n : String) : Option (Arr V) :=
  match st.files e.base p with
  | none => none
  | some part => (part.vars.find? fun v => decide (v.name = n)).map (·.array)

/-- The array `a` is the part `ind` of the array `b` along `dim`. -/
def CutAlong (dims : List String) (dim : String) (ind : Nat × Nat) (b a : Arr V) : Prop :=
  ∃ ax : Nat, dims[ax]? = some dim ∧ ∀ idx j, idx[ax]? = some j → j < ind.2 - ind.1 →
    a.get idx = b.get (idx.set ax (ind.1 + j))

/-- The partitions shown to the callback of an update for the partition `p`, which is the
`i`-th of the selected ones. -/
def shownTo (parts : List P) (depth : Int) (i : Nat) (p : P) : List P :=
  if depth = 0 then [p] else neighbours parts depth.toNat i

/-- The argument `partition_info` of the callback. -/
def info (size : P → Nat) (parts : List P) (depth : Int) (i : Nat) (p : P) :
    Option (Nat × Nat) :=
  if depth = 0 then none else some (place size parts depth.toNat i p)

/-- The array stored for the array `b` returned for the variable `n`: `b`, without the
neighbours if they are to be trimmed. -/
def StoredFrom (how : How) (dim : String) (zds : Dataset V) (ind : Option (Nat × Nat)) (n : String)
    (b a : Arr V) : Prop :=
  match ind with
  | none => a = b
  | some ind => if how.trim then ∃ v ∈ zds.vars, v.name = n ∧ CutAlong v.dims dim ind b a else a = b

end Verif.Spec
