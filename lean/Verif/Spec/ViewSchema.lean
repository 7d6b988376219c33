import Verif.Spec.ViewOps

/-! Specification of the schema of a view. -/

namespace Verif.Spec

open Nd Ds Upd Vw

variable {D P V H : Type}

/-- What another process, or a later session, finds: the files of the view and of the
reference, with the metadata of the file `.view` (view/__init__.py:159-196 `from_config`). -/
def reopened (st : State D P V H) : State D P V H := { st with metas := st.saved }

/-- The two contents of the directory of a partition differ at most by the variable `n`: both
exist or none does, the checksum and the other variables are the same, in the same order. -/
inductive SameBut (n : String) : Option (Part V H) → Option (Part V H) → Prop where
  | absent : SameBut n none none
  | present (a b : Part V H) : b.check = a.check →
      (b.vars.filter fun v => decide (v.name ≠ n)) =
        (a.vars.filter fun v => decide (v.name ≠ n)) → SameBut n (some a) (some b)

/-- What is declared for a variable. -/
def declaration (v : Var V) : VarMeta V := ⟨v.name, v.dims, v.fill, v.props⟩

/-- No partition of the view holds a variable of this name. -/
def NoArray (e : Env D V H) (fs : Files D P V H) (n : String) : Prop :=
  ∀ p part, fs e.base p = some part → ∀ v ∈ part.vars, v.name ≠ n

/-- The partitions of the view hold the variables declared, in the order of the metadata. -/
def HoldsDeclared (e : Env D V H) (listing : List P) (st : State D P V H) : Prop :=
  ∀ p ∈ listing, ∀ part, st.files e.base p = some part → part.vars.map declaration = st.metas

/-- What the user asked for, from the operations alone. -/
def declared : List (VarMeta V) → List (Op P V) → List (VarMeta V)
  | ms, [] => ms
  | ms, .add _ _ m :: t => declared (ms ++ [m]) t
  | ms, .drop _ n :: t => declared (ms.filter fun m => decide (m.name ≠ n)) t
  | ms, .sync _ _ :: t => declared ms t
  | ms, .isSynced _ :: t => declared ms t
  | ms, .reopen :: t => declared ms t
  | ms, .update _ _ _ _ _ :: t => declared ms t

variable [DecidableEq D] [DecidableEq P] [DecidableEq H]

/-- The operation returns without raising. -/
def Succeeds (e : Env D V H) (st : State D P V H) : Op P V → Prop
  | .sync listing filters => ∃ l, (Vw.sync e listing filters st).2 = .ok l
  | .isSynced listing => ∃ b, (Vw.isSynced e listing st).2 = .ok b
  | .add listing dims m => (Vw.addVariable e listing dims m st).2 = .ok ()
  | .drop listing name => (Vw.dropVariable e listing name st).2 = .ok ()
  | .update how listing filters sel f => (Vw.update e how listing filters sel f st).2 = .ok ()
  | .reopen => True

/-- The operations all succeed, and a variable is only added when the view has a partition. -/
def Smooth (e : Env D V H) : State D P V H → List (Op P V) → Prop
  | _, [] => True
  | st, op :: t => Succeeds e st op ∧
      (∀ listing dims m, op = .add listing dims m → ∃ p ∈ listing, st.files e.base p ≠ none) ∧
      Smooth e (afterOp e st op) t

/-- The operation uses this list of partitions, and does not select partitions to add. -/
def Uses (listing : List P) : Op P V → Prop
  | .sync l f => l = listing ∧ f = none
  | .isSynced l => l = listing
  | .add l _ _ => l = listing
  | .drop l _ => l = listing
  | .update _ l _ _ _ => l = listing
  | .reopen => True

end Verif.Spec
