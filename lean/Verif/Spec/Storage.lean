import Verif.Model.Storage

/-! Specification: the files of a directory that was written. -/

namespace Verif.Spec

open Storage

variable {C : Type}

/-- The tree made of the given files (the last content given for a path counts). -/
def treeOf (files : List (Path × C)) (rel : Path) : Option (Node C) :=
  match files.reverse.lookup rel with
  | some c => some (.file (some c))
  | none => if files.any fun f => rel.isPrefixOf f.1 then some .dir else none

/-- A group that can be written: no file is the directory itself, and the body does not
write the consolidated metadata. -/
structure ValidGroup (g : Group C) : Prop where
  notRoot : ∀ f ∈ g.body, f.1 ≠ []
  noMeta : ∀ f ∈ g.body, ¬ [".zmetadata"] <+: f.1

/-- The step changes only what is below a directory (and creates this directory). -/
def Below (d : Path) : Step C → Prop
  | .mkdirs p => d <+: p
  | .write p _ => d <+: p
  | .remove p => d <+: p
  | .move s t => d <+: s ∧ d <+: t

/-- The order of removal of a directory lists all of its nodes and nothing else. -/
structure Covers (order : List Path) (d : Path) (fs : FS C) : Prop where
  below : ∀ p ∈ order, d <+: p
  all : ∀ p, d <+: p → (fs p).isSome → p ∈ order

/-- The two states differ at most by what is below a directory and by the creation of the
directories above it. -/
def SameOutside (d : Path) (fs fs' : FS C) : Prop :=
  ∀ q, ¬ d <+: q → fs' q = fs q ∨ (q <+: d ∧ fs q = none ∧ fs' q = some .dir)

end Verif.Spec
