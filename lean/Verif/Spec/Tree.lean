import Verif.Model.Tree

/-! Specification of the walks and copies of directory trees. -/

namespace Verif.Spec

open Tree

variable {C : Type}

/-- A file system where the names of the directories are those of the entries. -/
structure GoodFS (fs : FS C) : Prop where
  root : fs.content [] = some .dir
  names : ∀ p n, n ∈ fs.names p ↔ fs.content (p ++ [n]) ≠ none
  parents : ∀ p n, fs.content (p ++ [n]) ≠ none → fs.content p = some .dir
  nodup : ∀ p, (fs.names p).Nodup

/-- The tree below the path is not deeper than the recursion limit. -/
def NotDeeper (fs : FS C) (p : Path) (limit : Nat) : Prop :=
  ∀ q, fs.content (p ++ q) ≠ none → q.length < limit

/-- Neither path contains the other one. -/
def Unrelated (p q : Path) : Prop := ¬ p <+: q ∧ ¬ q <+: p

/-- What is stored below `target` is what is stored below `source`. -/
def SameTree (fs' : FS C) (target : Path) (fs : FS C) (source : Path) : Prop :=
  ∀ q, fs'.content (target ++ q) = fs.content (source ++ q)

/-- An item of a walk has the directories and the files of a directory, each once. -/
structure WalkItem (fs : FS C) (item : Path × List Path × List String) : Prop where
  dirs : ∀ d, d ∈ item.2.1 ↔ (∃ n, d = item.1 ++ [n]) ∧ fs.content d = some .dir
  dirsNodup : item.2.1.Nodup
  files : ∀ n, n ∈ item.2.2 ↔ ∃ c, fs.content (item.1 ++ [n]) = some (.file c)
  filesNodup : item.2.2.Nodup

/-- The path of a directory at the given depth below the base, that is not hidden. -/
def VisibleDir (fs : FS C) (base : Path) (depth : Nat) (p : Path) : Prop :=
  ∃ rel, p = base ++ rel ∧ rel.length = depth ∧ fs.content p = some .dir ∧
    ∀ n, rel.head? = some n → n.toList.head? ≠ some '.'

end Verif.Spec
