import Verif.Model.Path

/-! What paths mean, apart from the functions that rewrite them. -/

namespace Verif.Spec

/-- One step of a walk in the tree of directories: `dir` is a directory, as the list of the names
that lead to it from the root. -/
def go (dir : List (List Char)) (name : List Char) : List (List Char) :=
  if name = [] ∨ name = ".".toList then dir
  else if name = "..".toList then dir.dropLast
  else dir ++ [name]

/-- The absolute path `/a/b/...` leads to the directory. -/
inductive LeadsTo : List Char → List (List Char) → Prop
  | root : LeadsTo [] []
  | step (path : List Char) (dir : List (List Char)) (name : List Char) :
      LeadsTo path dir → '/' ∉ name → LeadsTo (path ++ '/' :: name) (go dir name)

/-- The name of an entry of a directory. -/
def EntryName (name : List Char) : Prop :=
  '/' ∉ name ∧ name ≠ [] ∧ name ≠ ".".toList ∧ name ≠ "..".toList

/-- The text starts with exactly two slashes, which POSIX leaves to the system. -/
def TwoSlashes (path : List Char) : Prop :=
  ∃ t, path = '/' :: '/' :: t ∧ ∀ s, t ≠ '/' :: s

/-- The path names something below the root. -/
def BelowRoot (path : List Char) : Prop := ∃ c ∈ path, c ≠ '/'

end Verif.Spec
