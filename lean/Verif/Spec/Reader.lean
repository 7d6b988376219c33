import Verif.Spec.Workers
import Verif.Model.Reader

/-! Specification: what a reader may find. -/

namespace Verif.Spec

open Storage Read

variable {C A : Type}

/-- The files are read one after the other. -/
def Increasing (moments : Nat → Nat) : Prop := ∀ i j, i ≤ j → moments i ≤ moments j

/-- The dataset of a group that nobody changes. -/
def written (f : Format C A) (g : Group C) : Py A := openGroup f [] fun _ => treeOf g.writes

/-- The dataset of a directory that nobody changes. -/
def resting (f : Format C A) (d : Path) (fs : FS C) : Py A := openGroup f d fun _ => fs

/-- The content of a file, if there is one. -/
def contentOf : Option (Node C) → Option C
  | some (.file c) => c
  | _ => none

/-- A partition that can be read: its metadata, and no torn file. -/
structure FilesOf (d : Path) (fs : FS C) (m : C) : Prop where
  metadata : fs (d ++ [".zmetadata"]) = some (.file (some m))
  whole : ∀ rel, fs (d ++ rel) ≠ some (.file none)

/-- A dataset made of given metadata, with for each chunk one of the allowed contents. -/
def MadeOf (f : Format C A) (m : C) (allowed : Path → Option C → Prop) (r : Py A) : Prop :=
  ∃ l, r = f.decode m l ∧ l.length = (f.chunks m).length ∧
    ∀ (i : Nat) p c, (f.chunks m)[i]? = some p → l[i]? = some c → allowed p c

end Verif.Spec
