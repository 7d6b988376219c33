import Verif.Model.Directory
import Verif.Spec.Listing
import Verif.Spec.Schema

/-! Specification of the directories of a collection. -/

namespace Verif.Spec

open Listing Dir

variable {P V : Type}

/-- Below `n` there are only directories, named after the keys and values of partitions, up to
the directories of the partitions themselves.  Some may be empty. -/
def Dirs (fmt : Int → List Char) : List String → Node → Prop
  | [], n => n.isDir = true
  | k :: ks, n => ∃ es, n = .dir es ∧ (es.map (·.1)).Nodup ∧
      ∀ e ∈ es, ∃ v, e.1 = dirName fmt k v ∧ Dirs fmt ks e.2

/-- The same for the root of the collection, which has also files and hidden entries. -/
def RootDirs (fmt : Int → List Char) (k : String) (ks : List String) (n : Node) : Prop :=
  ∃ es, n = .dir es ∧ (es.map (·.1)).Nodup ∧
    ∀ e ∈ es, ((e.2 = .file ∨ ∃ t, e.1 = '.' :: t) ∧ ∀ v, e.1 ≠ dirName fmt k v) ∨
      ∃ v, e.1 = dirName fmt k v ∧ Dirs fmt ks e.2

/-- The directories of partitions below `root` are those of the stored partitions. -/
structure Mirrors (nm : Naming P) (root : Node) (st : Upd.Store P V) : Prop where
  layout : RootDirs nm.fmt nm.first nm.others root
  named : ∀ p, st p ≠ none → ∃ l, nm.kvs p = .ok l
  same : ∀ l, Stored nm.fmt nm.keys root l ↔ ∃ p, nm.kvs p = .ok l ∧ st p ≠ none

/-- A partitioning whose partitions can be told from the names of their directories. -/
structure GoodNaming (nm : Naming P) : Prop where
  format : nm.fmt = Path.fmtInt ∨ nm.fmt = Path.fmt02
  visible : ∀ t, nm.first.toList ≠ '.' :: t
  noEq : ∀ x ∈ nm.keys, '=' ∉ x.toList
  names : ∀ p l, nm.kvs p = .ok l → l.map (·.1) = nm.keys
  back : ∀ p l, nm.kvs p = .ok l → nm.back l = some p

/-- The partitions are in the order of the values of their keys. -/
def InOrder (nm : Naming P) (a b : P) : Prop :=
  ∃ la lb, nm.kvs a = .ok la ∧ nm.kvs b = .ok lb ∧ values la < values lb

/-- The listing of a collection: all the partitions, each one once, in order. -/
def ExactListing (nm : Naming P) (st : Upd.Store P V) (l : List P) : Prop :=
  l.Pairwise (InOrder nm) ∧ ∀ p, p ∈ l ↔ st p ≠ none

/-- The event is an opening, or a call allowed by `ok`. -/
def AllowedEvent (ok : Sch.Call P V → Prop) : Event P V → Prop
  | .call _ c => ok c
  | .opened _ => True

end Verif.Spec
