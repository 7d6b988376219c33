import Verif.Spec.Storage
import Verif.Model.Workers

/-! Specification: the part of the file system that belongs to a worker. -/

namespace Verif.Spec

open Storage Work

variable {C R : Type}

/-- The path is in one of the given directories. -/
def InRegion (dirs : List Path) (q : Path) : Prop := ∃ d ∈ dirs, d <+: q

/-- The same files and directories in a region. -/
def Agree (dirs : List Path) (a b : FS C) : Prop := ∀ q, InRegion dirs q → a q = b q

/-- The step changes only a region, and the directories above it that do not exist. -/
def Within (dirs : List Path) : Step C → Prop
  | .mkdirs p => InRegion dirs p
  | .write p _ => InRegion dirs p
  | .remove p => InRegion dirs p
  | .move s t => InRegion dirs s ∧ InRegion dirs t

/-- No directory of a region is in the other one. -/
def ApartDirs (a b : List Path) : Prop := ∀ x ∈ a, ∀ y ∈ b, ¬ x <+: y ∧ ¬ y <+: x

/-- What a program does and reads is in a region. -/
structure Confined (dirs : List Path) (f : Program C) (fs : FS C) : Prop where
  within : ∀ s ∈ f fs, Within dirs s
  reads : ∀ fs', Agree dirs fs' fs → f fs' = f fs

/-- The programs have regions that are apart. -/
structure Separated (programs : List (Program C)) (regions : List (List Path)) (fs : FS C) :
    Prop where
  length : programs.length = regions.length
  confined : ∀ (i : Nat) f r, programs[i]? = some f → regions[i]? = some r → Confined r f fs
  apart : ∀ (i j : Nat) a b, i ≠ j → regions[i]? = some a → regions[j]? = some b → ApartDirs a b

/-- The region of the task of a partition: its directory and its temporary directory. -/
def region (m : Machine C) (root parts : Path) : List Path :=
  [root ++ parts, tempDir m.hash (root ++ parts)]

/-- The paths of a collection and of the partitions of a batch: the names of the partitions have
a sign `=`, they have the same number of keys and are distinct, and the hashes of their paths are
distinct and have no sign `=`. -/
structure Placed (m : Machine C) (root : Path) (parts : List Path) : Prop where
  keys : ∀ p ∈ parts, p ≠ [] ∧ ∀ c ∈ p, '=' ∈ c.toList
  depth : ∀ p ∈ parts, ∀ q ∈ parts, p.length = q.length
  nodup : parts.Nodup
  hash : ∀ p, '=' ∉ (m.hash p).toList
  distinct : ∀ p ∈ parts, ∀ q ∈ parts, m.hash (root ++ p) = m.hash (root ++ q) → p = q

/-- `rmtree` removes all the nodes of a directory. -/
def Removes (m : Machine C) (d : Path) (fs : FS C) : Prop :=
  ∀ rel, (fs (d ++ rel)).isSome → rel ∈ m.order (sub fs d)

/-- A task that can be executed from a state: its groups can be written, and the removals that
it makes are complete. -/
structure Runnable (m : Machine C) (root : Path) (fs : FS C) (t : Job C) : Prop where
  inserted : ValidGroup t.inserted
  merged : ∀ g, t.merged (sub fs (root ++ t.parts)) = .ok g → ValidGroup g
  dest : Removes m (root ++ t.parts) fs
  temp : Removes m (tempDir m.hash (root ++ t.parts)) fs

/-- The records that are written can be read. -/
structure Faithful (c : Codec C R) : Prop where
  valid : ∀ rows, ValidGroup (c.encode rows)
  read : ∀ rows, c.decode (treeOf (c.encode rows).writes) = some rows

/-- The directory of a partition before an insertion: there is nothing, or there is a partition
that can be read.  The removals that the insertion may make are complete. -/
structure Sane (m : Machine C) (c : Codec C R) (root : Path) (fs : FS C) (k : Coll.Key) :
    Prop where
  whole : (partitionExists (root ++ c.path k) fs = true ∧
      (c.decode (sub fs (root ++ c.path k))).isSome) ∨
    ∀ q, root ++ c.path k <+: q → fs q = none
  dest : Removes m (root ++ c.path k) fs
  temp : Removes m (tempDir m.hash (root ++ c.path k)) fs

end Verif.Spec
