import Verif.Model.Schema
import Verif.Spec.Dataset

/-! Specification of a collection whose partitions follow its metadata. -/

namespace Verif.Spec

open Nd Ds Sch

variable {P V : Type}

/-- The collection has finitely many partitions. -/
def Bounded (st : Upd.Store P V) : Prop := ∃ l : List P, ∀ p, st p ≠ none → p ∈ l

/-- The listing is exact: each partition once. -/
def GoodWorld (w : World P V) : Prop :=
  ∀ st, Bounded st → (w.list st).Nodup ∧ ∀ p, p ∈ w.list st ↔ st p ≠ none

/-- The variables of a partition are those of the metadata that have the dimension of the
partitioning, with the same dimensions, and agree on the size of each dimension. -/
structure Fits (o : Obj V) (vars : List (Var V)) : Prop where
  nodup : (vars.map (·.name)).Nodup
  names : ∀ n, n ∈ vars.map (·.name) ↔ ∃ m ∈ o.metas, m.name = n ∧ o.dim ∈ m.dims
  dims : ∀ v ∈ vars, ∀ m ∈ o.metas, m.name = v.name → v.dims = m.dims
  sizes : ∃ size : String → Nat, ∀ v ∈ vars, v.array.shape = v.dims.map size

/-- The configuration describes the object. -/
def Describes (c : Config V) (o : Obj V) : Prop :=
  c.axis = o.axis ∧ c.keys = o.keys ∧ c.dims = o.dims ∧ c.metas.Perm o.metas

/-- The files of a collection are in step with its metadata. -/
structure Aligned (o : Obj V) (fs : Files P V) : Prop where
  /-- the variables have distinct names -/
  nodup : (o.metas.map (·.name)).Nodup
  /-- the variables of the partitioning are variables of the metadata -/
  keys : ∀ k ∈ o.keys, ∃ m ∈ o.metas, m.name = k
  /-- the configuration is the one of the object -/
  config : ∃ c, fs.config = .ok c ∧ Describes c o
  /-- each partition stores the variables of the metadata -/
  parts : ∀ p vars, fs.parts p = some vars → Fits o vars
  /-- the object knows whether there are variables that are not split -/
  immutable : o.imm = true ↔ ∃ m ∈ o.metas, o.dim ∉ m.dims
  /-- which are stored when there is a partition -/
  stored : o.imm = true → (∃ p, fs.parts p ≠ none) → fs.imm ≠ none
  immNames : ∀ iv, fs.imm = some iv → ∀ n, n ∈ iv.map (·.name) ↔
    ∃ m ∈ o.metas, m.name = n ∧ o.dim ∉ m.dims
  bounded : Bounded fs.parts

/-- The axis is a variable of the metadata, and its first dimension is the one of the
partitioning. -/
def AxisKept (o : Obj V) : Prop := ∃ a ∈ o.metas, a.name = o.axis ∧ a.dims.head? = some o.dim

/-- All the values of the array are `x`, and it has one at each index within its bounds. -/
def Constant (a : Arr V) (x : V) : Prop :=
  ArrOk a ∧ ∀ idx y, a.get idx = some y → y = x

/-- A dataset with the variables of `dims`, which gives the dimensions of each one. -/
structure HasSchema (dims : String → Option (List String)) (ds : Dataset V) : Prop where
  consistent : Consistent ds
  ranks : ∀ v ∈ ds.vars, v.array.shape.length = v.dims.length
  schema : ∀ n, (getVar ds.vars n).map (·.dims) = dims n

/-- A merge callback that keeps the variables of two datasets with the same variables. -/
def KeepsSchema (f : Merge V) : Prop :=
  ∀ dims a b r, HasSchema dims a → HasSchema dims b → a.delayed = b.delayed → f a b = .ok r →
    (r.vars.map (·.name)).Nodup ∧ (∀ n, (getVar r.vars n).map (·.dims) = dims n) ∧
    ∃ size : String → Nat, ∀ v ∈ r.vars, v.array.shape = v.dims.map size

/-- A dataset that can be inserted: it is consistent, its arrays have one axis for each
dimension, and its variables have the dimensions of the metadata. -/
structure Insertable (o : Obj V) (ds : Dataset V) : Prop where
  consistent : Consistent ds
  ranks : ∀ v ∈ ds.vars, v.array.shape.length = v.dims.length
  dims : ∀ v ∈ ds.vars, ∀ m ∈ o.metas, m.name = v.name → v.dims = m.dims

end Verif.Spec
