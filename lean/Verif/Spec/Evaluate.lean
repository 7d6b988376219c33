import Verif.Model.Evaluate
import Verif.Spec.Dataset

/-! Specification of the evaluation of delayed datasets. -/

namespace Verif.Spec

open Nd Ds Vr Ev

variable {V : Type}

/-- What is assumed of the libraries: a value that is equal to another one is equal to itself, and
the chunks that zarr chooses are not empty. -/
structure Usual (lib : Lib V) : Prop where
  refl : ∀ x y, lib.num.eqv x y = true → lib.num.eqv y y = true
  rank : ∀ shape, (lib.guess shape).length = shape.length
  positive : ∀ shape, ∀ c ∈ lib.guess shape, 0 < c

/-- A delayed dataset as it is opened or built: its variables are delayed, have a value at each
index, and the blocks of each one fill its shape. -/
structure Lazy (grid : String → List (List Nat)) (ds : Dataset V) : Prop where
  consistent : Consistent ds
  delayed : ds.delayed = true
  arrays : ∀ v ∈ ds.vars, ArrOk v.array
  blocks : ∀ v ∈ ds.vars, (grid v.name).map List.sum = v.array.shape

/-- The step is not the method `persist` of a variable. -/
def NotVar : Op → Prop
  | .persistVar _ => False
  | _ => True

/-- The sizes of the blocks that are asked for are not zero. -/
def Positive : Op → Prop
  | .rechunk specs => ∀ name, Chunk.ChunkSpec.size 0 ∉ specs name
  | _ => True

/-- A delayed variable shows what a variable holds: same description, same values and same
missing values. -/
structure SameLazy (lib : Lib V) (w : Var V) (v : LVar V) : Prop where
  name : v.name = w.name
  dims : v.dims = w.dims
  fill : v.fill = w.fill
  props : v.props = w.props
  shape : v.body.shape = .ok w.array.shape
  values : v.values lib = valuesOf lib.num w

/-- A variable in memory shows what a variable holds. -/
structure SameEager (lib : Lib V) (w v : Var V) : Prop where
  name : v.name = w.name
  dims : v.dims = w.dims
  fill : v.fill = w.fill
  props : v.props = w.props
  eager : v.delayed = false
  values : valuesOf lib.num v = valuesOf lib.num w

/-- Two lists of the same length whose elements are related one by one. -/
def Pairs {α β : Type} (R : α → β → Prop) : List α → List β → Prop
  | [], [] => True
  | a :: s, b :: t => R a b ∧ Pairs R s t
  | _, _ => False

end Verif.Spec
