import Verif.Model.MergeDataset
import Verif.Spec.Dataset
import Verif.Spec.TimeSeries

/-! Specification of a dataset that holds a list of records. -/

namespace Verif.Spec

open Nd Ds

variable {V : Type}

/-- The content of a record: for each variable, its values at the indices; the coordinate of the
index along the dimension of the partitioning does not matter. -/
abbrev Content (V : Type) := String → List Nat → Option V

/-- The values of the record `j` of the variables. -/
def contentAt (dim : String) (vars : List (Var V)) (j : Nat) : Content V :=
  fun name idx => (getVar vars name).bind fun v => (v.dims.idxOf? dim).bind fun ax =>
    v.array.get (idx.set ax j)

/-- The dimensions, the fill value and the other properties of a variable. -/
abbrev Signature (V : Type) := String → Option (List String × Option V × Nat)

/-- The variables hold the records `l`, in this order, along the dimension `x.dim`: they are
those of `sig`, each with the dimension `x.dim`, of the size `size` along the other dimensions;
the record `j` has the time and the content of `l[j]`. -/
structure HoldsRecords (x : TSD.Axis V) (sig : Signature V) (size : String → Nat)
    (vars : List (Var V)) (l : List (Int × Content V)) : Prop where
  names : (vars.map (·.name)).Nodup
  signature : ∀ n, (getVar vars n).map (fun v => (v.dims, v.fill, v.props)) = sig n
  arrays : ∀ v ∈ vars, ArrOk v.array
  dims : ∀ v ∈ vars, v.dims.Nodup ∧ x.dim ∈ v.dims
  shapes : ∀ v ∈ vars,
    v.array.shape = v.dims.map fun d => if d = x.dim then l.length else size d
  axis : ∃ v ∈ vars, v.name = x.axis ∧ v.dims = [x.dim] ∧
    ∀ (j : Nat) (r : Int × Content V), l[j]? = some r →
      ∃ y, v.array.get [j] = some y ∧ x.asTime y = some r.1
  records : ∀ (j : Nat) (r : Int × Content V), l[j]? = some r → r.2 = contentAt x.dim vars j

/-- The dataset holds the records `l`. -/
structure Series (x : TSD.Axis V) (sig : Signature V) (size : String → Nat) (delayed : Bool)
    (ds : Dataset V) (l : List (Int × Content V)) : Prop extends
    HoldsRecords x sig size ds.vars l where
  consistent : Consistent ds
  kind : ds.delayed = delayed

end Verif.Spec
