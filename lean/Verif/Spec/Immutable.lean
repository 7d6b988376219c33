import Verif.Spec.Pipeline
import Verif.Spec.Frame

/-! Specification of the variables that are not split: the name of the axis and the name of its
dimension. -/

namespace Verif.Spec

open Nd Ds Sch Pipe

variable {V : Type}

/-- No variable of this name has the dimension `axis`. -/
def NoSuchDim (axis name : String) (vars : List (Var V)) : Prop :=
  ∀ v ∈ vars, v.name = name → axis ∉ v.dims

/-- The collection has variables that are not split, its axis is `axis`, and the variable `name`
does not have a dimension with the name of the axis. -/
structure OtherName (axis name : String) (o : Obj V) : Prop where
  named : o.axis = axis
  unsplit : o.imm = true
  lacks : ∀ m ∈ o.metas, m.name = name → axis ∉ m.dims

/-- The dataset of an insertion is like the metadata in this respect. -/
def OtherNameCall (axis name : String) : Call (List Int) V → Prop
  | .insert _ _ _ _ ds => NoSuchDim axis name ds.vars
  | _ => True

/-- The states of the files after calls, successful or not, of the objects of such a collection,
which is opened again at any time. -/
inductive Attempts (w : World (List Int) V) (axis name : String) :
    Files (List Int) V → Files (List Int) V → Prop
  | start (fs : Files (List Int) V) : Attempts w axis name fs fs
  | call {fs fs1} (o : Obj V) (c : Call (List Int) V) : Attempts w axis name fs fs1 →
      OtherName axis name o → OtherNameCall axis name c →
      Attempts w axis name fs (exec w o fs1 c).2.1
  | opened {fs fs1} (readOnly : Bool) : Attempts w axis name fs fs1 →
      Attempts w axis name fs (fromConfig w readOnly fs1).1

end Verif.Spec
