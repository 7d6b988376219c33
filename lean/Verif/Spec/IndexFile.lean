import Verif.Model.IndexFile
import Verif.Spec.Index

/-! Specification of the life of an index. -/

namespace Verif.Spec

open Ix

/-- What the function of an update returns for an index with these columns and keys. -/
def GoodRows (dtype schema : List (String × String)) (l : List (List (String × Int) × Data)) :
    Prop :=
  (l.map (·.1)).Nodup ∧ ∀ x ∈ l, x.1.map (·.1) = schema.map (·.1) ∧
    x.2.fields = dtype.map (·.1) ∧ ∀ v ∈ x.2.rows, v.length = dtype.length

/-- The call is made on an object that exists; the function of an update either raises or returns
the columns of the class; an index is created with the metadata `info`. -/
def AllowedCall (dtype schema : List (String × String)) (info : List (String × String)) (w : World) :
    Call → Prop
  | .create _ m => m = info
  | .reopen _ => True
  | .update i r => w.objs i ≠ none ∧ ∀ l, r = .ok l → GoodRows dtype schema l
  | .query i _ _ _ _ => w.objs i ≠ none
  | .table i => w.objs i ≠ none

/-- All the calls are allowed, when they are made. -/
def AllowedCalls (dtype schema : List (String × String)) (info : List (String × String)) :
    World → List Call → Prop
  | _, [] => True
  | w, c :: t => AllowedCall dtype schema info w c ∧
    AllowedCalls dtype schema info (w.step dtype schema c) t

/-- The rows of the file, none when there is no file. -/
def rowsIn : Option File → List Row
  | none => []
  | some g => g.table.rows

/-- The call computes the rows `d` of the partition. -/
def WritesRows (c : Call) (part : List (String × Int)) (d : Data) : Prop :=
  ∃ i l, c = .update i (.ok l) ∧ (part, d) ∈ l ∧ d.rows ≠ []

/-- The keys of the partitioning are not columns of the class. -/
def KeysApart (dtype schema : List (String × String)) : Prop :=
  ((dtype ++ schema).map (·.1)).Nodup

end Verif.Spec
