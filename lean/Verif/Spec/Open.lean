import Verif.Model.Open
import Verif.Spec.Meta

/-! Specification of what opening a collection or a view gives back. -/

namespace Verif.Spec

open Meta Opn

/-- The value of an attribute with a list in place of a tuple. -/
def listedVal : AttrVal → AttrVal
  | .scalar s => .scalar s
  | .list l => .list l
  | .tuple l => .list l

/-- Attributes with lists in place of tuples. -/
def listedAttrs (l : List Attr) : List Attr := l.map fun a => (a.1, listedVal a.2)

/-- Metadata with lists in place of tuples in the values of attributes. -/
def listed (d : Ds) : Ds :=
  { d with attrs := listedAttrs d.attrs
           vars := d.vars.map fun v => { v with attrs := listedAttrs v.attrs } }

/-- No attribute has a tuple as value. -/
def NoTuple (d : Ds) : Prop :=
  (∀ a ∈ d.attrs, ∀ t, a.2 ≠ .tuple t) ∧ ∀ v ∈ d.vars, ∀ a ∈ v.attrs, ∀ t, a.2 ≠ .tuple t

/-- The same collection: axis, metadata, partitioning and dimension of the partitioning.  The
directory and the mode are not compared. -/
structure SameColl (a b : Coll) : Prop where
  axis : a.axis = b.axis
  metadata : SameMeta a.metadata b.metadata
  handler : a.handler = b.handler
  dim : a.dim = b.dim

/-- The directories after a directory was renamed. -/
def renamed {F : Type} (disk : Disk F) (source target : String) : Disk F := fun p =>
  if p = target then disk source else if p = source then none else disk p

/-- The directories after a directory was copied. -/
def copied {F : Type} (disk : Disk F) (source target : String) : Disk F := fun p =>
  if p = target then disk source else disk p

end Verif.Spec
