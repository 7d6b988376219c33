import Verif.Model.View

/-!
`ReadOnlyCollection.load` (collection/abc.py:561-658, collection/detail.py:445-475).

Simplifications: the last line of `load`, `fill_attrs`, is in Model/Schema and Model/Attributes;
the keys of a partition and its path are identified; the filters are predicates on partitions (their evaluation is in
Model/Expression, the listing in Model/Listing); a slice is given by its bounds, without step.
-/

namespace Verif.Ld

open Nd Ds Upd

variable {P V : Type} [DecidableEq P]

/-- What does not change during a load: the dimension of the partitioning, the arguments
`delayed` and `selected_variables`, and the immutable variables. -/
structure Opts (V : Type) where
  dim : String
  delayed : Bool
  sel : Option (List String)
  imm : Option (List (Var V))

/-- collection/abc.py:648-658 the datasets one after the other, then the immutable variables. -/
def finish (o : Opts V) (arrays : List (Dataset V)) : Py (Dataset V) := do
  let zds ← joinGroups o.dim arrays
  match o.imm with
  | none => .ok zds
  | some iv => do
    let ids ← openGroup o.delayed o.sel iv
    mergeInto zds ids

/-- collection/abc.py:599-612 without indexer; `listing` are the partitions of the
collection. -/
def load (o : Opts V) (st : Store P V) (listing : List P) (filters : P → Bool) :
    Py (Option (Dataset V)) :=
  if listing.filter filters = [] then .ok none
  else do
    let arrays ← mapPy (openPart o.delayed o.sel st) (listing.filter filters)
    let zds ← finish o arrays
    .ok (some zds)

/-- collection/abc.py:69-88 `list_partitions_from_indexer` -/
def fromIndexer (le : P → P → Bool) (indexer : List (P × (Nat × Nat))) : List P :=
  Sort.isort le (indexer.map (·.1)).eraseDups

/-- collection/detail.py:445-475 `_load_and_apply_indexer` -/
def loadSlices (o : Opts V) (st : Store P V) (x : P × List (Nat × Nat)) :
    Py (List (Dataset V)) := do
  let zds ← openPart o.delayed o.sel st x.1
  mapPy (fun (s : Nat × Nat) => isel zds [(o.dim, .slice ⟨some (s.1 : Int), some (s.2 : Int),
    none⟩)]) x.2

/-- collection/abc.py:613-658 with an indexer: the partitions are those of the indexer, the
collection is not listed (lines 619-623). -/
def loadIndexed (o : Opts V) (le : P → P → Bool) (st : Store P V) (filters : P → Bool)
    (indexer : List (P × (Nat × Nat))) : Py (Option (Dataset V)) :=
  let args := Vw.indexerArgs le indexer ((fromIndexer le indexer).filter filters)
  if args = [] then .ok none
  else do
    let arrays ← mapPy (loadSlices o st) args
    let zds ← finish o arrays.flatten
    .ok (some zds)

end Verif.Ld
