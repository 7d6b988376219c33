import Verif.Model.Schema
import Verif.Model.Split

/-!
The split of a dataset: partitioning/abc.py (`split_dataset`, `index_dataset`), above the
split of the columns of keys (Model/Split).

Simplifications: the dtype of an array is the type of its values, so that an array without
value has every dtype; the mixture of signed and unsigned integers, which numpy converts to
floating point numbers, is not modelled.  A partition is identified by the values of its keys
(the path is in Model/Path).
-/

namespace Verif.Pipe

open Nd Ds

variable {V : Type}

/-- A partitioning: its variables, whether it is a `Date` or a `Sequence`, and the key of a
value: an integer, or a date at the resolution of the partitioning (partitioning/date.py:142,
Model/Calendar); `none` is a value of another type (sequence.py:107-108, date.py:138-139). -/
structure Scheme (V : Type) where
  variables : List String
  date : Bool
  asKey : V → Option Int

/-- partitioning/abc.py:329-331: `zds.variables[item]` of each variable of the partitioning,
and the number of its dimensions. -/
def keyVars (zds : Dataset V) : List String → Py (List (Var V))
  | [] => .ok []
  | n :: t => do
    let v ← getVarE zds.vars n
    let _ ← Split.checkDims [v.array.shape.length]
    let vs ← keyVars zds t
    .ok (v :: vs)

/-- The values of an array of one dimension. -/
def column (a : Arr V) : List V :=
  match a.shape with
  | [n] => (List.range n).filterMap fun i => a.get [i]
  | _ => []

/-- The keys of a column; a value of another type raises `TypeError`. -/
def keysOf (sc : Scheme V) (l : List V) : Py (List Int) :=
  mapPy (fun x => match sc.asKey x with | none => .error .typeError | some k => .ok k) l

/-- sequence.py:91-124 `_split` of the columns of values: the columns are stacked before their
type is checked. -/
def splitSequence (sc : Scheme V) (delayed : Bool) (columns : List (List V)) :
    Py (List (List Int × (Nat × Nat))) :=
  match mapPy (keysOf sc) columns with
  | .ok cols => do
    let pieces ← Split.sequenceSplit (sc.variables.zip cols) true delayed
    .ok (pieces.map fun p => (p.1.map (·.2), p.2))
  | .error _ => do
    let pieces ← Split.sequenceSplit
      (sc.variables.zip (columns.map fun c => c.map fun _ => 0)) false delayed
    .ok (pieces.map fun p => (p.1.map (·.2), p.2))

/-- date.py:122-146 `_split`: the first column only; `asKey` already truncates. -/
def splitDate (sc : Scheme V) (delayed : Bool) (columns : List (List V)) :
    Py (List (List Int × (Nat × Nat))) :=
  match columns with
  | [] => .error .indexError
  | c :: _ => do
    let keys ← keysOf sc c
    let pieces ← Split.dateSplit keys true delayed id
    .ok (pieces.map fun p => ([p.1], p.2))

/-- partitioning/abc.py:289-334 `split_dataset` and `index_dataset`: the keys of the partitions
and the slices of the dataset.  The dimension of the slices is an argument of the caller; it
is not compared with the dimension of the variables of the partitioning. -/
def splitDataset (sc : Scheme V) (zds : Dataset V) : Py (List (List Int × (Nat × Nat))) := do
  let vars ← keyVars zds sc.variables
  let columns := vars.map fun v => column v.array
  if sc.date then splitDate sc zds.delayed columns else splitSequence sc zds.delayed columns

end Verif.Pipe
