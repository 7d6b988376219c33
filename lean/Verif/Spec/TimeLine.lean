import Verif.Spec.MergeDataset
import Verif.Spec.Pipeline

/-! Specification of a collection that holds a time series. -/

namespace Verif.Spec

open Nd Ds

variable {V : Type} {α : Type}

/-- The instant is among those that the inserted times replace: without tolerance, between the
first and the last one; with a tolerance, covered by them. -/
def Hidden (tol : Option Int) (times : List Int) (t : Int) : Prop :=
  match tol with
  | none => (∃ a ∈ times, a ≤ t) ∧ ∃ b ∈ times, t ≤ b
  | some d => Covered d times t

/-- The inserted times, or a piece of them, end at `a`. -/
def EndOf (tol : Option Int) (times : List Int) (a : Int) : Prop :=
  match tol with
  | none => IsMax a times
  | some d => PieceEnd d times a

/-- The partitioning has one variable, the axis of the time series; the partition of a record is
`keyOf` of its time, which does not decrease. -/
structure ByTime (x : TSD.Axis V) (sc : Pipe.Scheme V) (keyOf : Int → Int) : Prop where
  variables : sc.variables = [x.axis]
  keys : ∀ y t, x.asTime y = some t → sc.asKey y = some (keyOf t)
  monotone : ∀ s t, s ≤ t → keyOf s ≤ keyOf t

/-- The records of the partition `k`. -/
def inPart (keyOf : Int → Int) (k : List Int) (l : List (Int × α)) : List (Int × α) :=
  l.filter fun r => decide ([keyOf r.1] = k)

/-- The variables have distinct names; those with the dimension `x.dim` hold the records `l`, the
other ones have the sizes `size`. -/
def HoldsLine (x : TSD.Axis V) (sig : Signature V) (size : String → Nat) (vars : List (Var V))
    (l : List (Int × Content V)) : Prop :=
  (vars.map (·.name)).Nodup ∧
  HoldsRecords x sig size (vars.filter fun v => decide (x.dim ∈ v.dims)) l ∧
  ∀ v ∈ vars, x.dim ∉ v.dims → v.array.shape = v.dims.map size

/-- An insertion with `merge_time_series`: the records of the dataset, the tolerance, and whether
the insertion returned. -/
structure Step (V : Type) where
  records : List (Int × Content V)
  tol : Option Int
  done : Bool

/-- The files after insertions of strictly increasing records, one after the other, whatever their
outcomes. -/
inductive Filled (w : Sch.World (List Int) V) (o : Sch.Obj V) (x : TSD.Axis V) (sig : Signature V)
    (size : String → Nat) : Sch.Files (List Int) V → List (Step V) → Sch.Files (List Int) V → Prop
  | start (fs : Sch.Files (List Int) V) : Filled w o x sig size fs [] fs
  | insert {fs fs' fs'' : Sch.Files (List Int) V} {steps : List (Step V)}
      (before : Filled w o x sig size fs steps fs') (faults : Sch.Faults (List Int))
      (validate : Bool) (np : Option Int) (tol : Option Int) (ds ds' : Dataset V)
      (l : List (Int × Content V)) (r : Py (List (List Int)))
      (insertable : Insertable o ds) (arrays : ∀ v ∈ ds.vars, ArrOk v.array)
      (call : Sch.insert w o faults validate np (some (TSD.mergeTimeSeries x tol)) ds fs' =
        (ds', fs'', r))
      (holds : HoldsLine x sig size ds'.vars l) (sorted : StrictSorted l) :
      Filled w o x sig size fs (steps ++ [⟨l, tol, r.isOk⟩]) fs''

/-- The listing of the stored partitions is exact and in the order of the keys. -/
def OrderedListing (w : Sch.World (List Int) V) (st : Upd.Store (List Int) V) : Prop :=
  (w.list st).Pairwise (· < ·) ∧ ∀ k, k ∈ w.list st ↔ st k ≠ none

/-- The record was inserted, and no later insertion that returned replaced it. -/
def Survives (keyOf : Int → Int) (steps : List (Step V)) (r : Int × Content V) : Prop :=
  ∃ before s after, steps = before ++ s :: after ∧ r ∈ s.records ∧
    ∀ s' ∈ after, s'.done = true →
      ¬ Hidden s'.tol ((inPart keyOf [keyOf r.1] s'.records).map (·.1)) r.1

/-- The record was inserted by an insertion that returned, and no later insertion replaced it or
ended exactly one tick before it, in its partition. -/
def Kept (keyOf : Int → Int) (steps : List (Step V)) (r : Int × Content V) : Prop :=
  ∃ before s after, steps = before ++ s :: after ∧ s.done = true ∧ r ∈ s.records ∧
    ∀ s' ∈ after, ¬ Hidden s'.tol ((inPart keyOf [keyOf r.1] s'.records).map (·.1)) r.1 ∧
      ∀ a, EndOf s'.tol ((inPart keyOf [keyOf r.1] s'.records).map (·.1)) a → r.1 ≠ a + 1

/-- No record of an insertion lies exactly one tick after the records of a later one, in its
partition. -/
def NoTick (keyOf : Int → Int) (steps : List (Step V)) : Prop :=
  ∀ before s after, steps = before ++ s :: after → ∀ r ∈ s.records, ∀ s' ∈ after,
    ∀ a, EndOf s'.tol ((inPart keyOf [keyOf r.1] s'.records).map (·.1)) a → r.1 ≠ a + 1

end Verif.Spec
