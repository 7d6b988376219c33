import Verif.Spec.Index
import Verif.Spec.Load

/-! Specification of the use of an index to load records. -/

namespace Verif.Spec

open Nd Ds Upd Ix

variable {V : Type}

/-- What a row, or a record, has in each column. -/
abbrev Values := String → Option Int

/-- One of the values asked for. -/
def Meets1 (f : Values) (c : String × List Int) : Prop := ∃ v ∈ c.2, f c.1 = some v

instance (f : Values) (c : String × List Int) : Decidable (Meets1 f c) := by
  unfold Meets1
  infer_instance

/-- The conditions of a query, on the values: all of them, one of them, the first one and no
other one, an odd number of them. -/
def Meets (op : String) (columns : List (String × List Int)) (f : Values) : Prop :=
  columns = [] ∨
  op = "and" ∧ (∀ c ∈ columns, Meets1 f c) ∨
  op = "or" ∧ (∃ c ∈ columns, Meets1 f c) ∨
  op = "and_not" ∧ (∃ c rest, columns = c :: rest ∧ Meets1 f c ∧ ∀ d ∈ rest, ¬ Meets1 f d) ∨
  op = "xor" ∧ (columns.filter fun c => decide (Meets1 f c)).length % 2 = 1

/-- The record `j` is between the beginning and the end of the row. -/
def ValuesCover (f : Values) (j : Nat) : Prop :=
  ∃ a b : Int, f "start" = some a ∧ f "stop" = some b ∧ a ≤ j ∧ j < b

/-- The rows describe the `n` records of a partition, which have the values `attr j` in the
columns `names`: each row has the values of all its records, each record is in a row, and no row
is inside another one. -/
structure RowsDescribe (names : List String) (attr : Nat → Values) (n : Nat) (rows : List Values) :
    Prop where
  inside : ∀ f ∈ rows, ∃ a b : Int, f "start" = some a ∧ f "stop" = some b ∧ 0 ≤ a ∧ a < b ∧ b ≤ n
  values : ∀ f ∈ rows, ∀ j, ValuesCover f j → ∀ c ∈ names, f c = attr j c
  all : ∀ j, j < n → ∃ f ∈ rows, ValuesCover f j
  apart : ∀ f ∈ rows, ∀ g ∈ rows, ∀ a b a' b', f "start" = some a → f "stop" = some b →
    g "start" = some a' → g "stop" = some b' → a < a' → b ≤ b'

/-- The columns of a row. -/
def rowValues (r : Row) : Values := fun n => r.lookup n

/-- The columns of a row computed for a partition: the keys, and the fields. -/
def dataValues (part : Row) (fields : List String) (v : List Int) : Values := fun n =>
  if n ∈ part.map (·.1) then part.lookup n else (fields.zip v).lookup n

/-- The index describes the records of the partitions, and nothing else. -/
structure UpToDate (st : State) (names : List String) (parts : Store Row V) (size : Row → Nat)
    (attr : Row → Nat → Values) : Prop where
  keys : ∀ p, parts p ≠ none → p.map (·.1) = st.keys
  known : ∀ r ∈ fileRows st, ∃ p, parts p ≠ none ∧ InPart p r
  described : ∀ p, parts p ≠ none →
    RowsDescribe names (attr p) (size p) ((computedRows p (fileRows st)).map rowValues)

/-- The first key by which the partitions differ is smaller in `p`. -/
def Before (p q : Row) : Prop :=
  ∃ common n a b s t, p = common ++ (n, a) :: s ∧ q = common ++ (n, b) :: t ∧ a < b

/-- The segments are those of the records asked for, each one once, by partition and in order. -/
structure Retrieves (asked : Row → Nat → Prop) (segs : List (Row × (Nat × Nat))) : Prop where
  some : ∀ s ∈ segs, s.2.1 < s.2.2
  order : segs.Pairwise fun s s' => s.1 = s'.1 ∧ s.2.2 < s'.2.1 ∨ Before s.1 s'.1
  exact : ∀ p j, (∃ lo hi, (p, (lo, hi)) ∈ segs ∧ lo ≤ j ∧ j < hi) ↔ asked p j

/-- The function computes the rows of each of the partitions. -/
structure Indexes (func : Callback V Data) (c : Cfg Row V) (parts : Store Row V)
    (fields names : List String) (size : Row → Nat) (attr : Row → Nat → Values) : Prop where
  result : ∀ p ∈ c.parts, ∃ zds d, loadDataset c parts p = .ok zds ∧ func zds none = .ok d ∧
    d.fields = fields ∧ (∀ v ∈ d.rows, v.length = fields.length) ∧
    RowsDescribe names (attr p) (size p) (d.rows.map (dataValues p fields))

end Verif.Spec
