import Verif.Model.Index

/-! Specification of an index. -/

namespace Verif.Spec

open Ix

/-- The row belongs to the partition. -/
def InPart (part : List (String × Int)) (r : Row) : Prop :=
  ∀ c ∈ part, r.lookup c.1 = some c.2

instance (part : List (String × Int)) (r : Row) : Decidable (InPart part r) := by
  unfold InPart
  infer_instance

/-- The rows of the partition. -/
def computedRows (part : List (String × Int)) (rows : List Row) : List Row :=
  rows.filter fun r => decide (InPart part r)

/-- The rows are those that were computed for the partition: the values of the fields, and the
keys of the partition. -/
structure Computed (part : List (String × Int)) (d : Data) (rows : List Row) : Prop where
  count : rows.length = d.rows.length
  values : ∀ (i : Nat) (v : List Int) (r : Row), d.rows[i]? = some v → rows[i]? = some r →
    ∀ n, r.lookup n = if n ∈ part.map (·.1) then part.lookup n else (d.fields.zip v).lookup n

/-- What the function given to an update returns: for partitions that are distinct, with the keys
of the index, a value for each of the fields. -/
structure GoodResults (st : State) (names : List String)
    (l : List (List (String × Int) × Data)) : Prop where
  parts : (l.map (·.1)).Nodup
  keys : ∀ x ∈ l, x.1.map (·.1) = st.keys
  fields : ∀ x ∈ l, x.2.fields = names
  rows : ∀ x ∈ l, ∀ v ∈ x.2.rows, v.length = names.length

/-- The columns of the index. -/
structure GoodIndex (st : State) (fields : List String) : Prop where
  keys : st.keys ≠ []
  nodup : st.keys.Nodup
  types : ∀ n ∈ st.keys ++ fields, n ∈ st.types
  file : ∀ t, st.file = some t → t.names = st.keys.foldl setName fields ∧
    ∀ r ∈ t.rows, r.map (·.1) = t.names

/-- The rows of the table, none when there is no file. -/
def fileRows (st : State) : List Row :=
  match st.file with
  | none => []
  | some t => t.rows

/-! ### Queries -/

/-- The row satisfies the condition on one column. -/
def Satisfies (r : Row) (c : String × List Int) : Prop := ∃ v ∈ c.2, r.lookup c.1 = some v

instance (r : Row) (c : String × List Int) : Decidable (Satisfies r c) := by
  unfold Satisfies
  infer_instance

/-- The row satisfies the conditions: all of them, one of them, the first one and no other one, an
odd number of them.  No condition is satisfied by all the rows. -/
def Matching (op : String) (columns : List (String × List Int)) (r : Row) : Prop :=
  columns = [] ∨
  op = "and" ∧ (∀ c ∈ columns, Satisfies r c) ∨
  op = "or" ∧ (∃ c ∈ columns, Satisfies r c) ∨
  op = "and_not" ∧ (∃ c rest, columns = c :: rest ∧ Satisfies r c ∧ ∀ d ∈ rest, ¬ Satisfies r d) ∨
  op = "xor" ∧ (columns.filter fun c => decide (Satisfies r c)).length % 2 = 1

/-- The record `j` of what the label selects is in one of the slices. -/
def Selected {L : Type} (out : List (L × (Int × Int))) (lab : L) (j : Int) : Prop :=
  ∃ s, (lab, s) ∈ out ∧ s.1 ≤ j ∧ j < s.2

/-- The record `j` is in one of the rows with the label. -/
def InRows {L : Type} (rows : List (L × Int × Int)) (lab : L) (j : Int) : Prop :=
  ∃ a b, (lab, a, b) ∈ rows ∧ a ≤ j ∧ j < b

/-- The record `j` of the partition is one of those of the row. -/
def RowCovers (r : Row) (j : Int) : Prop :=
  ∃ a b, r.lookup "start" = some a ∧ r.lookup "stop" = some b ∧ a ≤ j ∧ j < b

/-- The row is one of the table, kept by the mask, and satisfies the conditions. -/
def Matched (t : Table) (mask : Option (List Bool)) (op : String)
    (columns : List (String × List Int)) (r : Row) : Prop :=
  ∃ i : Nat, t.rows[i]? = some r ∧ (∀ m, mask = some m → m[i]? = some true) ∧
    Matching op columns r

/-- No row is strictly inside another one with the same values in the columns `names`. -/
def NotNested (names : List String) (R : Row → Prop) : Prop :=
  ∀ r r' a b a' b', R r → R r' → (∀ n ∈ names, r.lookup n = r'.lookup n) →
    r.lookup "start" = some a → r.lookup "stop" = some b → r'.lookup "start" = some a' →
    r'.lookup "stop" = some b' → a < a' → b ≤ b'

/-- The table of the index has the columns of the partitioning and of the slices, and the query
names columns of the table. -/
structure GoodQuery (st : State) (t : Table) (columns : List (String × List Int))
    (mask : Option (List Bool)) : Prop where
  keys : st.keys ≠ []
  table : read st = .ok t
  names : ∀ n ∈ st.keys ++ ["start", "stop"], n ∈ t.names
  rows : ∀ r ∈ t.rows, ∀ n ∈ t.names, r.lookup n ≠ none
  columns : ∀ c ∈ columns, c.1 ∈ t.names ∧ c.1 ∈ st.types
  mask : ∀ m, mask = some m → m.length = t.rows.length

end Verif.Spec
