import Verif.Model.Py
import Verif.Model.Numpy
import Verif.Model.Sort
import Verif.Model.Dataset

/-! Model of `zcollection/indexing/abc.py`: the table of an index, its update and its
queries.

Simplification: the values of the columns are integers (other types of columns are seen through
an injective numbering); there are no null values. -/

namespace Verif.Ix

open Ds (mapPy)

/-- A row of a table, by column. -/
abbrev Row := List (String × Int)

/-- `pyarrow.Table` -/
structure Table where
  names : List String
  rows : List Row

/-- indexing/abc.py:86-106 `Indexer.__init__`: the attributes of an instance, and the file at
`self._path`. -/
structure State where
  keys : List String
  types : List String
  file : Option Table
  table : Option Table

/-- A NumPy structured array returned by the function given to `_update`. -/
structure Data where
  fields : List String
  rows : List (List Int)

/-- `dict.update` for one item. -/
def setCol : Row → String × Int → Row
  | [], x => [x]
  | y :: t, x => if y.1 = x.1 then x :: t else y :: setCol t x

/-- The same for the names of the columns. -/
def setName : List String → String → List String
  | [], n => [n]
  | m :: t, n => if m = n then n :: t else m :: setName t n

/-- indexing/abc.py:280-293, the table of one partition. -/
def tableOf (types : List String) (x : List (String × Int) × Data) : Py Table :=
  if x.2.fields.any (fun f => decide (f ∉ types)) then .error .keyError
  else if x.1.any (fun n => decide (n.1 ∉ types)) then .error .keyError
  else .ok
    { names := (x.1.map (·.1)).foldl setName x.2.fields
      rows := x.2.rows.map fun r => x.1.foldl setCol (x.2.fields.zip r) }

/-- indexing/abc.py:306-316, whether the row is one of the partition. -/
def inItem (r : Row) (item : List (String × Int)) : Bool :=
  item.all fun c => decide (r.lookup c.1 = some c.2)

/-- indexing/abc.py:303-321, the table without the updated partitions: `functools.reduce` raises
on an empty sequence, `table[name]` on an unknown name. -/
def withoutItems (t : Table) (items : List (List (String × Int))) : Py Table :=
  if items.any (fun item => decide (item = [])) then .error .typeError
  else if items.any (fun item => item.any fun c => decide (c.1 ∉ t.names)) then .error .keyError
  else .ok { t with rows := t.rows.filter fun r => !(items.any (inItem r)) }

/-- `pyarrow.concat_tables`: the tables must have the same schema. -/
def concatTables : List Table → Py Table
  | [] => .error .valueError
  | t :: rest =>
    if rest.any (fun u => decide (u.names ≠ t.names)) then .error .valueError
    else .ok { names := t.names, rows := t.rows ++ rest.flatMap (·.rows) }

/-- indexing/abc.py:251-332 `_update`; `results` is what `bag.compute()` gives.  Simplification:
the metadata of the schema are not modelled, the file is written at once. -/
def update (st : State) (results : Py (List (List (String × Int) × Data))) : State × Py Unit :=
  match results with
  | .error e => (st, .error e)
  | .ok l =>
    let l := l.filter fun x => decide (x.2.rows.length ≠ 0)
    match mapPy (tableOf st.types) l with
    | .error e => (st, .error e)
    | .ok tables =>
      if l = [] then (st, .ok ())
      else
        let all : Py (List Table) := match st.file with
          | none => .ok tables
          | some t => match withoutItems t (l.map (·.1)) with
            | .error e => .error e
            | .ok kept => .ok (kept :: tables)
        match all with
        | .error e => (st, .error e)
        | .ok all => match concatTables all with
          | .error e => (st, .error e)
          | .ok t => ({ st with file := some t, table := some t }, .ok ())

/-! ### Queries -/

/-- indexing/abc.py:350-355 `_read` -/
def read (st : State) : Py Table :=
  match st.table with
  | some t => .ok t
  | none => match st.file with
    | some t => .ok t
    | none => .error .osError

/-- A value of a column. -/
def colE (r : Row) (n : String) : Py Int :=
  match r.lookup n with
  | some v => .ok v
  | none => .error .keyError

/-- The values of the columns `names` (indexing/abc.py:375). -/
def colsE (r : Row) (names : List String) : Py Row :=
  mapPy (fun n => do
    let v ← colE r n
    .ok (n, v)) names

/-- indexing/abc.py:375-379, the columns of the partitioning and of the slices, by row. -/
def entry (names : List String) (r : Row) : Py (Row × Int × Int) := do
  let lab ← colsE r names
  let start ← colE r "start"
  let stop ← colE r "stop"
  .ok (lab, start, stop)

variable {L : Type} [DecidableEq L]

/-- `numpy.where(start[1:] - stop[:-1] > 0)[0] + 1` (indexing/abc.py:387). -/
def gaps (rows : List (L × Int × Int)) : List Nat :=
  (Np.where ((Np.pairs rows).map fun x => decide (x.2.2.1 - x.1.2.2 > 0))).map (· + 1)

/-- `numpy.where(numpy.roll(values, 1) != values)[0]` for all the columns
(indexing/abc.py:391-394): the rows that differ from the previous one, the last row being before
the first one. -/
def changes (rows : List (L × Int × Int)) : List Nat :=
  match rows.getLast? with
  | none => []
  | some last => Np.where (((last :: rows.dropLast).zip rows).map fun x => decide (x.1.1 ≠ x.2.1))

/-- indexing/abc.py:386-397, `numpy.unique` of the beginnings of the slices. -/
def chunks (rows : List (L × Int × Int)) : List Nat :=
  (Sort.isort (fun a b : Nat => decide (a ≤ b))
    ([0] ++ gaps rows ++ [rows.length] ++ changes rows)).eraseDups

/-- indexing/abc.py:400-402, one slice. -/
def sliceOf (rows : List (L × Int × Int)) (ix : Nat × Nat) : Py (L × (Int × Int)) :=
  match rows[ix.1]?, rows[ix.2 - 1]? with
  | some a, some b => .ok (a.1, (a.2.1, b.2.2))
  | _, _ => .error .indexError

/-- indexing/abc.py:357-402 `_table_2_indexer`, on the columns. -/
def toIndexer (rows : List (L × Int × Int)) : Py (List (L × (Int × Int))) :=
  mapPy (sliceOf rows) (Np.pairs (chunks rows))

/-- The order of `_sort_keys` (indexing/abc.py:169-172). -/
def lexLe : List Int → List Int → Bool
  | [], _ => true
  | _ :: _, [] => false
  | a :: s, b :: t => if a = b then lexLe s t else decide (a < b)

/-- The values by which the rows are sorted. -/
def sortKey (keys : List String) (r : Row) : Py (List Int) :=
  mapPy (colE r) (keys ++ ["start", "stop"])

/-- indexing/abc.py:461-463, a stable sort. -/
def sortRows (keys : List String) (rows : List Row) : Py (List Row) := do
  let l ← mapPy (fun r => do
    let k ← sortKey keys r
    .ok (k, r)) rows
  .ok ((Sort.isort (fun a b : List Int × Row => lexLe a.1 b.1) l).map (·.2))

/-- `pyarrow.compute.is_in(table[name], value_set=...)` for all the rows. -/
def isIn (types : List String) (t : Table) (c : String × List Int) : Py (List Bool) :=
  if c.1 ∉ t.names then .error .keyError
  else if c.1 ∉ types then .error .keyError
  else mapPy (fun r => do
    let v ← colE r c.1
    .ok (decide (v ∈ c.2))) t.rows

/-- The binary functions of `pyarrow.compute` (indexing/abc.py:427-432); `invert` has one
argument. -/
def logical (op : String) (a b : List Bool) : Py (List Bool) :=
  if op = "and" then .ok (List.zipWith (· && ·) a b)
  else if op = "and_not" then .ok (List.zipWith (fun x y => x && !y) a b)
  else if op = "or" then .ok (List.zipWith (· || ·) a b)
  else if op = "xor" then .ok (List.zipWith (fun x y => xor x y) a b)
  else .error .typeError

/-- `functools.reduce` -/
def reduceMasks (op : String) (acc : List Bool) : List (List Bool) → Py (List Bool)
  | [] => .ok acc
  | m :: t => do
    let acc ← logical op acc m
    reduceMasks op acc t

/-- `table.filter(mask)` -/
def applyMask (rows : List Row) (mask : List Bool) : Py (List Row) :=
  if mask.length ≠ rows.length then .error .valueError
  else .ok ((rows.zip mask).filterMap fun x => if x.2 then some x.1 else none)

/-- indexing/abc.py:450-458, the rows selected by the columns. -/
def selectRows (st : State) (op : String) (t : Table) (rows : List Row)
    (columns : List (String × List Int)) : Py (List Row) :=
  match columns with
  | [] => .ok rows
  | c :: rest => do
    let t := { t with rows := rows }
    let m ← isIn st.types t c
    let ms ← mapPy (isIn st.types t) rest
    let mask ← reduceMasks op m ms
    applyMask rows mask

/-- The rows given by the mask of the user (indexing/abc.py:446-447). -/
def maskRows (t : Table) : Option (List Bool) → Py (List Row)
  | none => .ok t.rows
  | some m => applyMask t.rows m

/-- The columns of the result (indexing/abc.py:370-372). -/
def columnNames (st : State) (only : Bool) : Py (List String) :=
  if only then .ok st.keys
  else match st.file with
    | none => .error .valueError
    | some _ => do
      let t ← read st
      .ok (t.names.filter fun n => decide (n ≠ "start" ∧ n ≠ "stop"))

/-- indexing/abc.py:404-464 `query`.  Simplification: the values of the columns are given as
lists. -/
def query (st : State) (columns : List (String × List Int)) (op : Option String)
    (mask : Option (List Bool)) (only : Bool) : Py (List (Row × (Int × Int))) :=
  if st.keys = [] then .ok []
  else
    let op := match op with
      | none => "and"
      | some s => if s = "" then "and" else s
    if op ∉ ["and", "and_not", "invert", "or", "xor"] then .error .valueError
    else if columns ≠ [] ∧ ∀ c ∈ columns, c.1 ∉ st.types then .error .valueError
    else do
      let t ← read st
      let rows ← maskRows t mask
      let rows ← selectRows st op t rows columns
      let rows ← sortRows st.keys rows
      let names ← columnNames st only
      let entries ← mapPy (entry names) rows
      toIndexer entries

end Verif.Ix
