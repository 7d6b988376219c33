import Verif.Model.Index

/-! Model of the life of an index (`zcollection/indexing/abc.py`): the objects that are created and
opened, and the file they share.

Simplification: a type of column is its name; the metadata are pairs of strings. -/

namespace Verif.Ix

/-- The attributes of an instance (indexing/abc.py:86-106). -/
structure Obj where
  keys : List String
  types : List (String × String)
  cache : Option Table
  info : List (String × String)

/-- The file: the table, the types of its columns, and the metadata of its schema. -/
structure File where
  table : Table
  types : List (String × String)
  info : Option (List (String × String))

/-- `dict.update` for the type of one column. -/
def setType : List (String × String) → String × String → List (String × String)
  | [], x => [x]
  | y :: t, x => if y.1 = x.1 then x :: t else y :: setType t x

/-- indexing/abc.py:153-199 `_create` and `_set_schema`; `dtype` are the columns that the class
declares (lines 117-151) and `schema` the keys of the partitioning, both with their types.
Simplification: `dtype` does not depend on the arguments. -/
def create (dtype schema : List (String × String)) (info : List (String × String)) : Obj where
  keys := schema.map (·.1)
  types := schema.foldl setType dtype
  cache := none
  info := info

/-- indexing/abc.py:222-249 `open` -/
def openFile (dtype : List (String × String)) : Option File → Py Obj
  | none => .error .osError
  | some g =>
    .ok { keys := (g.types.map (·.1)).filter fun n => decide (n ∉ dtype.map (·.1))
          types := g.types
          cache := none
          info := match g.info with
            | some m => m
            | none => [] }

/-- What the update and the queries use. -/
def Obj.state (o : Obj) (f : Option File) : State where
  keys := o.keys
  types := o.types.map (·.1)
  file := f.map (·.table)
  table := o.cache

/-- The types of the columns of a table (indexing/abc.py:280-289). -/
def columnTypes (types : List (String × String)) (t : Table) : List (String × String) :=
  t.names.filterMap fun n => (types.lookup n).map fun ty => (n, ty)

/-- Nothing to write (indexing/abc.py:276-278, 298-299). -/
def emptyResults : Py (List (List (String × Int) × Data)) → Bool
  | .error _ => true
  | .ok l => l.all fun x => decide (x.2.rows.length = 0)

/-- indexing/abc.py:328-332: the metadata of the first table, those of the object when there are
none. -/
def infoOf (o : Obj) (f : Option File) : Option (List (String × String)) :=
  let old := f.bind (·.info)
  if o.info ≠ [] ∧ old = none then some o.info else old

/-- indexing/abc.py:251-332 `_update`, by an object: `pyarrow.concat_tables` raises when the types
of the columns of the file are not those of the object. -/
def updateObj (o : Obj) (f : Option File) (results : Py (List (List (String × Int) × Data))) :
    (Obj × Option File) × Py Unit :=
  match update (o.state f) results with
  | (_, .error e) => ((o, f), .error e)
  | (st, .ok ()) =>
    if emptyResults results then ((o, f), .ok ())
    else match st.file with
      | none => ((o, f), .ok ())
      | some t =>
        let types := columnTypes o.types t
        if f.any (fun g => decide (g.types ≠ types)) then ((o, f), .error .valueError)
        else (({ o with cache := some t }, some { table := t, types := types, info := infoOf o f }),
          .ok ())

/-- indexing/abc.py:350-355 `_read`, the table is read once. -/
def readObj (o : Obj) (f : Option File) : Obj × Py Table :=
  match read (o.state f) with
  | .error e => (o, .error e)
  | .ok t => ({ o with cache := some t }, .ok t)

/-- The query ends before the table is read (indexing/abc.py:424-436). -/
def refuses (st : State) (columns : List (String × List Int)) (op : Option String) : Bool :=
  decide (st.keys = []) ||
  decide ((match op with
    | none => "and"
    | some s => if s = "" then "and" else s) ∉ ["and", "and_not", "invert", "or", "xor"]) ||
  decide (columns ≠ [] ∧ ∀ c ∈ columns, c.1 ∉ st.types)

/-- indexing/abc.py:404-464 `query`, by an object. -/
def queryObj (o : Obj) (f : Option File) (columns : List (String × List Int)) (op : Option String)
    (mask : Option (List Bool)) (only : Bool) : Obj × Py (List (Row × (Int × Int))) :=
  (if refuses (o.state f) columns op then o else (readObj o f).1,
    query (o.state f) columns op mask only)

/-- indexing/abc.py:466-478 `table` -/
def tableObj (o : Obj) (f : Option File) : Obj × Py Table :=
  match f with
  | none => (o, .error .valueError)
  | some _ => readObj o f

/-- Several objects and their file. -/
structure World where
  file : Option File
  objs : Nat → Option Obj

/-- The calls on the objects. -/
inductive Call where
  | create (i : Nat) (info : List (String × String))
  | reopen (i : Nat)
  | update (i : Nat) (results : Py (List (List (String × Int) × Data)))
  | query (i : Nat) (columns : List (String × List Int)) (op : Option String)
      (mask : Option (List Bool)) (only : Bool)
  | table (i : Nat)

/-- The object `i` becomes `o`. -/
def World.set (w : World) (i : Nat) (o : Obj) : World :=
  { w with objs := fun j => if j = i then some o else w.objs j }

/-- One call, on an index of the class `dtype` and of a collection with the keys `schema`
(indexing/abc.py:175-478). -/
def World.step (dtype schema : List (String × String)) (w : World) : Call → World
  | .create i info => w.set i (create dtype schema info)
  | .reopen i => match openFile dtype w.file with
    | .ok o => w.set i o
    | .error _ => w
  | .update i results => match w.objs i with
    | some o =>
      let r := updateObj o w.file results
      { (w.set i r.1.1) with file := r.1.2 }
    | none => w
  | .query i columns op mask only => match w.objs i with
    | some o => w.set i (queryObj o w.file columns op mask only).1
    | none => w
  | .table i => match w.objs i with
    | some o => w.set i (tableObj o w.file).1
    | none => w

/-- The calls, one after the other (indexing/abc.py:175-478). -/
def World.run (dtype schema : List (String × String)) (w : World) (calls : List Call) : World :=
  calls.foldl (World.step dtype schema) w

/-- Before the first call. -/
def World.start : World := { file := none, objs := fun _ => none }

end Verif.Ix
