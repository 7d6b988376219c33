import Verif.Model.Py

/-!
Model of the configuration of partitioning handlers: `zcollection/partitioning/abc.py`
(`__init__`, `get_config`, `from_config`, `dtype`, `__len__`), `sequence.py`, `date.py`
(`__init__`, `_keys`) and `registry.py` (`get_codecs`).
-/

namespace Verif.Config

/-- partitioning/abc.py:43-44. -/
def dataTypes : List String :=
  ["int8", "int16", "int32", "int64", "uint8", "uint16", "uint32", "uint64"]

/-- partitioning/date.py:21. -/
def resolutions : List String := ["Y", "M", "D", "h", "m", "s"]

/-- partitioning/date.py:24. -/
def units : List String := ["year", "month", "day", "hour", "minute", "second"]

/-- partitioning/date.py:27. -/
def unitTypes : List String := ["uint16", "uint8", "uint8", "uint8", "uint8", "uint8"]

/-- The classes of handlers. -/
inductive Cls where
  | sequence
  | date
  deriving DecidableEq, Repr

/-- An instance of a handler: the class and the attributes (slots) of the instance. -/
structure Handler where
  cls : Cls
  variables : List String
  dtypes : List String
  /-- Only set for `Date`. -/
  resolution : Option String
  deriving DecidableEq, Repr

/-- partitioning/abc.py:229-247 (`Partitioning.__init__`).  Simplification: a `dtype` that is
a string is not modelled. -/
def initBase (cls : Cls) (variables : List String) (dtype : Option (List String))
    (resolution : Option String) : Py Handler :=
  if variables = [] then .error .valueError
  else
    let dtypes := match dtype with
      | some d => d
      | none => variables.map fun _ => "int64"
    if dtypes.all (· ∈ dataTypes) then .ok ⟨cls, variables, dtypes, resolution⟩
    else .error .valueError

/-- partitioning/sequence.py:62 (the constructor is inherited). -/
def mkSequence (variables : List String) (dtype : Option (List String)) : Py Handler :=
  initBase .sequence variables dtype none

/-- partitioning/date.py:87-102. -/
def mkDate (variables : List String) (resolution : String) : Py Handler :=
  if variables.length ≠ 1 then .error .valueError
  else
    match resolutions.idxOf? resolution with
    | none => .error .valueError
    | some i => initBase .date variables (some (unitTypes.take (i + 1))) (some resolution)

/-- partitioning/abc.py:257-259 and date.py:104-106 (`_keys`). -/
def keys (h : Handler) : List String :=
  match h.cls with
  | .sequence => h.variables
  | .date => units.take h.dtypes.length

/-- partitioning/abc.py:253-255 (`dtype`). -/
def dtype (h : Handler) : List (String × String) := (keys h).zip h.dtypes

/-- partitioning/abc.py:249-251 (`__len__`). -/
def len (h : Handler) : Nat := h.dtypes.length

/-- Values of a configuration. -/
inductive CfgVal where
  | str (s : String)
  | strs (l : List String)
  deriving DecidableEq, Repr

/-- A configuration (a dictionary, also after a trip through JSON: tuples become lists). -/
abbrev Cfg := List (String × CfgVal)

/-- partitioning/abc.py:336-348 (`get_config`): the identifier and the slots whose name does
not start with an underscore. -/
def getConfig (h : Handler) : Cfg :=
  match h.cls with
  | .sequence => [("id", .str "Sequence"), ("variables", .strs h.variables)]
  | .date => [("id", .str "Date"), ("variables", .strs h.variables)] ++
      (match h.resolution with
        | some r => [("resolution", .str r)]
        | none => [])

/-- `Sequence(**config)`: unexpected and missing arguments raise `TypeError`. -/
def sequenceArgs (config : Cfg) : Py Handler :=
  if config.any fun kv => kv.1 ≠ "variables" ∧ kv.1 ≠ "dtype" then .error .typeError
  else
    match config.lookup "variables", config.lookup "dtype" with
    | some (.strs v), none => mkSequence v none
    | some (.strs v), some (.strs d) => mkSequence v (some d)
    | _, _ => .error .typeError

/-- `Date(**config)`. -/
def dateArgs (config : Cfg) : Py Handler :=
  if config.any fun kv => kv.1 ≠ "variables" ∧ kv.1 ≠ "resolution" then .error .typeError
  else
    match config.lookup "variables", config.lookup "resolution" with
    | some (.strs v), some (.str r) => mkDate v r
    | _, _ => .error .typeError

/-- partitioning/registry.py:19-37 (`get_codecs`) with the two registered classes: the
handler and the dictionary of the caller after the call (the key `id` is removed from it). -/
def getCodecs (config : Cfg) : Py Handler × Cfg :=
  let rest := config.filter fun kv => kv.1 ≠ "id"
  match config.lookup "id" with
  | some (.str "Sequence") => (sequenceArgs rest, rest)
  | some (.str "Date") => (dateArgs rest, rest)
  | _ => (.error .valueError, rest)

end Verif.Config
