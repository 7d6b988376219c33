import Verif.Model.Calendar

/-!
Model of the textual form of partition keys: `zcollection/partitioning/abc.py` (`_regex`,
`parse`, `join`), `zcollection/partitioning/sequence.py` (`encode`, `decode`) and
`zcollection/partitioning/date.py` (`join`, `_stringify`, `encode`).

Strings are lists of characters.
-/

namespace Verif.Path

/-- `f'{v}'` for an integer. -/
def fmtInt (v : Int) : List Char :=
  if v < 0 then '-' :: Nat.toDigits 10 (-v).toNat else Nat.toDigits 10 v.toNat

/-- `f'{v:02d}'`: at least two characters, padded with a zero after the sign. -/
def fmt02 (v : Int) : List Char :=
  if v < 0 then '-' :: Nat.toDigits 10 (-v).toNat
  else
    let d := Nat.toDigits 10 v.toNat
    if d.length < 2 then '0' :: d else d

/-- Value of a non-empty string of decimal digits. -/
def natOf (s : List Char) : Option Nat :=
  if s ≠ [] ∧ s.all Char.isDigit = true then some (Nat.ofDigitChars 10 s 0) else none

/-- `int(s)` (partitioning/abc.py:377).  Simplification: surrounding blanks, underscores
between digits and non-ASCII digits, which Python accepts too, are refused. -/
def pyInt (s : List Char) : Py Int :=
  let r := match s with
    | '-' :: t => (natOf t).map fun n => -(n : Int)
    | '+' :: t => (natOf t).map fun n => (n : Int)
    | t => (natOf t).map fun n => (n : Int)
  match r with
  | some v => .ok v
  | none => .error .valueError

/-- partitioning/abc.py:402-412 (`join`) and date.py:157-174, with the format of the values
as a parameter. -/
def joinWith (fmt : Int → List Char) (sep : List Char) : List (String × Int) → List Char
  | [] => []
  | [kv] => kv.1.toList ++ '=' :: fmt kv.2
  | kv :: t => kv.1.toList ++ '=' :: (fmt kv.2 ++ sep ++ joinWith fmt sep t)

/-- partitioning/abc.py:402-412. -/
def join : List (String × Int) → List Char := joinWith fmtInt ['/']

/-- partitioning/date.py:157-174. -/
def joinDate : List (String × Int) → List Char := joinWith fmt02 ['/']

/-! ### The regular expression -/

/-- Match a literal at the start of a string; the rest is returned. -/
def strip : List Char → List Char → Option (List Char)
  | [], s => some s
  | _ :: _, [] => none
  | c :: p, d :: s => if c = d then strip p s else none

/-- `(.*)` of length `n`, one character matched by `.`, then the rest of the expression. -/
def attempt {β : Type} (f : List Char → Option β) (s : List Char) (n : Nat) :
    Option (List Char × β) :=
  match s.drop n with
  | [] => none
  | c :: t => if c = '\n' then none else (f t).map fun r => (s.take n, r)

/-- Greedy: the longest length first, then backtracking. -/
def tryLengths {β : Type} (f : List Char → Option β) (s : List Char) :
    Nat → Option (List Char × β)
  | 0 => attempt f s 0
  | n + 1 =>
    match attempt f s (n + 1) with
    | some r => some r
    | none => tryLengths f s n

/-- partitioning/abc.py:261-263 (`_regex`): the expression `(k1)=(.*).(k2)=(.*)...` matched
at the start of the string.  `.` matches all characters but the newline.  Simplification:
the names of the keys are taken literally (no character special in regular expressions). -/
def matchAt : List String → List Char → Option (List (String × List Char))
  | [], _ => some []
  | k :: ks, s =>
    match strip (k.toList ++ ['=']) s with
    | none => none
    | some rest =>
      let line := rest.takeWhile (· ≠ '\n')
      match ks with
      | [] => some [(k, line)]
      | _ :: _ => (tryLengths (matchAt ks) rest line.length).map fun r => (k, r.1) :: r.2

/-- `re.search`: the leftmost match. -/
def search (keys : List String) : List Char → Option (List (String × List Char))
  | [] => matchAt keys []
  | c :: s =>
    match matchAt keys (c :: s) with
    | some r => some r
    | none => search keys s

/-- Conversion of the values of the groups (partitioning/abc.py:377). -/
def convert : List (String × List Char) → Py (List (String × Int))
  | [] => .ok []
  | (k, s) :: t => do
    let v ← pyInt s
    let r ← convert t
    return (k, v) :: r

/-- partitioning/abc.py:361-377 (`parse`). -/
def parse (keys : List String) (partition : List Char) : Py (List (String × Int)) :=
  match search keys partition with
  | none => .error .valueError
  | some groups => convert groups

/-! ### Sequence -/

/-- partitioning/sequence.py:127-148 (`Sequence.encode`). -/
def seqEncode (keys : List String) (partition : List (String × Int)) : Py (List Int) := do
  let r ← parse keys (join partition)
  return r.map (·.2)

/-- partitioning/sequence.py:150-165 (`Sequence.decode`). -/
def seqDecode (keys : List String) (values : List Int) : List (String × Int) := keys.zip values

/-! ### Date -/

/-- partitioning/date.py:30-37 (`SEPARATORS`); an unknown unit raises `KeyError`. -/
def separator (unit : String) : Py Char :=
  if unit = "year" then .ok '-' else if unit = "month" then .ok '-'
  else if unit = "day" then .ok 'T' else if unit = "hour" then .ok ':'
  else if unit = "minute" then .ok ':' else if unit = "second" then .ok '.'
  else .error .keyError

/-- partitioning/date.py:151-152: the formatted values followed by their separators. -/
def stringifyAll : List (String × Int) → Py (List Char)
  | [] => .ok []
  | (item, value) :: t => do
    let sep ← separator item
    let r ← stringifyAll t
    return fmt02 value ++ sep :: r

/-- partitioning/date.py:148-155 (`_stringify`). -/
def stringify (partition : List (String × Int)) : Py (List Char) := do
  let s ← stringifyAll partition
  match s.getLast? with
  | none => .error .indexError
  | some c => if c ∈ ['-', 'T', ':', '.'] then return s.dropLast else return s

/-- Two digits. -/
def twoDigits : List Char → Option (Int × List Char)
  | a :: b :: t =>
    if a.isDigit ∧ b.isDigit then some ((Nat.ofDigitChars 10 [a, b] 0 : Nat), t) else none
  | _ => none

/-- Four digits. -/
def fourDigits : List Char → Option (Int × List Char)
  | a :: b :: c :: d :: t =>
    if a.isDigit ∧ b.isDigit ∧ c.isDigit ∧ d.isDigit then
      some ((Nat.ofDigitChars 10 [a, b, c, d] 0 : Nat), t)
    else none
  | _ => none

/-- The rest of the string as a list of two-digit fields, each after its separator. -/
def isoFields : List Char → List Char → Option (List Int)
  | _, [] => some []
  | [], _ :: _ => none
  | sep :: seps, c :: t =>
    if c = sep then
      match twoDigits t with
      | none => none
      | some (v, r) => (isoFields seps r).map (v :: ·)
    else none

/-- `numpy.datetime64(string)` (partitioning/date.py:196): ISO date `YYYY[-MM[-DD[Thh[:mm[:ss]]]]]`;
the unit is that of the last field.  Simplifications: only years of four digits are
accepted, and no time zone, sign, fraction of a second or blank. -/
def numpyDatetime64 (s : List Char) : Py (Cal.Res × Int) :=
  match fourDigits s with
  | none => .error .valueError
  | some (y, r) =>
    match isoFields ['-', '-', 'T', ':', ':'] r with
    | none => .error .valueError
    | some [] => .ok (.year, y - 1970)
    | some (m :: ms) =>
      if m < 1 ∨ m > 12 then .error .valueError
      else
        match ms with
        | [] => .ok (.month, (y - 1970) * 12 + (m - 1))
        | d :: ds =>
          match (Cal.monthTable (Cal.isLeap y))[(m - 1).toNat]? with
          | none => .error .valueError
          | some len =>
            if d < 1 ∨ d > len then .error .valueError
            else
              let days := Cal.daysOfCivil y m d
              match ds with
              | [] => .ok (.day, days)
              | h :: hs =>
                if h > 23 then .error .valueError
                else
                  match hs with
                  | [] => .ok (.hour, days * 24 + h)
                  | mi :: mis =>
                    if mi > 59 then .error .valueError
                    else
                      match mis with
                      | [] => .ok (.minute, (days * 24 + h) * 60 + mi)
                      | [sec] =>
                        if sec > 59 then .error .valueError
                        else .ok (.second, ((days * 24 + h) * 60 + mi) * 60 + sec)
                      | _ => .error .valueError

/-- partitioning/date.py:176-196 (`Date.encode`). -/
def dateEncode (partition : List (String × Int)) : Py (Cal.Res × Int) := do
  let s ← stringify partition
  numpyDatetime64 s

/-- partitioning/date.py:24, 106 (`UNITS`, `Date._keys`). -/
def dateKeys (res : Cal.Res) : List String :=
  ["year", "month", "day", "hour", "minute", "second"].take (res.index + 1)

/-- partitioning/date.py:110-119 (`Date._partition`): the directory names of a partition. -/
def datePartition (res : Cal.Res) (date : Int) : Py (List (List Char)) := do
  let fields ← Cal.decode res date
  return fields.map fun kv => kv.1.toList ++ '=' :: fmt02 kv.2

/-- partitioning/abc.py:283-285 (`_partition`): the directory names of a partition. -/
def seqPartition (selection : List (String × Int)) : List (List Char) :=
  selection.map fun kv => kv.1.toList ++ '=' :: fmtInt kv.2

/-- The directory names joined by the separator of the file system
(collection/__init__.py: `join_path(base_dir, *partition)`). -/
def joinNames : List (List Char) → List Char
  | [] => []
  | [n] => n
  | n :: t => n ++ '/' :: joinNames t

end Verif.Path
