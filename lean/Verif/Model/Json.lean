import Verif.Model.Py

/-!
Model of the texts that the package reads and writes with the module `json` of Python: the
configurations of the collections and of the views and the attributes of the arrays
(collection/__init__.py:245-247 and 288-289, view/__init__.py:143-155 and 184-185,
storage.py:130-132 and 208-217).  `json.dump(value, stream, indent=…)` writes the pieces made by
the encoder one after the other, so that an error leaves what comes before it in the file;
`json.load` decodes a whole file.

The module `json` is the one of the standard library (json/encoder.py and json/decoder.py of
CPython); it is called with its default options but for the indentation.  Simplifications: values
are trees (an object that contains itself is refused by `json` and not modelled); strings have no
lone surrogate, and decoding an escaped lone surrogate is an error; a float is the decimal number
that its text denotes.
-/

namespace Verif.Json

/-- A sequence of digits that is not empty. -/
abbrev Digits := Fin 10 × List (Fin 10)

/-- A float: with a fraction and maybe an exponent, with an exponent only, or not finite. -/
inductive Flt where
  | dec (neg : Bool) (int : Nat) (frac : Digits) (exp : Option (Bool × Digits))
  | sci (neg : Bool) (int : Nat) (eneg : Bool) (exp : Digits)
  | nan
  | inf (neg : Bool)
  deriving DecidableEq, Repr

/-- The key of a dictionary; `other` is any key that `json` refuses. -/
inductive Key where
  | str (s : String)
  | int (i : Int)
  | float (f : Flt)
  | bool (b : Bool)
  | null
  | other
  deriving DecidableEq, Repr

/-- A value of Python; `other` is any value that `json` refuses (a set, a date, an integer of
numpy inside a list, …). -/
inductive V where
  | null
  | bool (b : Bool)
  | int (i : Int)
  | float (f : Flt)
  | str (s : String)
  | list (l : List V)
  | tuple (l : List V)
  | dict (d : List (Key × V))
  | other

/-! ### Writing -/

/-- Digits of a number: `fuel` is more than the number. -/
def natDigits : Nat → Nat → List (Fin 10)
  | 0, _ => []
  | fuel + 1, n =>
    if h : n < 10 then [⟨n, h⟩]
    else natDigits fuel (n / 10) ++ [⟨n % 10, Nat.mod_lt _ (by omega)⟩]

/-- The character of a digit. -/
def digitChar (d : Fin 10) : Char := Char.ofNat (48 + d.val)

/-- `int.__repr__` of a number that is not negative -/
def natText (n : Nat) : List Char := (natDigits (n + 1) n).map digitChar

/-- The sign of a number. -/
def signText (neg : Bool) : List Char := if neg then ['-'] else []

/-- `int.__repr__` (json/encoder.py `_intstr`) -/
def intText (i : Int) : List Char := signText (decide (i < 0)) ++ natText i.natAbs

/-- The digits of a fraction or of an exponent. -/
def digitsText (d : Digits) : List Char := (d.1 :: d.2).map digitChar

/-- The exponent of a float. -/
def expText (neg : Bool) (d : Digits) : List Char :=
  'e' :: (if neg then '-' else '+') :: digitsText d

/-- json/encoder.py `floatstr`: `float.__repr__`, or the names of the values that are not
finite -/
def fltText : Flt → List Char
  | .dec neg int frac none => signText neg ++ natText int ++ '.' :: digitsText frac
  | .dec neg int frac (some e) =>
    signText neg ++ natText int ++ '.' :: digitsText frac ++ expText e.1 e.2
  | .sci neg int eneg d => signText neg ++ natText int ++ expText eneg d
  | .nan => "NaN".toList
  | .inf neg => signText neg ++ "Infinity".toList

/-- A digit of a number written in base 16. -/
def hexDigit (n : Nat) : Char := if n < 10 then Char.ofNat (48 + n) else Char.ofNat (87 + n)

/-- `'\\u{0:04x}'.format(n)` -/
def hexText (n : Nat) : List Char :=
  ['\\', 'u', hexDigit (n / 4096), hexDigit (n / 256 % 16), hexDigit (n / 16 % 16),
    hexDigit (n % 16)]

/-- json/encoder.py `py_encode_basestring_ascii`: one character -/
def charText (c : Char) : List Char :=
  if c = '"' then ['\\', '"']
  else if c = '\\' then ['\\', '\\']
  else if c = '\n' then ['\\', 'n']
  else if c = '\r' then ['\\', 'r']
  else if c = '\t' then ['\\', 't']
  else if c.toNat = 12 then ['\\', 'f']
  else if c.toNat = 8 then ['\\', 'b']
  else if 32 ≤ c.toNat ∧ c.toNat ≤ 126 then [c]
  else if c.toNat < 65536 then hexText c.toNat
  else hexText (55296 + (c.toNat - 65536) / 1024) ++ hexText (56320 + (c.toNat - 65536) % 1024)

/-- The escaped characters of a string. -/
def charsText : List Char → List Char
  | [] => []
  | c :: t => charText c ++ charsText t

/-- A string between quotes. -/
def strText (s : List Char) : List Char := '"' :: (charsText s ++ ['"'])

/-- `true` and `false` -/
def boolText (b : Bool) : List Char := if b then "true".toList else "false".toList

/-- json/encoder.py `_iterencode_dict`: the string that a key becomes; none if the key is
refused -/
def keyStr : Key → Option String
  | .str s => some s
  | .int i => some (String.ofList (intText i))
  | .float f => some (String.ofList (fltText f))
  | .bool b => some (String.ofList (boolText b))
  | .null => some "null"
  | .other => none

/-- What is written, a character at a time; `none` is the place where `TypeError` is raised. -/
abbrev Out := List (Option Char)

/-- Characters that are written. -/
def put (t : List Char) : Out := t.map some

/-- json/encoder.py `_iterencode_dict`: a key -/
def keyOut (k : Key) : Out :=
  match keyStr k with
  | none => [none]
  | some s => put (strText s.toList)

/-- A new line and the indentation of a level. -/
def newline (width level : Nat) : List Char := '\n' :: List.replicate (width * level) ' '

mutual
/-- json/encoder.py `_make_iterencode` with an indentation of `width`: the pieces of the text
of a value inside `level` containers -/
def emit (width : Nat) : Nat → V → Out
  | _, .null => put "null".toList
  | _, .bool b => put (boolText b)
  | _, .int i => put (intText i)
  | _, .float f => put (fltText f)
  | _, .str s => put (strText s.toList)
  | _, .list [] => put ['[', ']']
  | level, .list (v :: t) =>
    put ('[' :: newline width (level + 1)) ++ emit width (level + 1) v ++
      emitElems width (level + 1) t ++ put (newline width level ++ [']'])
  | _, .tuple [] => put ['[', ']']
  | level, .tuple (v :: t) =>
    put ('[' :: newline width (level + 1)) ++ emit width (level + 1) v ++
      emitElems width (level + 1) t ++ put (newline width level ++ [']'])
  | _, .dict [] => put ['{', '}']
  | level, .dict ((k, v) :: t) =>
    put ('{' :: newline width (level + 1)) ++ keyOut k ++ put [':', ' '] ++
      emit width (level + 1) v ++ emitPairs width (level + 1) t ++
      put (newline width level ++ ['}'])
  | _, .other => [none]

/-- json/encoder.py `_iterencode_list`: the elements after the first -/
def emitElems (width : Nat) : Nat → List V → Out
  | _, [] => []
  | level, v :: t =>
    put (',' :: newline width level) ++ emit width level v ++ emitElems width level t

/-- json/encoder.py `_iterencode_dict`: the items after the first -/
def emitPairs (width : Nat) : Nat → List (Key × V) → Out
  | _, [] => []
  | level, (k, v) :: t =>
    put (',' :: newline width level) ++ keyOut k ++ put [':', ' '] ++ emit width level v ++
      emitPairs width level t
end

/-- The characters written before an error, or all of them. -/
def written : Out → List Char
  | [] => []
  | none :: _ => []
  | some c :: t => c :: written t

/-- `json.dump(value, stream, indent=width)`: what is in the file, and whether the call
returns -/
def dump (width : Nat) (v : V) : List Char × Py Unit :=
  let o := emit width 0 v
  (written o, if none ∈ o then .error .typeError else .ok ())

/-! ### Reading -/

/-- json/decoder.py `WHITESPACE` -/
def isSpace (c : Char) : Bool := c == ' ' || c == '\t' || c == '\n' || c == '\r'

/-- Skips the white space. -/
def skip : List Char → List Char
  | [] => []
  | c :: t => if isSpace c then skip t else c :: t

/-- A digit. -/
def digitOf (c : Char) : Option (Fin 10) :=
  if h : 48 ≤ c.toNat ∧ c.toNat - 48 < 10 then some ⟨c.toNat - 48, h.2⟩ else none

/-- The digits at the beginning of a text, and the rest. -/
def digits : List Char → List (Fin 10) × List Char
  | [] => ([], [])
  | c :: t =>
    match digitOf c with
    | none => ([], c :: t)
    | some d => (d :: (digits t).1, (digits t).2)

/-- The number that digits denote. -/
def natOf (l : List (Fin 10)) : Nat := l.foldl (fun n d => 10 * n + d.val) 0

/-- json/scanner.py `NUMBER_RE`: `-?` -/
def signOf : List Char → Bool × List Char
  | [] => (false, [])
  | c :: t => if c = '-' then (true, t) else (false, c :: t)

/-- json/scanner.py `NUMBER_RE`: `(?:0|[1-9]\d*)` -/
def intOf (t : List Char) : Option (Nat × List Char) :=
  match digits t with
  | ([], _) => none
  | (d :: ds, r) => if d.val = 0 then some (0, t.tail) else some (natOf (d :: ds), r)

/-- json/scanner.py `NUMBER_RE`: `(\.\d+)?` -/
def fracOf : List Char → Option Digits × List Char
  | [] => (none, [])
  | c :: t =>
    if c = '.' then
      match digits t with
      | ([], _) => (none, c :: t)
      | (d :: ds, r) => (some (d, ds), r)
    else (none, c :: t)

/-- json/scanner.py `NUMBER_RE`: `[-+]?\d+` -/
def expDigits (t : List Char) : Option ((Bool × Digits) × List Char) :=
  match t with
  | [] => none
  | c :: t' =>
    match digits (if c = '-' ∨ c = '+' then t' else c :: t') with
    | ([], _) => none
    | (d :: ds, r) => some ((decide (c = '-'), (d, ds)), r)

/-- json/scanner.py `NUMBER_RE`: `([eE][-+]?\d+)?` -/
def expOf : List Char → Option (Bool × Digits) × List Char
  | [] => (none, [])
  | c :: t =>
    if c = 'e' ∨ c = 'E' then
      match expDigits t with
      | none => (none, c :: t)
      | some (e, r) => (some e, r)
    else (none, c :: t)

/-- json/scanner.py `py_make_scanner`: a number -/
def number (t : List Char) : Option (V × List Char) :=
  let (neg, t1) := signOf t
  match intOf t1 with
  | none => none
  | some (n, t2) =>
    let (frac, t3) := fracOf t2
    let (exp, t4) := expOf t3
    match frac, exp with
    | none, none => some (.int (if neg then -(n : Int) else n), t4)
    | some d, e => some (.float (.dec neg n d e), t4)
    | none, some (eneg, d) => some (.float (.sci neg n eneg d), t4)

/-- A digit in base 16. -/
def hexOf (c : Char) : Option Nat :=
  if 48 ≤ c.toNat ∧ c.toNat ≤ 57 then some (c.toNat - 48)
  else if 97 ≤ c.toNat ∧ c.toNat ≤ 102 then some (c.toNat - 87)
  else if 65 ≤ c.toNat ∧ c.toNat ≤ 70 then some (c.toNat - 55)
  else none

/-- State of the decoding of a string: in the text; after a high surrogate; after a backslash;
inside the digits of an escaped character (how many are missing, and the number so far).  `hi`
is the high surrogate that comes before. -/
inductive St where
  | text
  | high (hi : Nat)
  | slash (hi : Option Nat)
  | hex (hi : Option Nat) (left : Nat) (acc : Nat)
  deriving DecidableEq, Repr

/-- One character of a string: the string ends, it is not a string, or it goes on, maybe with a
character decoded. -/
inductive Step where
  | stop
  | fail
  | next (st : St) (c : Option Char)

/-- json/decoder.py `BACKSLASH` -/
def backslash (c : Char) : Option Char :=
  if c = '"' then some '"'
  else if c = '\\' then some '\\'
  else if c = '/' then some '/'
  else if c = 'b' then some (Char.ofNat 8)
  else if c = 'f' then some (Char.ofNat 12)
  else if c = 'n' then some '\n'
  else if c = 'r' then some '\r'
  else if c = 't' then some '\t'
  else none

/-- json/decoder.py `_decode_uXXXX` and the lines after it: the four digits are read -/
def decoded (hi : Option Nat) (n : Nat) : Step :=
  match hi with
  | none =>
    if 55296 ≤ n ∧ n ≤ 56319 then .next (.high n) none
    else if 56320 ≤ n ∧ n ≤ 57343 then .fail
    else .next .text (some (Char.ofNat n))
  | some h =>
    if 56320 ≤ n ∧ n ≤ 57343 then
      .next .text (some (Char.ofNat (65536 + (h - 55296) * 1024 + (n - 56320))))
    else .fail

/-- json/decoder.py `py_scanstring`, a character at a time -/
def step : St → Char → Step
  | .text, c =>
    if c = '"' then .stop
    else if c = '\\' then .next (.slash none) none
    else if c.toNat < 32 then .fail
    else .next .text (some c)
  | .high h, c => if c = '\\' then .next (.slash (some h)) none else .fail
  | .slash hi, c =>
    if c = 'u' then .next (.hex hi 4 0) none
    else
      match hi, backslash c with
      | none, some d => .next .text (some d)
      | _, _ => .fail
  | .hex hi left acc, c =>
    match hexOf c with
    | none => .fail
    | some d =>
      if left ≤ 1 then decoded hi (16 * acc + d) else .next (.hex hi (left - 1) (16 * acc + d)) none

/-- json/decoder.py `py_scanstring`: a string after its first quote, and the rest -/
def scan : St → List Char → Option (List Char × List Char)
  | _, [] => none
  | st, c :: t =>
    match step st c with
    | .stop => some ([], t)
    | .fail => none
    | .next st' none => scan st' t
    | .next st' (some d) => (scan st' t).map fun r => (d :: r.1, r.2)

/-- `dict` of pairs: the last value of a key, at the place of the first. -/
def setItem (k : String) (v : V) : List (String × V) → List (String × V)
  | [] => [(k, v)]
  | (k', v') :: t => if k' = k then (k, v) :: t else (k', v') :: setItem k v t

/-- `dict(pairs)` -/
def dictOf (l : List (String × V)) : List (String × V) :=
  l.foldl (fun d kv => setItem kv.1 kv.2 d) []

/-- A dictionary whose keys are strings. -/
def obj (l : List (String × V)) : V := .dict ((dictOf l).map fun kv => (.str kv.1, kv.2))

/-- A word at the beginning of a text. -/
def word : List Char → List Char → Option (List Char)
  | [], t => some t
  | _ :: _, [] => none
  | c :: w, d :: t => if c = d then word w t else none

/-- json/scanner.py `_scan_once`: the words and the numbers -/
def scalar (t : List Char) : Option (V × List Char) :=
  match word "null".toList t with
  | some r => some (.null, r)
  | none =>
    match word "true".toList t with
    | some r => some (.bool true, r)
    | none =>
      match word "false".toList t with
      | some r => some (.bool false, r)
      | none =>
        match number t with
        | some x => some x
        | none =>
          match word "NaN".toList t with
          | some r => some (.float .nan, r)
          | none =>
            match word "Infinity".toList t with
            | some r => some (.float (.inf false), r)
            | none =>
              match word "-Infinity".toList t with
              | some r => some (.float (.inf true), r)
              | none => none

mutual
/-- json/scanner.py `_scan_once`: a value at the beginning of a text, and the rest; `fuel` is
more than the number of characters -/
def value : Nat → List Char → Option (V × List Char)
  | 0, _ => none
  | _ + 1, [] => none
  | fuel + 1, c :: t =>
    if c = '"' then (scan .text t).map fun r => (.str (String.ofList r.1), r.2)
    else if c = '{' then
      match skip t with
      | [] => none
      | d :: t' =>
        if d = '}' then some (.dict [], t')
        else if d = '"' then (pairs fuel t').map fun r => (obj r.1, r.2)
        else none
    else if c = '[' then
      match skip t with
      | [] => none
      | d :: t' =>
        if d = ']' then some (.list [], t')
        else (elems fuel (d :: t')).map fun r => (.list r.1, r.2)
    else scalar (c :: t)

/-- json/decoder.py `JSONArray`: the elements of a list that is not empty, to its end -/
def elems : Nat → List Char → Option (List V × List Char)
  | 0, _ => none
  | fuel + 1, t =>
    match value fuel t with
    | none => none
    | some (v, t1) =>
      match skip t1 with
      | [] => none
      | c :: t2 =>
        if c = ']' then some ([v], t2)
        else if c = ',' then (elems fuel (skip t2)).map fun r => (v :: r.1, r.2)
        else none

/-- json/decoder.py `JSONObject`: the pairs of a dictionary that is not empty, after the quote
that begins its first key, to its end -/
def pairs : Nat → List Char → Option (List (String × V) × List Char)
  | 0, _ => none
  | fuel + 1, t =>
    match scan .text t with
    | none => none
    | some (k, t1) =>
      match skip t1 with
      | [] => none
      | c :: t2 =>
        if c = ':' then
          match value fuel (skip t2) with
          | none => none
          | some (v, t3) =>
            match skip t3 with
            | [] => none
            | d :: t4 =>
              if d = '}' then some ([(String.ofList k, v)], t4)
              else if d = ',' then
                match skip t4 with
                | [] => none
                | e :: t5 =>
                  if e = '"' then
                    (pairs fuel t5).map fun r => ((String.ofList k, v) :: r.1, r.2)
                  else none
              else none
        else none
end

/-- `json.load(stream)` (json/decoder.py `JSONDecoder.decode`): the value of a whole text.
`JSONDecodeError` is a `ValueError`. -/
def load (t : List Char) : Py V :=
  match value (t.length + 1) (skip t) with
  | none => .error .valueError
  | some (v, r) => if skip r = [] then .ok v else .error .valueError

end Verif.Json
