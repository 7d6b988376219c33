import Verif.Model.Split

/-!
Model of `zcollection/partitioning/date.py` as far as dates are concerned: conversion of a
`datetime64` between units and to calendar fields.

The conversions are made by numpy (`astype('datetime64[...]')`, `astype('M8[s]')`,
`.item()`); the definitions follow the algorithms of numpy's `datetime.c`
(`days_to_yearsdays`, `get_datetimestruct_days`), which are part of the trusted reading.
NaT and int64 overflow are not modelled.
-/

namespace Verif.Cal

/-- partitioning/date.py:21 (`RESOLUTION`). -/
inductive Res where
  | year | month | day | hour | minute | second
  deriving DecidableEq, Repr

/-- `RESOLUTION.index(resolution)` (partitioning/date.py:93). -/
def Res.index : Res → Nat
  | .year => 0 | .month => 1 | .day => 2 | .hour => 3 | .minute => 4 | .second => 5

/-- numpy `is_leapyear`. -/
def isLeap (y : Int) : Bool :=
  decide (y % 4 = 0) && (decide (y % 100 ≠ 0) || decide (y % 400 = 0))

/-- numpy `_days_per_month_table`. -/
def monthTable (leap : Bool) : List Int :=
  if leap then [31, 29, 31, 30, 31, 30, 31, 31, 30, 31, 30, 31]
  else [31, 28, 31, 30, 31, 30, 31, 31, 30, 31, 30, 31]

/-- numpy `days_to_yearsdays`: year and day in the year of a number of days since
1970-01-01. -/
def daysToYearDays (days : Int) : Int × Int :=
  let d0 := days - (365 * 30 + 7)
  let y0 := 400 * (d0 / 146097)
  let d1 := d0 % 146097
  if d1 ≥ 366 then
    let y1 := y0 + 100 * ((d1 - 1) / 36524)
    let d2 := (d1 - 1) % 36524
    if d2 ≥ 365 then
      let y2 := y1 + 4 * ((d2 + 1) / 1461)
      let d3 := (d2 + 1) % 1461
      if d3 ≥ 366 then (y2 + (d3 - 1) / 365 + 2000, (d3 - 1) % 365)
      else (y2 + 2000, d3)
    else (y1 + 2000, d2)
  else (y0 + 2000, d1)

/-- The loop of numpy `set_datetimestruct_days`: subtract the lengths of the months until
the rest fits. -/
def monthLoop (month rest : Int) : List Int → Int × Int
  | [] => (month, rest + 1)
  | len :: t => if rest < len then (month, rest + 1) else monthLoop (month + 1) (rest - len) t

/-- Calendar date of a number of days since 1970-01-01. -/
def civil (days : Int) : Int × Int × Int :=
  let yd := daysToYearDays days
  let md := monthLoop 1 yd.2 (monthTable (isLeap yd.1))
  (yd.1, md.1, md.2)

/-- numpy `get_datetimestruct_days`: number of days since 1970-01-01 of a calendar date
(divisions truncate as in C). -/
def daysOfCivil (y m d : Int) : Int :=
  let year := y - 1970
  let days := year * 365
  let days :=
    if days ≥ 0 then
      days + (year + 1) / 4 - (year + 1 + 68) / 100 + (year + 1 + 68 + 300) / 400
    else
      days + (year - 2).tdiv 4 - (year - 2 - 28).tdiv 100 + (year - 2 - 28).tdiv 400
  days + ((monthTable (isLeap y)).take (m - 1).toNat).sum + (d - 1)

/-- Calendar fields of a number of seconds since 1970-01-01. -/
structure Fields where
  year : Int
  month : Int
  day : Int
  hour : Int
  minute : Int
  second : Int
  deriving DecidableEq, Repr

/-- Fields of a `datetime64[s]`. -/
def fieldsOf (secs : Int) : Fields :=
  let c := civil (secs / 86400)
  let r := secs % 86400
  ⟨c.1, c.2.1, c.2.2, r / 3600, r % 3600 / 60, r % 60⟩

/-- `.astype('datetime64[resolution]')` of an instant given in seconds
(partitioning/date.py:142), as the integer stored by numpy. -/
def toUnit (res : Res) (secs : Int) : Int :=
  match res with
  | .year => (fieldsOf secs).year - 1970
  | .month => ((fieldsOf secs).year - 1970) * 12 + ((fieldsOf secs).month - 1)
  | .day => secs / 86400
  | .hour => secs / 3600
  | .minute => secs / 60
  | .second => secs

/-- `.astype('M8[s]')` of a `datetime64[resolution]` (partitioning/date.py:116, 216). -/
def ofUnit (res : Res) (v : Int) : Int :=
  match res with
  | .year => daysOfCivil (1970 + v) 1 1 * 86400
  | .month => daysOfCivil (1970 + v / 12) (v % 12 + 1) 1 * 86400
  | .day => v * 86400
  | .hour => v * 3600
  | .minute => v * 60
  | .second => v

/-- partitioning/date.py:142: cast of an instant in ticks (`perSec` ticks per second, rounding
down) to the resolution of the partitioning.  An axis coarser than the second is given by
its instants in seconds. -/
def trunc (perSec : Int) (res : Res) (t : Int) : Int := toUnit res (t / perSec)

/-- `.item()` of a `datetime64[s]` and `getattr` of the fields (partitioning/date.py:116-118,
216-217): out of the years of `datetime.datetime` numpy returns an `int`, which has no such
attribute. -/
def item (secs : Int) : Py Fields :=
  let f := fieldsOf secs
  if 1 ≤ f.year ∧ f.year ≤ 9999 then .ok f else .error .attributeError

/-- partitioning/date.py:24 (`UNITS`) with the attribute of the same name of a
`datetime.datetime`; `_attrs[ix]` and `UNITS[ix]` are the same names (lines 98, 117-119). -/
def Fields.list (f : Fields) : List (String × Int) :=
  [("year", f.year), ("month", f.month), ("day", f.day), ("hour", f.hour),
    ("minute", f.minute), ("second", f.second)]

/-- partitioning/date.py:198-218 (`Date.decode`). -/
def decode (res : Res) (v : Int) : Py (List (String × Int)) := do
  let f ← item (ofUnit res v)
  return f.list.take (res.index + 1)

end Verif.Cal
