import Verif.Model.Calendar

/-!
Specification of the proleptic Gregorian calendar, by the lengths of years and months.
-/

namespace Verif.Spec

/-- Gregorian leap year rule. -/
def Leap (y : Int) : Prop := 4 ∣ y ∧ (¬ 100 ∣ y ∨ 400 ∣ y)

instance (y : Int) : Decidable (Leap y) := by unfold Leap; infer_instance

/-- Number of days of a year. -/
def yearLength (y : Int) : Int := if Leap y then 366 else 365

/-- Number of days of a month (1-12). -/
def monthLength (y m : Int) : Int :=
  if m = 2 then (if Leap y then 29 else 28)
  else if m = 4 ∨ m = 6 ∨ m = 9 ∨ m = 11 then 30 else 31

/-- Days between 1970-01-01 and the first day of year `y` (negative before 1970).  Theorem
`C13_calendar` shows that it is the sum of the lengths of the years. -/
def yearStart (y : Int) : Int :=
  365 * (y - 1970) + ((y - 1) / 4 - 492) - ((y - 1) / 100 - 19) + ((y - 1) / 400 - 4)

/-- Days of year `y` before its month `m`. -/
def daysBefore (y : Int) : Nat → Int
  | 0 => 0
  | n + 1 => daysBefore y n + monthLength y (n + 1)

/-- Day number of the first day of a month. -/
def monthStart (y m : Int) : Int := yearStart y + daysBefore y (m - 1).toNat

/-- A date that exists. -/
def ValidDate (y m d : Int) : Prop := 1 ≤ m ∧ m ≤ 12 ∧ 1 ≤ d ∧ d ≤ monthLength y m

/-- Day number of a date. -/
def dayNumber (y m d : Int) : Int := monthStart y m + (d - 1)

/-- Fields that exist. -/
def ValidFields (f : Cal.Fields) : Prop :=
  ValidDate f.year f.month f.day ∧ 0 ≤ f.hour ∧ f.hour < 24 ∧ 0 ≤ f.minute ∧ f.minute < 60 ∧
    0 ≤ f.second ∧ f.second < 60

/-- Seconds since 1970-01-01 of the instant with the given fields. -/
def seconds (f : Cal.Fields) : Int :=
  dayNumber f.year f.month f.day * 86400 + f.hour * 3600 + f.minute * 60 + f.second

/-- First second of the interval number `v` (counted from 1970) at a resolution. -/
def intervalStart (res : Cal.Res) (v : Int) : Int :=
  match res with
  | .year => yearStart (1970 + v) * 86400
  | .month => monthStart (1970 + v / 12) (v % 12 + 1) * 86400
  | .day => v * 86400
  | .hour => v * 3600
  | .minute => v * 60
  | .second => v

end Verif.Spec
