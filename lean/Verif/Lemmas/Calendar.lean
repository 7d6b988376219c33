import Verif.Spec.Calendar

/-! Lemmas on the calendar. -/

namespace Verif.Cal

open Spec

theorem leap_iff (y : Int) : Leap y ↔ y % 4 = 0 ∧ (y % 100 ≠ 0 ∨ y % 400 = 0) := by
  unfold Leap
  omega

theorem isLeap_iff (y : Int) : isLeap y = true ↔ Leap y := by
  rw [leap_iff]
  simp [isLeap]

theorem yearStart_succ (y : Int) : yearStart (y + 1) = yearStart y + yearLength y := by
  unfold yearLength yearStart
  by_cases h : Leap y
  · rw [if_pos h]
    rw [leap_iff] at h
    omega
  · rw [if_neg h]
    rw [leap_iff] at h
    omega

theorem daysToYearDays_spec (n : Int) :
    yearStart (daysToYearDays n).1 + (daysToYearDays n).2 = n ∧
      0 ≤ (daysToYearDays n).2 ∧ (daysToYearDays n).2 < yearLength (daysToYearDays n).1 := by
  unfold daysToYearDays
  simp only
  generalize hd : n - (365 * 30 + 7) = d0
  generalize hq : d0 / 146097 = q
  generalize hr : d0 % 146097 = d1
  have h0 : d0 = 146097 * q + d1 := by omega
  have h1 : 0 ≤ d1 ∧ d1 < 146097 := by omega
  clear hq hr
  unfold yearLength yearStart
  simp only [leap_iff]
  split
  · generalize hq1 : (d1 - 1) / 36524 = q1
    generalize hr1 : (d1 - 1) % 36524 = d2
    have h2 : d1 - 1 = 36524 * q1 + d2 := by omega
    have h3 : 0 ≤ d2 ∧ d2 < 36524 := by omega
    have h4 : 0 ≤ q1 ∧ q1 < 4 := by omega
    clear hq1 hr1
    split
    · generalize hq2 : (d2 + 1) / 1461 = q2
      generalize hr2 : (d2 + 1) % 1461 = d3
      have h5 : d2 + 1 = 1461 * q2 + d3 := by omega
      have h6 : 0 ≤ d3 ∧ d3 < 1461 := by omega
      have h7 : 0 ≤ q2 ∧ q2 < 25 := by omega
      clear hq2 hr2
      split
      · generalize hq3 : (d3 - 1) / 365 = q3
        generalize hr3 : (d3 - 1) % 365 = d4
        have h8 : d3 - 1 = 365 * q3 + d4 := by omega
        have h9 : 0 ≤ d4 ∧ d4 < 365 := by omega
        have h10 : 1 ≤ q3 ∧ q3 < 4 := by omega
        clear hq3 hr3
        have e1 : (400 * q + 100 * q1 + 4 * q2 + q3 + 2000 - 1) / 4 =
            100 * (q + 5) + 25 * q1 + q2 := by omega
        have e2 : (400 * q + 100 * q1 + 4 * q2 + q3 + 2000 - 1) / 100 = 4 * (q + 5) + q1 := by
          omega
        have e3 : (400 * q + 100 * q1 + 4 * q2 + q3 + 2000 - 1) / 400 = q + 5 := by omega
        have e4 : (400 * q + 100 * q1 + 4 * q2 + q3 + 2000) % 4 = q3 := by omega
        simp only [e1, e2, e3, e4]
        split <;> omega
      · have e0 : 1 ≤ q2 := by omega
        have e1 : (400 * q + 100 * q1 + 4 * q2 + 2000 - 1) / 4 =
            100 * (q + 5) + 25 * q1 + q2 - 1 := by omega
        have e2 : (400 * q + 100 * q1 + 4 * q2 + 2000 - 1) / 100 = 4 * (q + 5) + q1 := by
          omega
        have e3 : (400 * q + 100 * q1 + 4 * q2 + 2000 - 1) / 400 = q + 5 := by omega
        have e4 : (400 * q + 100 * q1 + 4 * q2 + 2000) % 4 = 0 := by omega
        have e5 : (400 * q + 100 * q1 + 4 * q2 + 2000) % 100 = 4 * q2 := by omega
        simp only [e1, e2, e3, e4, e5]
        clear e1 e2 e3 e4 e5
        rw [if_pos ⟨trivial, .inl (by omega)⟩]
        omega
    · split <;> omega
  · split <;> omega

theorem yearStart_mono (y : Int) (k : Nat) : yearStart y + k * 365 ≤ yearStart (y + k) := by
  unfold yearStart
  omega

theorem year_unique {y y' a b n : Int} (h : yearStart y + a = n) (h0 : 0 ≤ a)
    (h1 : a < yearLength y) (h' : yearStart y' + b = n) (h0' : 0 ≤ b)
    (h1' : b < yearLength y') : y = y' ∧ a = b := by
  have key : ∀ y y' : Int, y < y' → yearStart y + yearLength y ≤ yearStart y' := by
    intro y y' hlt
    rw [← yearStart_succ]
    have := yearStart_mono (y + 1) (y' - (y + 1)).toNat
    rw [show y + 1 + ((y' - (y + 1)).toNat : Int) = y' by omega] at this
    omega
  rcases Int.lt_trichotomy y y' with hlt | rfl | hgt
  · have := key y y' hlt
    omega
  · exact ⟨rfl, by omega⟩
  · have := key y' y hgt
    omega

/-! ### months -/

theorem monthTable_eq (y : Int) :
    monthTable (isLeap y) = [31, if Leap y then 29 else 28, 31, 30, 31, 30, 31, 31, 30, 31, 30,
      31] := by
  by_cases h : isLeap y = true
  · have h' := (isLeap_iff y).1 h
    simp [monthTable, h, h']
  · have h' : ¬ Leap y := fun e => h ((isLeap_iff y).2 e)
    simp [monthTable, h, h']

theorem daysBefore_values (y : Int) :
    daysBefore y 0 = 0 ∧ daysBefore y 1 = 31 ∧
    daysBefore y 2 = 31 + (if Leap y then 29 else 28) ∧
    daysBefore y 3 = 62 + (if Leap y then 29 else 28) ∧
    daysBefore y 4 = 92 + (if Leap y then 29 else 28) ∧
    daysBefore y 5 = 123 + (if Leap y then 29 else 28) ∧
    daysBefore y 6 = 153 + (if Leap y then 29 else 28) ∧
    daysBefore y 7 = 184 + (if Leap y then 29 else 28) ∧
    daysBefore y 8 = 215 + (if Leap y then 29 else 28) ∧
    daysBefore y 9 = 245 + (if Leap y then 29 else 28) ∧
    daysBefore y 10 = 276 + (if Leap y then 29 else 28) ∧
    daysBefore y 11 = 306 + (if Leap y then 29 else 28) ∧
    daysBefore y 12 = yearLength y := by
  by_cases h : Leap y <;> simp [daysBefore, monthLength, yearLength, h]

theorem months_cases {m : Int} (h1 : 1 ≤ m) (h2 : m ≤ 12) :
    m = 1 ∨ m = 2 ∨ m = 3 ∨ m = 4 ∨ m = 5 ∨ m = 6 ∨ m = 7 ∨ m = 8 ∨ m = 9 ∨ m = 10 ∨ m = 11 ∨
      m = 12 := by omega

theorem monthLoop_general (k r : Int) (l : List Int) (h0 : 0 ≤ r) (h1 : r < l.sum) :
    ∃ (i : Nat) (len : Int), l[i]? = some len ∧ (monthLoop k r l).1 = k + i ∧
      1 ≤ (monthLoop k r l).2 ∧ (monthLoop k r l).2 ≤ len ∧
      (l.take i).sum + ((monthLoop k r l).2 - 1) = r := by
  induction l generalizing k r with
  | nil => simp at h1; omega
  | cons a l ih =>
    simp only [monthLoop]
    split
    · exact ⟨0, a, by simp, by simp, by simp only; omega, by simp only; omega, by simp⟩
    · obtain ⟨i, len, e1, e2, e3, e4, e5⟩ := ih (k + 1) (r - a) (by omega)
        (by rw [List.sum_cons] at h1; omega)
      refine ⟨i + 1, len, by simpa using e1, by rw [e2]; omega, e3, e4, ?_⟩
      rw [List.take_succ_cons, List.sum_cons]
      omega

theorem sum_take_months (y m : Int) (h1 : 1 ≤ m) (h2 : m ≤ 12) :
    ((monthTable (isLeap y)).take (m - 1).toNat).sum = daysBefore y (m - 1).toNat := by
  obtain ⟨e0, e1, e2, e3, e4, e5, e6, e7, e8, e9, e10, e11, e12⟩ := daysBefore_values y
  rw [monthTable_eq]
  rcases months_cases h1 h2 with h | h | h | h | h | h | h | h | h | h | h | h <;> subst h <;>
    simp only [Int.reduceSub, Int.reduceToNat, *] <;> simp <;> omega

theorem monthLoop_spec (y r : Int) (h0 : 0 ≤ r) (h1 : r < yearLength y) :
    let md := monthLoop 1 r (monthTable (isLeap y))
    ValidDate y md.1 md.2 ∧ daysBefore y (md.1 - 1).toNat + (md.2 - 1) = r := by
  have hs : (monthTable (isLeap y)).sum = yearLength y := by
    rw [monthTable_eq]
    by_cases h : Leap y <;> simp [yearLength, h]
  have hl : (monthTable (isLeap y)).length = 12 := by rw [monthTable_eq]; rfl
  obtain ⟨i, len, e1, e2, e3, e4, e5⟩ := monthLoop_general 1 r (monthTable (isLeap y)) h0
    (by omega)
  have hi : i < 12 := by
    have := (List.getElem?_eq_some_iff.1 e1).1
    omega
  have hm : len = monthLength y (1 + i) := by
    rw [monthTable_eq] at e1
    have : i = 0 ∨ i = 1 ∨ i = 2 ∨ i = 3 ∨ i = 4 ∨ i = 5 ∨ i = 6 ∨ i = 7 ∨ i = 8 ∨ i = 9 ∨
      i = 10 ∨ i = 11 := by omega
    rcases this with h | h | h | h | h | h | h | h | h | h | h | h <;> subst h <;>
      simp at e1 <;> subst e1 <;> simp [monthLength]
  intro md
  have e2' : md.1 = 1 + i := e2
  refine ⟨⟨by omega, by omega, e3, ?_⟩, ?_⟩
  · show _ ≤ monthLength y md.1
    rw [show md.1 = 1 + i from e2, ← hm]
    exact e4
  · rw [show md.1 = 1 + i from e2, ← sum_take_months y (1 + i) (by omega) (by omega),
      show ((1 : Int) + i - 1).toNat = i by omega]
    exact e5

theorem validDate_lt (y m d : Int) (h : ValidDate y m d) :
    0 ≤ daysBefore y (m - 1).toNat + (d - 1) ∧
      daysBefore y (m - 1).toNat + (d - 1) < yearLength y := by
  obtain ⟨h1, h2, h3, h4⟩ := h
  obtain ⟨e0, e1, e2, e3, e4, e5, e6, e7, e8, e9, e10, e11, e12⟩ := daysBefore_values y
  simp only [yearLength, monthLength] at *
  rcases months_cases h1 h2 with h | h | h | h | h | h | h | h | h | h | h | h <;> subst h <;>
    simp only [Int.reduceSub, Int.reduceToNat, *] <;>
    (split <;> simp_all <;> omega)

theorem month_unique (y : Int) {m d m' d' : Int} (h : ValidDate y m d) (h' : ValidDate y m' d')
    (he : daysBefore y (m - 1).toNat + (d - 1) = daysBefore y (m' - 1).toNat + (d' - 1)) :
    m = m' ∧ d = d' := by
  have key : ∀ m d m' d' : Int, ValidDate y m d → ValidDate y m' d' → m < m' →
      daysBefore y (m - 1).toNat + (d - 1) < daysBefore y (m' - 1).toNat + (d' - 1) := by
    intro m d m' d' h h' hlt
    obtain ⟨h1, h2, h3, h4⟩ := h
    obtain ⟨h1', h2', h3', h4'⟩ := h'
    have hstep : ∀ k : Nat, daysBefore y (m - 1).toNat + monthLength y m ≤
        daysBefore y ((m - 1).toNat + 1 + k) := by
      intro k
      induction k with
      | zero =>
        show _ ≤ daysBefore y ((m - 1).toNat) + monthLength y ((m - 1).toNat + 1)
        rw [show (((m - 1).toNat : Int) + 1) = m by omega]
        omega
      | succ k ih =>
        have he : daysBefore y ((m - 1).toNat + 1 + (k + 1)) =
            daysBefore y ((m - 1).toNat + 1 + k) +
              monthLength y (((m - 1).toNat + 1 + k : Nat) + 1) := rfl
        have : ∀ x, 0 ≤ monthLength y x := by
          intro x
          unfold monthLength
          (repeat' split) <;> omega
        have := this (((m - 1).toNat + 1 + k : Nat) + 1)
        omega
    have := hstep (m' - m - 1).toNat
    rw [show (m - 1).toNat + 1 + (m' - m - 1).toNat = (m' - 1).toNat by omega] at this
    omega
  rcases Int.lt_trichotomy m m' with hlt | rfl | hgt
  · have := key m d m' d' h h' hlt
    omega
  · exact ⟨rfl, by omega⟩
  · have := key m' d' m d h' h hgt
    omega

/-! ### dates -/

theorem civil_spec (n : Int) :
    ValidDate (civil n).1 (civil n).2.1 (civil n).2.2 ∧
      dayNumber (civil n).1 (civil n).2.1 (civil n).2.2 = n := by
  obtain ⟨h1, h2, h3⟩ := daysToYearDays_spec n
  obtain ⟨h4, h5⟩ := monthLoop_spec _ _ h2 h3
  refine ⟨h4, ?_⟩
  simp only [civil, dayNumber, monthStart]
  omega

theorem date_unique {y m d y' m' d' : Int} (h : ValidDate y m d) (h' : ValidDate y' m' d')
    (he : dayNumber y m d = dayNumber y' m' d') : y = y' ∧ m = m' ∧ d = d' := by
  simp only [dayNumber, monthStart] at he
  obtain ⟨a1, a2⟩ := validDate_lt y m d h
  obtain ⟨b1, b2⟩ := validDate_lt y' m' d' h'
  obtain ⟨rfl, hr⟩ := year_unique (a := daysBefore y (m - 1).toNat + (d - 1))
    (b := daysBefore y' (m' - 1).toNat + (d' - 1)) rfl a1 a2 (y' := y') (by omega) b1 b2
  exact ⟨rfl, month_unique y h h' hr⟩

theorem civil_dayNumber {y m d : Int} (h : ValidDate y m d) :
    civil (dayNumber y m d) = (y, m, d) := by
  obtain ⟨h1, h2⟩ := civil_spec (dayNumber y m d)
  obtain ⟨e1, e2, e3⟩ := date_unique h1 h h2
  exact Prod.ext e1 (Prod.ext e2 e3)

theorem daysOfCivil_eq (y m d : Int) (h1 : 1 ≤ m) (h2 : m ≤ 12) :
    daysOfCivil y m d = dayNumber y m d := by
  have hy : (if (y - 1970) * 365 ≥ 0 then
      (y - 1970) * 365 + (y - 1970 + 1) / 4 - (y - 1970 + 1 + 68) / 100 +
        (y - 1970 + 1 + 68 + 300) / 400
    else
      (y - 1970) * 365 + (y - 1970 - 2).tdiv 4 - (y - 1970 - 2 - 28).tdiv 100 +
        (y - 1970 - 2 - 28).tdiv 400) = yearStart y := by
    have ht : ∀ x n : Int, x ≤ 0 → x.tdiv n = -((-x) / n) := by
      intro x n hx
      rw [← Int.tdiv_eq_ediv_of_nonneg (by omega), Int.neg_tdiv, Int.neg_neg]
    unfold yearStart
    split
    · omega
    · rw [ht _ _ (by omega), ht _ _ (by omega), ht _ _ (by omega)]
      omega
  simp only [daysOfCivil, dayNumber, monthStart, sum_take_months y m h1 h2, hy]

/-! ### fields -/

theorem fieldsOf_spec (s : Int) : ValidFields (fieldsOf s) ∧ seconds (fieldsOf s) = s := by
  obtain ⟨h1, h2⟩ := civil_spec (s / 86400)
  refine ⟨⟨h1, ?_⟩, ?_⟩
  · simp only [fieldsOf]
    omega
  · simp only [seconds, fieldsOf]
    rw [h2]
    omega

theorem fieldsOf_seconds {f : Fields} (h : ValidFields f) : fieldsOf (seconds f) = f := by
  obtain ⟨y, m, d, hh, mi, ss⟩ := f
  obtain ⟨h1, h2, h3, h4, h5, h6, h7⟩ := h
  simp only [] at *
  have hd : seconds ⟨y, m, d, hh, mi, ss⟩ / 86400 = dayNumber y m d := by
    simp only [seconds]
    omega
  simp only [fieldsOf, hd, civil_dayNumber h1]
  simp only [seconds, Fields.mk.injEq, true_and]
  omega

/-! ### intervals -/

theorem monthStart_succ (y m : Int) (h : 1 ≤ m) :
    monthStart y (m + 1) = monthStart y m + monthLength y m := by
  unfold monthStart
  rw [show (m + 1 - 1).toNat = (m - 1).toNat + 1 by omega]
  simp only [daysBefore]
  rw [show (((m - 1).toNat : Int) + 1) = m by omega]
  omega

theorem monthStart_13 (y : Int) : monthStart y 13 = monthStart (y + 1) 1 := by
  have := (daysBefore_values y).2.2.2.2.2.2.2.2.2.2.2.2
  simp only [monthStart, Int.reduceSub, Int.reduceToNat, this, yearStart_succ, daysBefore]
  omega

theorem interval_next_month (v : Int) :
    monthStart (1970 + (v + 1) / 12) ((v + 1) % 12 + 1) =
      monthStart (1970 + v / 12) (v % 12 + 1) + monthLength (1970 + v / 12) (v % 12 + 1) := by
  rw [← monthStart_succ _ _ (by omega)]
  by_cases h : v % 12 = 11
  · rw [show v % 12 + 1 + 1 = 13 by omega, monthStart_13]
    rw [show (v + 1) % 12 + 1 = 1 by omega, show 1970 + (v + 1) / 12 = 1970 + v / 12 + 1 by omega]
  · rw [show (v + 1) % 12 = v % 12 + 1 by omega, show (v + 1) / 12 = v / 12 by omega]

theorem monthLength_pos (y m : Int) : 28 ≤ monthLength y m := by
  unfold monthLength
  (repeat' split) <;> omega

theorem yearLength_pos (y : Int) : 365 ≤ yearLength y := by
  unfold yearLength
  split <;> omega

theorem intervalStart_succ_lt (res : Res) (v : Int) :
    intervalStart res v < intervalStart res (v + 1) := by
  cases res <;> simp only [intervalStart]
  · have := yearStart_succ (1970 + v)
    have := yearLength_pos (1970 + v)
    rw [show 1970 + (v + 1) = 1970 + v + 1 by omega]
    omega
  · have := interval_next_month v
    have := monthLength_pos (1970 + v / 12) (v % 12 + 1)
    omega
  · omega
  · omega
  · omega
  · omega

theorem intervalStart_mono (res : Res) {v w : Int} (h : v ≤ w) :
    intervalStart res v ≤ intervalStart res w := by
  suffices hk : ∀ k : Nat, intervalStart res v ≤ intervalStart res (v + k) by
    have := hk (w - v).toNat
    rwa [show v + ((w - v).toNat : Int) = w by omega] at this
  intro k
  induction k with
  | zero => simp
  | succ k ih =>
    have := intervalStart_succ_lt res (v + k)
    rw [show v + ((k + 1 : Nat) : Int) = v + k + 1 by omega]
    omega

theorem toUnit_interval (res : Res) (s : Int) :
    intervalStart res (toUnit res s) ≤ s ∧ s < intervalStart res (toUnit res s + 1) := by
  have hd := civil_spec (s / 86400)
  obtain ⟨h1, h2⟩ := hd
  have h3 := validDate_lt _ _ _ h1
  have hdef := h2
  simp only [dayNumber, monthStart] at h2
  cases res <;> simp only [intervalStart, toUnit, fieldsOf]
  · have := yearStart_succ (civil (s / 86400)).1
    rw [show 1970 + ((civil (s / 86400)).1 - 1970) = (civil (s / 86400)).1 by omega,
      show 1970 + ((civil (s / 86400)).1 - 1970 + 1) = (civil (s / 86400)).1 + 1 by omega]
    omega
  · rw [interval_next_month]
    generalize hv : ((civil (s / 86400)).1 - 1970) * 12 + ((civil (s / 86400)).2.1 - 1) = v
    obtain ⟨a1, a2, a3, a4⟩ := h1
    rw [show 1970 + v / 12 = (civil (s / 86400)).1 by omega,
      show v % 12 + 1 = (civil (s / 86400)).2.1 by omega]
    simp only [monthStart]
    omega
  · omega
  · omega
  · omega
  · omega

theorem toUnit_iff (res : Res) (s v : Int) :
    toUnit res s = v ↔ intervalStart res v ≤ s ∧ s < intervalStart res (v + 1) := by
  have h := toUnit_interval res s
  constructor
  · rintro rfl
    exact h
  · rintro ⟨h1, h2⟩
    rcases Int.lt_trichotomy (toUnit res s) v with hlt | he | hgt
    · have := intervalStart_mono res (v := toUnit res s + 1) (w := v) (by omega)
      omega
    · exact he
    · have := intervalStart_mono res (v := v + 1) (w := toUnit res s) (by omega)
      omega

theorem ofUnit_eq (res : Res) (v : Int) : ofUnit res v = intervalStart res v := by
  cases res <;> simp only [ofUnit, intervalStart]
  · rw [daysOfCivil_eq _ _ _ (by omega) (by omega)]
    simp [dayNumber, monthStart, daysBefore]
  · rw [daysOfCivil_eq _ _ _ (by omega) (by omega)]
    simp [dayNumber]

/-- Fields of the start of the interval that contains `s`: the first fields of `s`, then the
smallest values. -/
theorem fieldsOf_intervalStart (res : Res) (s : Int) :
    ((fieldsOf (intervalStart res (toUnit res s))).list.take (res.index + 1)) =
      (fieldsOf s).list.take (res.index + 1) := by
  obtain ⟨⟨h1, h2⟩, h3⟩ := fieldsOf_spec s
  have hc := civil_spec (s / 86400)
  obtain ⟨hc1, hc2⟩ := hc
  obtain ⟨m1, m2, m3, m4⟩ := hc1
  have hml := monthLength_pos (civil (s / 86400)).1 1
  have hml2 := monthLength_pos (civil (s / 86400)).1 (civil (s / 86400)).2.1
  cases res
  · have he : intervalStart .year (toUnit .year s) =
        seconds ⟨(fieldsOf s).year, 1, 1, 0, 0, 0⟩ := by
      simp only [intervalStart, toUnit, seconds, dayNumber, monthStart]
      rw [show 1970 + ((fieldsOf s).year - 1970) = (fieldsOf s).year by omega]
      simp [daysBefore]
    rw [he, fieldsOf_seconds]
    · simp [Fields.list, Res.index]
    · simp only [ValidFields, ValidDate, fieldsOf]
      omega
  · have he : intervalStart .month (toUnit .month s) =
        seconds ⟨(fieldsOf s).year, (fieldsOf s).month, 1, 0, 0, 0⟩ := by
      simp only [intervalStart, toUnit, seconds, dayNumber, fieldsOf]
      generalize hv : ((civil (s / 86400)).1 - 1970) * 12 + ((civil (s / 86400)).2.1 - 1) = v
      rw [show 1970 + v / 12 = (civil (s / 86400)).1 by omega,
        show v % 12 + 1 = (civil (s / 86400)).2.1 by omega]
      omega
    rw [he, fieldsOf_seconds]
    · simp [Fields.list, Res.index]
    · simp only [ValidFields, ValidDate, fieldsOf]
      omega
  · have e1 : (s / 86400 * 86400) / 86400 = s / 86400 := by omega
    simp [intervalStart, toUnit, fieldsOf, Fields.list, Res.index, e1]
  · have e1 : (s / 3600 * 3600) / 86400 = s / 86400 := by omega
    have e2 : (s / 3600 * 3600) % 86400 / 3600 = s % 86400 / 3600 := by omega
    simp only [intervalStart, toUnit, fieldsOf, Fields.list, Res.index, e1, e2]
    simp
  · have e1 : (s / 60 * 60) / 86400 = s / 86400 := by omega
    have e2 : (s / 60 * 60) % 86400 / 3600 = s % 86400 / 3600 := by omega
    have e3 : (s / 60 * 60) % 86400 % 3600 / 60 = s % 86400 % 3600 / 60 := by omega
    simp only [intervalStart, toUnit, fieldsOf, Fields.list, Res.index, e1, e2, e3]
    simp
  · simp [intervalStart, toUnit]

end Verif.Cal
