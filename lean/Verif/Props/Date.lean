import Verif.Lemmas.DatePath
import Verif.Props.Split

/-! C13, C15: partitions by date. -/

namespace Verif

open Spec Cal Path

/-! ### C13: a partition holds its calendar interval -/

/-- The calendar of the specification: years have 365 or 366 days by the Gregorian rule and
follow each other, months follow each other, twelve months make a year, and 1970-01-01 has
number 0. -/
theorem C13_calendar (y m : Int) :
    yearStart 1970 = 0 ∧ yearStart (y + 1) = yearStart y + yearLength y ∧
    monthStart y 1 = yearStart y ∧
    (1 ≤ m → monthStart y (m + 1) = monthStart y m + monthLength y m) ∧
    monthStart y 13 = yearStart (y + 1) := by
  refine ⟨by decide, yearStart_succ y, by simp [monthStart, daysBefore],
    monthStart_succ y m, ?_⟩
  rw [monthStart_13]
  simp [monthStart, daysBefore]

/-- C13: an instant `t` (with `perSec` ticks per second) is filed under interval `v` exactly
when it lies in the half-open interval `v` of the calendar.  Instants before 1970 and any
year are included. -/
theorem C13_interval (perSec : Int) (hp : 0 < perSec) (res : Res) (t v : Int) :
    trunc perSec res t = v ↔
      intervalStart res v * perSec ≤ t ∧ t < intervalStart res (v + 1) * perSec := by
  unfold trunc
  rw [toUnit_iff, Int.le_ediv_iff_mul_le hp]
  have := Int.le_ediv_iff_mul_le hp (a := intervalStart res (v + 1)) (b := t)
  constructor
  · rintro ⟨h1, h2⟩
    exact ⟨h1, by omega⟩
  · rintro ⟨h1, h2⟩
    exact ⟨h1, by omega⟩

/-- C13: the keys of the partition of `t` are the first calendar fields of `t` (years
1-9999, the range of `datetime.datetime`). -/
theorem C13_fields (perSec : Int) (hp : 0 < perSec) (res : Res) (t : Int) (f : Fields)
    (hf : ValidFields f) (h1 : seconds f * perSec ≤ t) (h2 : t < (seconds f + 1) * perSec)
    (hy : 1 ≤ f.year ∧ f.year ≤ 9999) :
    decode res (trunc perSec res t) = .ok (f.list.take (res.index + 1)) := by
  have hs : t / perSec = seconds f := by
    have a1 := (Int.le_ediv_iff_mul_le hp (a := seconds f) (b := t)).2 h1
    have a2 := Int.le_ediv_iff_mul_le hp (a := seconds f + 1) (b := t)
    omega
  have hfl := fieldsOf_intervalStart res (seconds f)
  rw [fieldsOf_seconds hf] at hfl
  have hyear : (fieldsOf (intervalStart res (toUnit res (seconds f)))).year = f.year := by
    have := congrArg List.head? hfl
    cases res <;> simp [Fields.list, Res.index] at this <;> exact this
  simp only [decode, trunc, hs, ofUnit_eq, item, hyear, hy, and_self, if_true, bind, Except.bind,
    pure, Except.pure, hfl]

/-- C13: the fields of an instant always exist and are unique. -/
theorem C13_fields_exist (s : Int) :
    ∃ f, ValidFields f ∧ seconds f = s ∧ ∀ g, ValidFields g → seconds g = s → g = f := by
  obtain ⟨h1, h2⟩ := fieldsOf_spec s
  refine ⟨fieldsOf s, h1, h2, ?_⟩
  intro g hg hs
  rw [← hs, fieldsOf_seconds hg]

/-- C13: a sorted time axis has sorted partition keys, so the split accepts it. -/
theorem C13_monotone (perSec : Int) (hp : 0 < perSec) (res : Res) (t t' : Int) (h : t ≤ t') :
    trunc perSec res t ≤ trunc perSec res t' := by
  obtain ⟨h1, h2⟩ := (C13_interval perSec hp res t _).1 rfl
  obtain ⟨h3, h4⟩ := (C13_interval perSec hp res t' _).1 rfl
  apply Classical.byContradiction
  intro hlt
  have hm := intervalStart_mono res (v := trunc perSec res t' + 1) (w := trunc perSec res t)
    (by omega)
  have := Int.mul_le_mul_of_nonneg_right hm (Int.le_of_lt hp)
  omega

/-- C13 for `Date._split`: every record of a slice lies in the calendar interval of the
partition of the slice.  (For eager data the time axis must be sorted, see C10.) -/
theorem C13_split (perSec : Int) (hp : 0 < perSec) (res : Res) (values : List Int)
    (isDate delayed : Bool) (ps : List (Int × (Nat × Nat)))
    (h : Split.dateSplit values isDate delayed (trunc perSec res) = .ok ps)
    (hs : delayed = true ∨ KeysSorted values) :
    ∀ p ∈ ps, ∀ i, p.2.1 ≤ i → i < p.2.2 → ∃ t, values[i]? = some t ∧
      intervalStart res p.1 * perSec ≤ t ∧ t < intervalStart res (p.1 + 1) * perSec := by
  have hsplit : Split.splitDates (values.map (trunc perSec res)) delayed = .ok ps := by
    unfold Split.dateSplit at h
    cases isDate with
    | false => simp [throw, throwThe, MonadExceptOf.throw, bind, Except.bind] at h
    | true =>
      simp only [Bool.not_true, Bool.false_eq_true, if_false, bind, Except.bind, pure,
        Except.pure] at h
      exact h
  have hkeys := C10_dates_partial _ delayed ps hsplit (hs.imp_right fun hs =>
    List.pairwise_map.2 (hs.imp fun hab => C13_monotone perSec hp res _ _ hab))
  intro p hpm i h1 h2
  have hk := hkeys p hpm i h1 h2
  rw [List.getElem?_map, Option.map_eq_some_iff] at hk
  obtain ⟨t, ht, he⟩ := hk
  exact ⟨t, ht, (C13_interval perSec hp res t p.1).1 he⟩

example : trunc 1000000000 .month (-1) = -1 ∧ decode .month (-1) =
    .ok [("year", 1969), ("month", 12)] := by decide +kernel

example : ValidFields ⟨2000, 2, 29, 23, 59, 59⟩ ∧
    seconds ⟨2000, 2, 29, 23, 59, 59⟩ = 951868799 := by
  refine ⟨?_, by decide⟩
  unfold ValidFields ValidDate
  decide

/-! ### C15: path round trip for dates -/

/-- C15: parsing the path of a date partition gives the keys back, after any directory in
which the text `year=` does not occur. -/
theorem C15_parse (base : List Char) (res : Res) (f : Fields)
    (hb : ¬ "year=".toList <:+: base) :
    parse (dateKeys res) (base ++ joinDate (f.list.take (res.index + 1))) =
      .ok (f.list.take (res.index + 1)) := by
  have hk : dateKeys res = (f.list.take (res.index + 1)).map (·.1) := by
    cases res <;> rfl
  obtain ⟨t, ht, hmem⟩ : ∃ t, f.list.take (res.index + 1) = ("year", f.year) :: t ∧
      ∀ x ∈ ("year", f.year) :: t, x ∈ f.list := by
    refine ⟨f.list.tail.take res.index, rfl, ?_⟩
    intro x hx
    rcases List.mem_cons.1 hx with rfl | hx
    · simp [Fields.list]
    · exact List.mem_of_mem_tail (List.mem_of_mem_take hx)
  rw [hk, ht]
  refine parse_join fmt02 goodFmt_02 base ("year", f.year) t
    (by simpa using hb) ?_
  intro x hx
  have := hmem x hx
  simp only [Fields.list, List.mem_cons, List.not_mem_nil, or_false] at this
  rcases this with rfl | rfl | rfl | rfl | rfl | rfl <;> dsimp only <;> decide

/-- C15: in a directory whose path contains `year=` every partition is refused. -/
theorem C15_refused (base : List Char) (res : Res) (f : Fields)
    (hb : "year=".toList <:+: base) (hn : '\n' ∉ base) :
    parse (dateKeys res) (base ++ joinDate (f.list.take (res.index + 1))) =
      .error .valueError := by
  have hk : dateKeys res = (f.list.take (res.index + 1)).map (·.1) := by
    cases res <;> rfl
  obtain ⟨t, ht, hmem⟩ : ∃ t, f.list.take (res.index + 1) = ("year", f.year) :: t ∧
      ∀ x ∈ ("year", f.year) :: t, x ∈ f.list := by
    refine ⟨f.list.tail.take res.index, rfl, ?_⟩
    intro x hx
    rcases List.mem_cons.1 hx with rfl | hx
    · simp [Fields.list]
    · exact List.mem_of_mem_tail (List.mem_of_mem_take hx)
  rw [hk, ht]
  refine parse_swallow fmt02 goodFmt_02 base hn ("year", f.year) t
    (by dsimp only; decide) (by simpa using hb) ?_
  intro x hx
  have := hmem x hx
  simp only [Fields.list, List.mem_cons, List.not_mem_nil, or_false] at this
  rcases this with rfl | rfl | rfl | rfl | rfl | rfl <;> dsimp only <;> decide

/-- C15: for years of four digits, `encode` of calendar fields gives the interval they
belong to, and `decode` gives the fields back. -/
theorem C15_encode_decode (res : Res) (f : Fields) (hf : ValidFields f) (h1 : 1000 ≤ f.year)
    (h2 : f.year ≤ 9999) :
    ∃ v, dateEncode (f.list.take (res.index + 1)) = .ok (res, v) ∧
      intervalStart res v ≤ seconds f ∧ seconds f < intervalStart res (v + 1) ∧
      decode res v = .ok (f.list.take (res.index + 1)) := by
  obtain ⟨a, b⟩ := (toUnit_iff res (seconds f) _).1 rfl
  refine ⟨_, dateEncode_fields res f hf h1 h2, a, b, ?_⟩
  have := C13_fields 1 (by omega) res (seconds f) f hf (by omega) (by omega) (by omega)
  simpa [trunc] using this

/-- C15: a year of less than four digits has a path, that is parsed (`C15_parse`), but `encode`
refuses it. -/
theorem C15_short_year (res : Res) (f : Fields) (h0 : 0 ≤ f.year) (h1 : f.year < 1000) :
    dateEncode (f.list.take (res.index + 1)) = .error .valueError := by
  have hlen : (fmt02 f.year).length = 2 ∨ (fmt02 f.year).length = 3 := by
    have a1 : (Nat.toDigits 10 f.year.toNat).length ≤ 3 :=
      (Nat.length_toDigits_le_iff (by omega) (by omega)).2 (by omega)
    have a2 : 0 < (Nat.toDigits 10 f.year.toNat).length := Nat.length_toDigits_pos
    unfold fmt02
    rw [if_neg (by omega)]
    simp only
    split
    · simp only [List.length_cons]
      omega
    · omega
  have key : ∀ (s t : List Char), (s.length = 2 ∨ s.length = 3) →
      (t = [] ∨ ∃ u, t = '-' :: u) → fourDigits (s ++ t) = none := by
    intro s t hs ht
    have hd : ('-').isDigit = false := by decide
    rcases hs with hs | hs
    · match s, hs with
      | [a, b], _ =>
        rcases ht with rfl | ⟨u, rfl⟩
        · rfl
        · match u with
          | [] => rfl
          | x :: u => simp [fourDigits, hd]
    · match s, hs with
      | [a, b, c], _ =>
        rcases ht with rfl | ⟨u, rfl⟩
        · rfl
        · simp [fourDigits, hd]
  simp only [dateEncode, stringify_iso, bind, Except.bind, numpyDatetime64]
  rw [key _ _ hlen]
  cases res
  · exact .inl rfl
  all_goals exact .inr ⟨_, rfl⟩

example : dateEncode [("year", 999), ("month", 12)] = .error .valueError ∧
    decode .month ((999 - 1970) * 12 + 11) = .ok [("year", 999), ("month", 12)] := by
  decide +kernel

/-- C15: the names of the directories of a partition are those of the parsed path. -/
theorem C15_partition_names (res : Res) (v : Int) (fields : List (String × Int))
    (h : decode res v = .ok fields) :
    ∃ names, datePartition res v = .ok names ∧ joinNames names = joinDate fields := by
  refine ⟨fields.map fun kv => kv.1.toList ++ '=' :: fmt02 kv.2,
    by simp only [datePartition, h, bind, Except.bind, pure, Except.pure], ?_⟩
  clear h
  induction fields with
  | nil => rfl
  | cons kv t ih =>
    cases t with
    | nil => rfl
    | cons kv' t =>
      simp only [List.map_cons, joinNames, joinDate, joinWith] at ih ⊢
      rw [ih]
      simp

/-- C15: two different dates of the same resolution never share a path. -/
theorem C15_injective (res : Res) (v w : Int) (a b : List (List Char))
    (ha : datePartition res v = .ok a) (hb : datePartition res w = .ok b)
    (h : joinNames a = joinNames b) : v = w := by
  have key : ∀ v a, datePartition res v = .ok a →
      decode res v = .ok ((fieldsOf (intervalStart res v)).list.take (res.index + 1)) := by
    intro v a ha
    simp only [datePartition, bind, Except.bind] at ha
    cases hd : decode res v with
    | error e => simp [hd] at ha
    | ok fs =>
      simp only [decode, item, bind, Except.bind, pure, Except.pure, ofUnit_eq] at hd
      split at hd
      · simp at hd
      · next f hf =>
        split at hf
        · simp only [Except.ok.injEq] at hf hd
          rw [← hd, ← hf]
        · simp at hf
  have e1 := key v a ha
  have e2 := key w b hb
  obtain ⟨a', ha', ha2⟩ := C15_partition_names res v _ e1
  obtain ⟨b', hb', hb2⟩ := C15_partition_names res w _ e2
  rw [ha] at ha'
  rw [hb] at hb'
  cases ha'
  cases hb'
  have p1 := C15_parse [] res (fieldsOf (intervalStart res v)) (by decide)
  have p2 := C15_parse [] res (fieldsOf (intervalStart res w)) (by decide)
  rw [List.nil_append, ← ha2, h, hb2] at p1
  rw [List.nil_append, p1] at p2
  have hfields := Except.ok.inj p2
  obtain ⟨⟨d1, _⟩, s1⟩ := fieldsOf_spec (intervalStart res v)
  obtain ⟨⟨d2, _⟩, s2⟩ := fieldsOf_spec (intervalStart res w)
  have u1 := (toUnit_iff res (intervalStart res v) v).2
    ⟨Int.le_refl _, intervalStart_succ_lt res v⟩
  have u2 := (toUnit_iff res (intervalStart res w) w).2
    ⟨Int.le_refl _, intervalStart_succ_lt res w⟩
  rw [← u1, ← u2]
  generalize intervalStart res v = x at *
  generalize intervalStart res w = y at *
  cases res <;> simp only [Fields.list, Res.index, List.take_succ_cons, List.take_zero,
    List.cons.injEq, Prod.mk.injEq, true_and, and_true, toUnit, List.take_nil] at hfields ⊢
  · omega
  · omega
  · simp only [seconds] at s1 s2
    obtain ⟨q1, q2, q3⟩ := hfields
    simp only [q1, q2, q3] at s1 
    simp only [fieldsOf] at s1 s2
    omega
  · simp only [seconds] at s1 s2
    obtain ⟨q1, q2, q3, q4⟩ := hfields
    simp only [q1, q2, q3, q4] at s1
    simp only [fieldsOf] at s1 s2
    omega
  · simp only [seconds] at s1 s2
    obtain ⟨q1, q2, q3, q4, q5⟩ := hfields
    simp only [q1, q2, q3, q4, q5] at s1
    simp only [fieldsOf] at s1 s2
    omega
  · simp only [seconds] at s1 s2
    obtain ⟨q1, q2, q3, q4, q5, q6⟩ := hfields
    rw [q1, q2, q3, q4, q5, q6] at s1
    omega

example : parse (dateKeys .day) "/data/year=2020/month=01/day=31".toList =
    .ok [("year", 2020), ("month", 1), ("day", 31)] := by decide +kernel

example : dateEncode [("year", 2020), ("month", 1), ("day", 31)] = .ok (.day, 18292) := by
  decide +kernel

end Verif
