import Verif.Props.TimeLine
import Verif.Props.Date
import Verif.Props.Listing

/-! C68 for `Date`: the order of the listing is the order of the dates. -/

namespace Verif

open Spec Cal

variable {V : Type}

/-- The fields of instants. -/
theorem fields_mono (s t : Int) (h : s ≤ t) :
    (fieldsOf s).year ≤ (fieldsOf t).year ∧
    ((fieldsOf s).year = (fieldsOf t).year → (fieldsOf s).month ≤ (fieldsOf t).month ∧
    ((fieldsOf s).month = (fieldsOf t).month → (fieldsOf s).day ≤ (fieldsOf t).day ∧
    ((fieldsOf s).day = (fieldsOf t).day → (fieldsOf s).hour ≤ (fieldsOf t).hour ∧
    ((fieldsOf s).hour = (fieldsOf t).hour → (fieldsOf s).minute ≤ (fieldsOf t).minute ∧
    ((fieldsOf s).minute = (fieldsOf t).minute → (fieldsOf s).second ≤ (fieldsOf t).second))))) := by
  have hy := C13_monotone 1 (by decide) .year s t h
  have hm := C13_monotone 1 (by decide) .month s t h
  simp only [trunc, toUnit, Int.ediv_one] at hy hm
  obtain ⟨⟨_, v1⟩, v2⟩ := fieldsOf_spec s
  obtain ⟨⟨_, w1⟩, w2⟩ := fieldsOf_spec t
  simp only [seconds, dayNumber] at v2 w2
  refine ⟨by omega, fun e1 => ⟨by omega, fun e2 => ?_⟩⟩
  rw [e1, e2] at v2
  refine ⟨by omega, fun e3 => ⟨by omega, fun e4 => ⟨by omega, fun e5 => by omega⟩⟩⟩

/-- The number of the interval, from the fields. -/
theorem toUnit_fields (res : Res) (s t : Int)
    (h : values ((fieldsOf s).list.take (res.index + 1)) =
      values ((fieldsOf t).list.take (res.index + 1))) : toUnit res s = toUnit res t := by
  obtain ⟨⟨_, v1⟩, v2⟩ := fieldsOf_spec s
  obtain ⟨⟨_, w1⟩, w2⟩ := fieldsOf_spec t
  simp only [seconds] at v2 w2
  cases res <;>
    simp only [Res.index, Fields.list, List.take, values, List.map_cons, List.map_nil,
      List.cons.injEq, and_true] at h <;> simp only [toUnit]
  · omega
  · omega
  all_goals
    obtain ⟨e1, e2, e3⟩ := h
    simp only [e1, e2, e3] at v2
    omega

/-- C68: the keys of a `Date` are listed (C20) in the order of their fields; it is the order of the
dates, for every resolution. -/
theorem C68_date_order (res : Res) (v v' : Int) (a b : List (String × Int))
    (ha : decode res v = .ok a) (hb : decode res v' = .ok b) : values a < values b ↔ v < v' := by
  have hdec : ∀ u c, decode res u = .ok c →
      c = (fieldsOf (intervalStart res u)).list.take (res.index + 1) := by
    intro u c hc
    simp only [decode, item, ofUnit_eq, bind, Except.bind, pure, Except.pure] at hc
    split at hc
    · cases hc
    · next f hf =>
      split at hf
      · cases hf; cases hc; rfl
      · cases hf
  have hunit : ∀ u, toUnit res (intervalStart res u) = u :=
    fun u => (toUnit_iff res _ u).2 ⟨Int.le_refl _, intervalStart_succ_lt res u⟩
  have hmono : ∀ u u', u ≤ u' → ¬ values ((fieldsOf (intervalStart res u')).list.take (res.index + 1)) <
      values ((fieldsOf (intervalStart res u)).list.take (res.index + 1)) := by
    intro u u' hle
    obtain ⟨m1, m2⟩ := fields_mono _ _ (intervalStart_mono res hle)
    cases res <;>
      simp only [Res.index, Fields.list, List.take, values, List.map_cons, List.map_nil,
        List.cons_lt_cons_iff, List.not_lt_nil, and_false, or_false] <;> omega
  rw [hdec v a ha, hdec v' b hb]
  constructor
  · intro h
    refine Classical.byContradiction fun hn => ?_
    exact hmono v' v (by omega) h
  · intro h
    have h1 := hmono v v' (by omega)
    rw [List.not_lt] at h1
    rcases List.le_iff_lt_or_eq.1 h1 with h2 | h2
    · exact h2
    · have := toUnit_fields res _ _ h2
      rw [hunit, hunit] at this
      omega

/-- C68: a `Date` of any resolution gives partitions that follow the time. -/
theorem C68_date (perSec : Int) (hp : 0 < perSec) (res : Res) (x : TSD.Axis V) (sc : Pipe.Scheme V)
    (hv : sc.variables = [x.axis])
    (hk : ∀ y t, x.asTime y = some t → sc.asKey y = some (trunc perSec res t)) :
    ByTime x sc (trunc perSec res) :=
  ⟨hv, hk, fun s t h => C13_monotone perSec hp res s t h⟩

/-- The years, and the months, of two dates. -/
example : ([("year", 2021), ("month", 12)].map (·.2) : List Int) < [2022, 1] := by decide

end Verif
