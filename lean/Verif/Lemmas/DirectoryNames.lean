import Verif.Spec.Directory
import Verif.Lemmas.Calendar
import Verif.Props.TimeLineDate

/-! The names of the partitions of the partitionings of the library. -/

namespace Verif

open Spec Dir Cal

theorem decode_fields {res : Res} {v : Int} {l : List (String × Int)}
    (h : decode res v = .ok l) :
    ∃ f, ValidFields f ∧ toUnit res (seconds f) = v ∧ l = f.list.take (res.index + 1) := by
  obtain ⟨h1, h2⟩ := fieldsOf_spec (intervalStart res v)
  refine ⟨fieldsOf (intervalStart res v), h1, ?_, ?_⟩
  · rw [h2]
    exact (toUnit_iff res _ v).2 ⟨Int.le_refl _, intervalStart_succ_lt res v⟩
  · simp only [decode, item, bind, Except.bind, pure, Except.pure, ofUnit_eq] at h
    split at h
    · simp at h
    · next f hf =>
      split at hf
      · simp only [Except.ok.injEq] at hf h
        rw [← h, ← hf]
      · simp at hf

theorem monthLength_one (y m d : Int) (h : ValidDate y m d) : ValidDate y m 1 ∧ ValidDate y 1 1 := by
  have a := monthLength_pos y m
  have b := monthLength_pos y 1
  obtain ⟨h1, h2, _, _⟩ := h
  exact ⟨⟨h1, h2, by omega, by omega⟩, ⟨by omega, by omega, by omega, by omega⟩⟩

theorem date_back {res : Res} {f : Fields} (h : ValidFields f) :
    (secondsOf ((f.list.take (res.index + 1)).map (·.2))).map (toUnit res) =
      some (toUnit res (seconds f)) := by
  obtain ⟨y, m, d, hh, mi, ss⟩ := f
  have hv := h
  obtain ⟨h1, h2⟩ := h
  simp only at h1 h2
  obtain ⟨e1, e2⟩ := monthLength_one y m d h1
  have hd : ∀ m' d', ValidDate y m' d' → daysOfCivil y m' d' * 86400 =
      seconds ⟨y, m', d', 0, 0, 0⟩ := by
    intro m' d' hv'
    rw [daysOfCivil_eq _ _ _ hv'.1 hv'.2.1]
    simp [seconds]
  cases res
  · simp only [Fields.list, Res.index, List.take_succ_cons, List.take_zero, List.map_cons,
      List.map_nil, secondsOf, Option.map_some]
    rw [hd 1 1 e2]
    simp only [toUnit]
    rw [fieldsOf_seconds ⟨e2, by simp⟩, fieldsOf_seconds hv]
  · simp only [Fields.list, Res.index, List.take_succ_cons, List.take_zero, List.map_cons,
      List.map_nil, secondsOf, Option.map_some]
    rw [hd m 1 e1]
    simp only [toUnit]
    rw [fieldsOf_seconds ⟨e1, by simp⟩, fieldsOf_seconds hv]
  all_goals
    simp only [Fields.list, Res.index, List.take_succ_cons, List.take_zero, List.take_nil,
      List.map_cons, List.map_nil, secondsOf, Option.map_some, toUnit, seconds,
      daysOfCivil_eq y m d h1.1 h1.2.1, Option.some.injEq]
    try omega

theorem goodNaming_date (res : Res) : GoodNaming (date res) where
  format := .inr rfl
  visible := by intro t; simp [date]
  noEq := by cases res <;> decide
  names := by
    intro p l h
    unfold date at h
    simp only at h
    split at h
    · obtain ⟨f, _, _, rfl⟩ := decode_fields h
      cases res <;> rfl
    · cases h
  back := by
    intro p l h
    unfold date at h
    simp only at h
    split at h
    · next v =>
      obtain ⟨f, h1, h2, rfl⟩ := decode_fields h
      have := date_back (res := res) h1
      rw [h2] at this
      show Option.map _ _ = _
      rw [Option.map_eq_some_iff] at this ⊢
      obtain ⟨s, a, b⟩ := this
      exact ⟨s, a, by rw [b]⟩
    · cases h

theorem goodNaming_sequence (first : String) (others : List String)
    (h1 : ∀ t, first.toList ≠ '.' :: t) (h2 : ∀ x ∈ first :: others, '=' ∉ x.toList) :
    GoodNaming (sequence first others) where
  format := .inl rfl
  visible := h1
  noEq := h2
  names := by
    intro p l h
    unfold sequence at h
    simp only at h
    split at h
    · next hl =>
      cases h
      exact List.map_fst_zip (by simp [hl])
    · cases h
  back := by
    intro p l h
    unfold sequence at h
    simp only at h
    split at h
    · next hl =>
      cases h
      exact congrArg some (List.map_snd_zip (by simp [hl]))
    · cases h

/-- The order of the values of the keys is that of the partitions. -/
theorem inOrder_sequence {first : String} {others : List String} {a b : List Int}
    (h : InOrder (sequence first others) a b) : a < b := by
  obtain ⟨la, lb, h1, h2, h3⟩ := h
  simp only [sequence] at h1 h2
  split at h1
  · split at h2
    · next ha hb =>
      cases h1
      cases h2
      simpa [values, List.map_snd_zip, ha, hb] using h3
    · cases h2
  · cases h1

theorem inOrder_date {res : Res} {a b : List Int} (h : InOrder (date res) a b) : a < b := by
  obtain ⟨la, lb, h1, h2, h3⟩ := h
  simp only [date] at h1 h2
  split at h1
  · split at h2
    · rw [List.cons_lt_cons_iff]
      exact .inl ((C68_date_order res _ _ _ _ h1 h2).1 h3)
    · cases h2
  · cases h1

end Verif
