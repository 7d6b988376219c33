import Verif.Lemmas.Path
import Verif.Lemmas.Calendar

/-! Lemmas on the textual form of dates. -/

namespace Verif.Path

open Spec Cal

theorem fmt02_two (v : Int) (h0 : 0 ≤ v) (h1 : v < 100) :
    ∃ a b, fmt02 v = [a, b] ∧ a.isDigit = true ∧ b.isDigit = true ∧
      ((Nat.ofDigitChars 10 [a, b] 0 : Nat) : Int) = v := by
  have hlen : (Nat.toDigits 10 v.toNat).length ≤ 2 :=
    (Nat.length_toDigits_le_iff (by omega) (by omega)).2 (by omega)
  have hpos : 0 < (Nat.toDigits 10 v.toNat).length := Nat.length_toDigits_pos
  have hval := Nat.ofDigitChars_ten_toDigits (n := v.toNat)
  have hd : ∀ c ∈ Nat.toDigits 10 v.toNat, c.isDigit = true := fun c hc => isDigit_toDigits hc
  unfold fmt02
  rw [if_neg (by omega)]
  generalize Nat.toDigits 10 v.toNat = d at *
  match d, hpos, hlen with
  | [a], _, _ =>
    refine ⟨'0', a, by simp, by decide, hd a (by simp), ?_⟩
    rw [Nat.ofDigitChars_cons, show 10 * 0 + ('0'.toNat - '0'.toNat) = 0 from rfl, hval]
    omega
  | [a, b], _, _ =>
    refine ⟨a, b, by simp, hd a (by simp), hd b (by simp), ?_⟩
    rw [hval]
    omega

theorem twoDigits_fmt02 (v : Int) (h0 : 0 ≤ v) (h1 : v < 100) (t : List Char) :
    twoDigits (fmt02 v ++ t) = some (v, t) := by
  obtain ⟨a, b, e, ha, hb, hv⟩ := fmt02_two v h0 h1
  rw [e]
  simp only [List.cons_append, List.nil_append, twoDigits, ha, hb, and_self, if_true]
  rw [hv]

theorem fourDigits_fmt02 (v : Int) (h0 : 1000 ≤ v) (h1 : v ≤ 9999) (t : List Char) :
    fourDigits (fmt02 v ++ t) = some (v, t) := by
  have hlen : (Nat.toDigits 10 v.toNat).length ≤ 4 :=
    (Nat.length_toDigits_le_iff (by omega) (by omega)).2 (by omega)
  have hlen3 : ¬ (Nat.toDigits 10 v.toNat).length ≤ 3 := fun h => by
    have := (Nat.length_toDigits_le_iff (b := 10) (n := v.toNat) (k := 3) (by omega)
      (by omega)).1 h
    omega
  have hval := Nat.ofDigitChars_ten_toDigits (n := v.toNat)
  have hd : ∀ c ∈ Nat.toDigits 10 v.toNat, c.isDigit = true := fun c hc => isDigit_toDigits hc
  unfold fmt02
  rw [if_neg (by omega)]
  simp only
  rw [if_neg (by omega)]
  generalize Nat.toDigits 10 v.toNat = d at *
  match d, hlen, hlen3 with
  | [a, b, c, e], _, _ =>
    simp only [List.cons_append, List.nil_append, fourDigits, hd a (by simp), hd b (by simp),
      hd c (by simp), hd e (by simp), and_self, if_true, hval]
    congr 2
    omega
  | [], _, h => exact absurd (by simp) h
  | [_], _, h => exact absurd (by simp) h
  | [_, _], _, h => exact absurd (by simp) h
  | [_, _, _], _, h => exact absurd (by simp) h
  | _ :: _ :: _ :: _ :: _ :: _, h, _ => simp at h

theorem stringify_of (p : List (String × Int)) (x : List Char) (c : Char)
    (h : stringifyAll p = .ok (x ++ [c])) (hc : c ∈ ['-', 'T', ':', '.']) :
    stringify p = .ok x := by
  simp only [stringify, h, bind, Except.bind, List.getLast?_append, List.getLast?_singleton,
    Option.some_or, hc, if_true, pure, Except.pure, List.dropLast_append_cons, List.dropLast_singleton,
    List.append_nil]

theorem stringify_iso (f : Fields) (res : Res) :
    stringify (f.list.take (res.index + 1)) = .ok (fmt02 f.year ++
      (([('-', f.month), ('-', f.day), ('T', f.hour), (':', f.minute),
        (':', f.second)] : List (Char × Int)).take res.index).flatMap fun p => p.1 :: fmt02 p.2) := by
  have hs : separator "year" = .ok '-' ∧ separator "month" = .ok '-' ∧
      separator "day" = .ok 'T' ∧ separator "hour" = .ok ':' ∧ separator "minute" = .ok ':' ∧
      separator "second" = .ok '.' := by decide
  obtain ⟨s1, s2, s3, s4, s5, s6⟩ := hs
  cases res
  · refine stringify_of _ _ '-' ?_ (by decide)
    simp [stringifyAll, Fields.list, Res.index, s1, bind, Except.bind, pure, Except.pure]
  · refine stringify_of _ _ '-' ?_ (by decide)
    simp [stringifyAll, Fields.list, Res.index, s1, s2, bind, Except.bind, pure, Except.pure]
  · refine stringify_of _ _ 'T' ?_ (by decide)
    simp [stringifyAll, Fields.list, Res.index, s1, s2, s3, bind, Except.bind, pure, Except.pure]
  · refine stringify_of _ _ ':' ?_ (by decide)
    simp [stringifyAll, Fields.list, Res.index, s1, s2, s3, s4, bind, Except.bind, pure,
      Except.pure]
  · refine stringify_of _ _ ':' ?_ (by decide)
    simp [stringifyAll, Fields.list, Res.index, s1, s2, s3, s4, s5, bind, Except.bind, pure,
      Except.pure]
  · refine stringify_of _ _ '.' ?_ (by decide)
    simp [stringifyAll, Fields.list, Res.index, s1, s2, s3, s4, s5, s6, bind, Except.bind, pure,
      Except.pure]

theorem isoFields_iso (seps : List Char) (l : List (Char × Int))
    (h : ∃ rest, seps = l.map (·.1) ++ rest) (hv : ∀ p ∈ l, 0 ≤ p.2 ∧ p.2 < 100) :
    isoFields seps (l.flatMap fun p => p.1 :: fmt02 p.2) = some (l.map (·.2)) := by
  induction l generalizing seps with
  | nil => cases seps <;> simp [isoFields]
  | cons p t ih =>
    obtain ⟨rest, rfl⟩ := h
    have hp := hv p (by simp)
    simp only [List.map_cons, List.cons_append, List.flatMap_cons, isoFields, if_true]
    rw [twoDigits_fmt02 _ hp.1 hp.2]
    simp only
    rw [ih _ ⟨rest, rfl⟩ fun q hq => hv q (by simp [hq])]
    rfl

theorem monthTable_get (y m : Int) (h1 : 1 ≤ m) (h2 : m ≤ 12) :
    (monthTable (isLeap y))[(m - 1).toNat]? = some (monthLength y m) := by
  rw [monthTable_eq]
  rcases months_cases h1 h2 with h | h | h | h | h | h | h | h | h | h | h | h <;> subst h <;>
    simp [monthLength]

/-- `encode` of the fields of an instant gives the interval of the instant. -/
theorem dateEncode_fields (res : Res) (f : Fields) (hf : ValidFields f) (h1 : 1000 ≤ f.year)
    (h2 : f.year ≤ 9999) :
    dateEncode (f.list.take (res.index + 1)) = .ok (res, toUnit res (seconds f)) := by
  have hback := fieldsOf_seconds hf
  obtain ⟨⟨m1, m2, d1, d2⟩, hh1, hh2, mi1, mi2, s1, s2⟩ := hf
  have hml : monthLength f.year f.month ≤ 31 := by
    unfold monthLength
    (repeat' split) <;> omega
  have hmt := monthTable_get f.year f.month m1 m2
  have hdays := daysOfCivil_eq f.year f.month f.day m1 m2
  simp only [dateEncode, stringify_iso, bind, Except.bind, numpyDatetime64,
    fourDigits_fmt02 _ h1 h2]
  have hiso : isoFields ['-', '-', 'T', ':', ':']
      (([('-', f.month), ('-', f.day), ('T', f.hour), (':', f.minute),
        (':', f.second)] : List (Char × Int)).take res.index |>.flatMap
          fun p => p.1 :: fmt02 p.2) =
      some ((([('-', f.month), ('-', f.day), ('T', f.hour), (':', f.minute),
        (':', f.second)] : List (Char × Int)).take res.index).map (·.2)) := by
    apply isoFields_iso
    · refine ⟨['-', '-', 'T', ':', ':'].drop res.index, ?_⟩
      cases res <;> rfl
    · intro p hp
      have hp' := List.mem_of_mem_take hp
      simp only [List.mem_cons, List.not_mem_nil, or_false] at hp'
      rcases hp' with rfl | rfl | rfl | rfl | rfl <;> simp only <;> omega
  rw [hiso]
  have e1 : ¬ (f.month < 1 ∨ f.month > 12) := by omega
  have e2 : ¬ (f.day < 1 ∨ f.day > monthLength f.year f.month) := by omega
  have e3 : ¬ f.hour > 23 := by omega
  have e4 : ¬ f.minute > 59 := by omega
  have e5 : ¬ f.second > 59 := by omega
  cases res <;>
    simp only [Res.index, List.take_zero, List.take_succ_cons, List.map_cons, List.map_nil, e1,
      e2, e3, e4, e5, hmt, if_false, toUnit, hback, Except.ok.injEq, Prod.mk.injEq, true_and,
      hdays, List.take_nil] <;> simp only [seconds] <;> omega

end Verif.Path
