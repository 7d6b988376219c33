import Verif.Spec.Json

/-! Lemmas on the texts of `json`. -/

namespace Verif.Json

/-! ### What is written -/

/-- The text that would be written with the empty string in place of what `json` refuses. -/
def plain (o : Out) : List Char := o.flatMap fun
  | none => ['"', '"']
  | some c => [c]

theorem plain_nil : plain [] = [] := rfl

theorem plain_append (a b : Out) : plain (a ++ b) = plain a ++ plain b := by
  simp [plain, List.flatMap_append]

theorem plain_put (t : List Char) : plain (put t) = t := by
  induction t with
  | nil => rfl
  | cons c t ih =>
    show [c] ++ plain (put t) = _
    rw [ih]; rfl

theorem written_plain (o : Out) :
    ∃ q, plain o = written o ++ q ∧ (none ∈ o → q ≠ []) ∧ (none ∉ o → q = []) := by
  induction o with
  | nil => exact ⟨[], rfl, by simp, fun _ => rfl⟩
  | cons x t ih =>
    cases x with
    | none => exact ⟨'"' :: '"' :: plain t, rfl, by simp, fun h => absurd (by simp) h⟩
    | some c =>
      obtain ⟨q, h1, h2, h3⟩ := ih
      refine ⟨q, ?_, ?_, ?_⟩
      · show [c] ++ plain t = c :: written t ++ q
        rw [h1]; rfl
      · intro h
        exact h2 (by simpa using h)
      · intro h
        exact h3 (by simpa using h)

/-! ### Numbers -/

theorem digitChar_toNat (d : Fin 10) : (digitChar d).toNat = 48 + d.val := by
  revert d; decide

theorem digitOf_digitChar (d : Fin 10) : digitOf (digitChar d) = some d := by
  revert d; decide

theorem digitChar_zero {d : Fin 10} : digitChar d = '0' ↔ d.val = 0 := by
  revert d; decide

theorem digitChar_ne (d : Fin 10) :
    digitChar d ≠ '-' ∧ digitChar d ≠ 'n' ∧ digitChar d ≠ 't' ∧ digitChar d ≠ 'f' ∧
      digitChar d ≠ '"' ∧ digitChar d ≠ '{' ∧ digitChar d ≠ '[' ∧ digitChar d ≠ ']' ∧
      isSpace (digitChar d) = false := by
  revert d; decide

/-- A text that does not go on with a number. -/
def Stops (r : List Char) : Prop :=
  ∀ c, r.head? = some c → digitOf c = none ∧ c ≠ '.' ∧ c ≠ 'e' ∧ c ≠ 'E'

theorem Stops.nil : Stops [] := by intro c h; simp at h

theorem Stops.cons {c : Char} {t : List Char}
    (h : digitOf c = none ∧ c ≠ '.' ∧ c ≠ 'e' ∧ c ≠ 'E') : Stops (c :: t) := by
  intro d hd
  simp only [List.head?_cons, Option.some.injEq] at hd
  exact hd ▸ h

theorem digits_text (ds : List (Fin 10)) {r : List Char}
    (h : ∀ c, r.head? = some c → digitOf c = none) :
    digits (ds.map digitChar ++ r) = (ds, r) := by
  induction ds with
  | nil =>
    cases r with
    | nil => rfl
    | cons c t => simp [digits, h c rfl]
  | cons d t ih => simp [digits, digitOf_digitChar, ih]

theorem natOf_snoc (l : List (Fin 10)) (d : Fin 10) : natOf (l ++ [d]) = 10 * natOf l + d.val := by
  simp [natOf, List.foldl_append]

theorem natDigits_spec (fuel n : Nat) (h : n < fuel) :
    natOf (natDigits fuel n) = n ∧
      ∃ d ds, natDigits fuel n = d :: ds ∧ (d.val = 0 → n = 0 ∧ ds = []) := by
  induction fuel generalizing n with
  | zero => omega
  | succ f ih =>
    rw [natDigits]
    split
    · rename_i h10
      exact ⟨by simp [natOf], _, _, rfl, fun hd => ⟨hd, rfl⟩⟩
    · rename_i h10
      obtain ⟨h1, d, ds, h2, h3⟩ := ih (n / 10) (by omega)
      refine ⟨?_, d, ds ++ [⟨n % 10, Nat.mod_lt _ (by omega)⟩], by rw [h2]; rfl, ?_⟩
      · rw [natOf_snoc, h1]; show 10 * (n / 10) + n % 10 = n; omega
      · intro hd
        have := h3 hd
        omega

theorem intOf_text (n : Nat) {r : List Char} (h : ∀ c, r.head? = some c → digitOf c = none) :
    intOf (natText n ++ r) = some (n, r) := by
  obtain ⟨h1, d, ds, h2, h3⟩ := natDigits_spec (n + 1) n (by omega)
  rw [intOf, natText, digits_text _ h]
  rw [h2]
  simp only
  split
  · rename_i hd
    obtain ⟨hn, hds⟩ := h3 hd
    subst hn hds
    simp
  · rw [← h2, h1]

theorem signOf_text (neg : Bool) (n : Nat) (r : List Char) :
    signOf (signText neg ++ (natText n ++ r)) = (neg, natText n ++ r) := by
  obtain ⟨-, d, ds, h2, -⟩ := natDigits_spec (n + 1) n (by omega)
  cases neg
  · simp only [signText, natText, h2, List.map_cons, List.cons_append, List.nil_append, signOf,
      Bool.false_eq_true, if_false]
    rw [if_neg (digitChar_ne d).1]
  · rfl

theorem expOf_text (neg : Bool) (d : Digits) {r : List Char} (h : Stops r) :
    expOf (expText neg d ++ r) = (some (neg, d), r) := by
  have hd := digits_text (d.1 :: d.2) (r := r) fun c hc => (h c hc).1
  simp only [expText, List.cons_append, expOf, if_true, true_or, expDigits, digitsText]
  rw [List.map_cons, List.cons_append] at hd
  cases neg <;> simp [hd]

theorem fracOf_text (d : Digits) {r : List Char} (h : ∀ c, r.head? = some c → digitOf c = none) :
    fracOf ('.' :: (digitsText d ++ r)) = (some d, r) := by
  simp only [fracOf, if_true, digitsText, digits_text _ h]

theorem expOf_stop {r : List Char} (h : Stops r) : expOf r = (none, r) := by
  cases r with
  | nil => rfl
  | cons c t =>
    have := h c rfl
    simp [expOf, this.2.2.1, this.2.2.2]

theorem fracOf_stop {r : List Char} (h : ∀ c, r.head? = some c → c ≠ '.') :
    fracOf r = (none, r) := by
  cases r with
  | nil => rfl
  | cons c t => simp [fracOf, h c rfl]

theorem number_int (i : Int) {r : List Char} (h : Stops r) :
    number (intText i ++ r) = some (.int i, r) := by
  have hs := signOf_text (decide (i < 0)) i.natAbs r
  have hi := intOf_text i.natAbs (r := r) fun c hc => (h c hc).1
  have hf := fracOf_stop (r := r) fun c hc => (h c hc).2.1
  have he := expOf_stop h
  rw [intText, List.append_assoc, number, hs]
  simp only [hi, hf, he]
  by_cases hneg : i < 0
  · simp only [hneg, decide_true, if_true, Option.some.injEq, Prod.mk.injEq, V.int.injEq, and_true]
    omega
  · simp only [hneg, decide_false, Bool.false_eq_true, if_false, Option.some.injEq, Prod.mk.injEq,
      V.int.injEq, and_true]
    omega

theorem expText_head (neg : Bool) (d : Digits) (r : List Char) (c : Char)
    (h : (expText neg d ++ r).head? = some c) : digitOf c = none ∧ c ≠ '.' := by
  simp only [expText, List.cons_append, List.head?_cons, Option.some.injEq] at h
  subst h; decide

theorem number_dec (neg : Bool) (n : Nat) (frac : Digits) (e : Option (Bool × Digits))
    {r : List Char} (h : Stops r) :
    number (fltText (.dec neg n frac e) ++ r) = some (.float (.dec neg n frac e), r) := by
  have hdot : ∀ x (c : Char), ('.' :: x : List Char).head? = some c → digitOf c = none := by
    intro x c hc
    simp only [List.head?_cons, Option.some.injEq] at hc
    subst hc; decide
  cases e with
  | none =>
    have hs := signOf_text neg n ('.' :: (digitsText frac ++ r))
    have hi := intOf_text n (hdot (digitsText frac ++ r))
    have hf := fracOf_text frac (r := r) fun c hc => (h c hc).1
    have he := expOf_stop h
    simp only [fltText, List.append_assoc, List.cons_append] at hs ⊢
    rw [number, hs]
    simp only [hi, hf, he]
  | some e =>
    have hs := signOf_text neg n ('.' :: (digitsText frac ++ (expText e.1 e.2 ++ r)))
    have hi := intOf_text n (hdot (digitsText frac ++ (expText e.1 e.2 ++ r)))
    have hf := fracOf_text frac (r := expText e.1 e.2 ++ r)
      fun c hc => (expText_head _ _ _ c hc).1
    have he := expOf_text e.1 e.2 h
    simp only [fltText, List.append_assoc, List.cons_append] at hs ⊢
    rw [number, hs]
    simp only [hi, hf, he]

theorem number_sci (neg : Bool) (n : Nat) (eneg : Bool) (d : Digits) {r : List Char}
    (h : Stops r) :
    number (fltText (.sci neg n eneg d) ++ r) = some (.float (.sci neg n eneg d), r) := by
  have hs := signOf_text neg n (expText eneg d ++ r)
  have hi := intOf_text n (r := expText eneg d ++ r) fun c hc => (expText_head _ _ _ c hc).1
  have hf := fracOf_stop (r := expText eneg d ++ r) fun c hc => (expText_head _ _ _ c hc).2
  have he := expOf_text eneg d h
  simp only [fltText, List.append_assoc] at hs ⊢
  rw [number, hs]
  simp only [hi, hf, he]

/-- The first character of a number. -/
theorem natText_head (neg : Bool) (n : Nat) (r : List Char) :
    ∃ c t, signText neg ++ (natText n ++ r) = c :: t ∧ (c = '-' ∨ ∃ d, c = digitChar d) ∧
      (c = '-' → ∃ d t', t = digitChar d :: t') := by
  obtain ⟨-, d, ds, h2, -⟩ := natDigits_spec (n + 1) n (by omega)
  cases neg
  · refine ⟨digitChar d, ds.map digitChar ++ r, by simp [signText, natText, h2], .inr ⟨d, rfl⟩, ?_⟩
    intro h
    exact absurd h (digitChar_ne d).1
  · exact ⟨'-', digitChar d :: (ds.map digitChar ++ r), by simp [signText, natText, h2],
      .inl rfl, fun _ => ⟨d, _, rfl⟩⟩

/-- A text that begins with a number is read as this number. -/
theorem scalar_number {t : List Char} {x : V × List Char} (hx : number t = some x)
    {c : Char} {t' : List Char} (ht : t = c :: t') (hc : c = '-' ∨ ∃ d, c = digitChar d) :
    scalar t = some x := by
  have hne : c ≠ 'n' ∧ c ≠ 't' ∧ c ≠ 'f' := by
    rcases hc with rfl | ⟨d, rfl⟩
    · decide
    · exact ⟨(digitChar_ne d).2.1, (digitChar_ne d).2.2.1, (digitChar_ne d).2.2.2.1⟩
  have hw : ∀ (a : Char) (w : List Char), a ≠ c → word (a :: w) t = none := by
    intro a w ha
    rw [ht, word, if_neg ha]
  have h1 : word "null".toList t = none := hw 'n' _ (Ne.symm hne.1)
  have h2 : word "true".toList t = none := hw 't' _ (Ne.symm hne.2.1)
  have h3 : word "false".toList t = none := hw 'f' _ (Ne.symm hne.2.2)
  rw [scalar, h1]
  simp only [h2, h3, hx]

theorem scalar_int (i : Int) {r : List Char} (h : Stops r) :
    scalar (intText i ++ r) = some (.int i, r) := by
  obtain ⟨c, t, h1, h2, -⟩ := natText_head (decide (i < 0)) i.natAbs r
  refine scalar_number (number_int i h) (c := c) (t' := t) ?_ h2
  rw [intText, List.append_assoc, h1]

theorem scalar_flt (f : Flt) {r : List Char} (h : Stops r) :
    scalar (fltText f ++ r) = some (.float f, r) := by
  cases f with
  | dec neg n frac e =>
    have hx := number_dec neg n frac e h
    cases e with
    | none =>
      obtain ⟨c, t, h1, h2, -⟩ := natText_head neg n ('.' :: (digitsText frac ++ r))
      refine scalar_number hx (c := c) (t' := t) ?_ h2
      rw [← h1]; simp [fltText]
    | some e =>
      obtain ⟨c, t, h1, h2, -⟩ :=
        natText_head neg n ('.' :: (digitsText frac ++ (expText e.1 e.2 ++ r)))
      refine scalar_number hx (c := c) (t' := t) ?_ h2
      rw [← h1]; simp [fltText]
  | sci neg n eneg d =>
    have hx := number_sci neg n eneg d h
    obtain ⟨c, t, h1, h2, -⟩ := natText_head neg n (expText eneg d ++ r)
    refine scalar_number hx (c := c) (t' := t) ?_ h2
    rw [← h1]; simp [fltText]
  | nan => rfl
  | inf neg => cases neg <;> rfl

/-! ### Strings -/

theorem hexOf_hexDigit {n : Nat} (h : n < 16) : hexOf (hexDigit n) = some n := by
  have : ∀ m : Fin 16, hexOf (hexDigit m.val) = some m.val := by decide
  exact this ⟨n, h⟩

theorem scan_next {st st' : St} {c : Char} (h : step st c = .next st' none) (t : List Char) :
    scan st (c :: t) = scan st' t := by
  rw [scan, h]

theorem scan_out {st st' : St} {c d : Char} (h : step st c = .next st' (some d)) (t : List Char) :
    scan st (c :: t) = (scan st' t).map fun r => (d :: r.1, r.2) := by
  rw [scan, h]

/-- Reading the four digits of an escaped character. -/
theorem scan_hex {st : St} (hi : Option Nat) {n : Nat} (hn : n < 65536)
    (hst : step st '\\' = .next (.slash hi) none) (t : List Char) :
    scan st (hexText n ++ t) = match decoded hi n with
      | .stop => some ([], t)
      | .fail => none
      | .next st' none => scan st' t
      | .next st' (some d) => (scan st' t).map fun r => (d :: r.1, r.2) := by
  have e : n = 16 * (16 * (16 * (16 * 0 + n / 4096) + n / 256 % 16) + n / 16 % 16) + n % 16 := by
    omega
  rw [hexText, List.cons_append, scan_next hst]
  rw [List.cons_append, scan_next (st' := .hex hi 4 0) (by rfl)]
  rw [List.cons_append, scan_next (st' := .hex hi 3 (16 * 0 + n / 4096))
    (by simp [step, hexOf_hexDigit (show n / 4096 < 16 by omega)])]
  rw [List.cons_append, scan_next (st' := .hex hi 2 (16 * (16 * 0 + n / 4096) + n / 256 % 16))
    (by simp [step, hexOf_hexDigit (show n / 256 % 16 < 16 by omega)])]
  rw [List.cons_append, scan_next
    (st' := .hex hi 1 (16 * (16 * (16 * 0 + n / 4096) + n / 256 % 16) + n / 16 % 16))
    (by simp [step, hexOf_hexDigit (show n / 16 % 16 < 16 by omega)])]
  have hl : step (.hex hi 1 (16 * (16 * (16 * 0 + n / 4096) + n / 256 % 16) + n / 16 % 16))
      (hexDigit (n % 16)) = decoded hi n := by
    simp only [step, hexOf_hexDigit (show n % 16 < 16 by omega), Nat.le_refl, if_true]
    rw [← e]
  rw [List.cons_append, scan, hl]
  rfl

theorem scan_char (c : Char) (t : List Char) :
    scan .text (charText c ++ t) = (scan .text t).map fun r => (c :: r.1, r.2) := by
  have hval : c.toNat < 55296 ∨ 57343 < c.toNat ∧ c.toNat < 1114112 := c.valid
  rw [charText]
  split
  · rename_i h; subst h; rfl
  split
  · rename_i h; subst h; rfl
  split
  · rename_i h; subst h; rfl
  split
  · rename_i h; subst h; rfl
  split
  · rename_i h; subst h; rfl
  split
  · rename_i h
    have : c = Char.ofNat 12 := by rw [← h, Char.ofNat_toNat]
    subst this; rfl
  split
  · rename_i h
    have : c = Char.ofNat 8 := by rw [← h, Char.ofNat_toNat]
    subst this; rfl
  split
  · rename_i h1 h2 _ _ _ _ _ h
    exact scan_out (by rw [step, if_neg h1, if_neg h2, if_neg (by omega)]) t
  split
  · rename_i h
    rw [scan_hex none h (by rfl)]
    have : decoded none c.toNat = .next .text (some c) := by
      rw [decoded, if_neg (by omega), if_neg (by omega), Char.ofNat_toNat]
    rw [this]
  · rename_i h
    rw [List.append_assoc, scan_hex none (by omega) (by rfl)]
    have : decoded none (55296 + (c.toNat - 65536) / 1024) =
        .next (.high (55296 + (c.toNat - 65536) / 1024)) none := by
      rw [decoded, if_pos (by omega)]
    rw [this]
    simp only
    rw [scan_hex (some (55296 + (c.toNat - 65536) / 1024)) (by omega) (by rfl)]
    have : decoded (some (55296 + (c.toNat - 65536) / 1024))
        (56320 + (c.toNat - 65536) % 1024) = .next .text (some c) := by
      rw [decoded, if_pos (by omega)]
      have : 65536 + (55296 + (c.toNat - 65536) / 1024 - 55296) * 1024 +
          (56320 + (c.toNat - 65536) % 1024 - 56320) = c.toNat := by omega
      rw [this, Char.ofNat_toNat]
    rw [this]

theorem scan_text (s r : List Char) : scan .text (charsText s ++ '"' :: r) = some (s, r) := by
  induction s with
  | nil => rfl
  | cons c t ih => rw [charsText, List.append_assoc, scan_char, ih]; rfl

/-! ### Values -/

mutual
/-- The value that is read where a value was written. -/
def norm : V → V
  | .null => .null
  | .bool b => .bool b
  | .int i => .int i
  | .float f => .float f
  | .str s => .str s
  | .list l => .list (normElems l)
  | .tuple l => .list (normElems l)
  | .dict d => obj (normPairs d)
  | .other => .str ""

/-- The elements that are read. -/
def normElems : List V → List V
  | [] => []
  | v :: t => norm v :: normElems t

/-- The pairs that are read. -/
def normPairs : List (Key × V) → List (String × V)
  | [] => []
  | (k, v) :: t => ((match keyStr k with | some s => s | none => ""), norm v) :: normPairs t
end

theorem skip_cons {c : Char} (h : isSpace c = false) (t : List Char) : skip (c :: t) = c :: t := by
  simp [skip, h]

theorem skip_newline (w l : Nat) (t : List Char) : skip (newline w l ++ t) = skip t := by
  rw [newline, List.cons_append, skip, if_pos (by decide)]
  generalize w * l = n
  induction n with
  | zero => rfl
  | succ n ih =>
    rw [List.replicate_succ, List.cons_append, skip, if_pos (by decide), ih]

theorem plain_none : plain [none] = ['"', '"'] := rfl

theorem stops_newline (w l : Nat) (t : List Char) : Stops (newline w l ++ t) :=
  Stops.cons (by decide)

/-- The first character of a value. -/
theorem emit_head (w lvl : Nat) (v : V) (r : List Char) :
    ∃ c t, plain (emit w lvl v) ++ r = c :: t ∧ isSpace c = false ∧ c ≠ ']' := by
  have hnum : ∀ neg n r', ∃ c t, signText neg ++ (natText n ++ r') = c :: t ∧
      isSpace c = false ∧ c ≠ ']' := by
    intro neg n r'
    obtain ⟨c, t, h1, h2, -⟩ := natText_head neg n r'
    refine ⟨c, t, h1, ?_⟩
    rcases h2 with rfl | ⟨d, rfl⟩
    · decide
    · exact ⟨(digitChar_ne d).2.2.2.2.2.2.2.2, (digitChar_ne d).2.2.2.2.2.2.2.1⟩
  have hput : ∀ (x : List Char) {c t}, x = c :: t → isSpace c = false ∧ c ≠ ']' →
      ∀ o, ∃ c t, plain (put x ++ o) ++ r = c :: t ∧ isSpace c = false ∧ c ≠ ']' := by
    intro x c t hx hc o
    exact ⟨c, t ++ plain o ++ r, by rw [plain_append, plain_put, hx]; simp, hc⟩
  cases v with
  | null => exact ⟨'n', _, by rw [emit, plain_put]; rfl, by decide⟩
  | bool b => cases b <;> exact ⟨_, _, by rw [emit, plain_put]; rfl, by decide⟩
  | int i =>
    rw [emit, plain_put, intText, List.append_assoc]
    exact hnum _ _ _
  | float f =>
    rw [emit, plain_put]
    cases f with
    | dec neg n d e =>
      cases e with
      | none =>
        rw [fltText, List.append_assoc, List.append_assoc]
        exact hnum _ _ _
      | some e =>
        rw [fltText, List.append_assoc, List.append_assoc, List.append_assoc]
        exact hnum _ _ _
    | sci neg n eneg d =>
      rw [fltText, List.append_assoc, List.append_assoc]
      exact hnum _ _ _
    | nan => exact ⟨'N', _, rfl, by decide⟩
    | inf neg => cases neg <;> exact ⟨_, _, rfl, by decide⟩
  | str s => exact ⟨'"', _, by rw [emit, plain_put]; rfl, by decide⟩
  | list l =>
    cases l with
    | nil => exact ⟨'[', _, by rw [emit, plain_put]; rfl, by decide⟩
    | cons v t =>
      rw [emit, List.append_assoc, List.append_assoc]
      exact hput _ rfl (by decide) _
  | tuple l =>
    cases l with
    | nil => exact ⟨'[', _, by rw [emit, plain_put]; rfl, by decide⟩
    | cons v t =>
      rw [emit, List.append_assoc, List.append_assoc]
      exact hput _ rfl (by decide) _
  | dict d =>
    cases d with
    | nil => exact ⟨'{', _, by rw [emit, plain_put]; rfl, by decide⟩
    | cons kv t =>
      obtain ⟨k, v⟩ := kv
      rw [emit, List.append_assoc, List.append_assoc, List.append_assoc, List.append_assoc]
      exact hput _ rfl (by decide) _
  | other => exact ⟨'"', '"' :: r, rfl, by decide⟩

/-- A value written is read. -/
def ReadBack (w : Nat) (v : V) : Prop :=
  ∀ f lvl r, (plain (emit w lvl v)).length ≤ f → Stops r →
    value f (plain (emit w lvl v) ++ r) = some (norm v, r)

theorem value_scalar {f : Nat} {t : List Char} {x : V × List Char} (h : scalar t = some x)
    {c : Char} {t' : List Char} (ht : t = c :: t') (hc : c ≠ '"' ∧ c ≠ '{' ∧ c ≠ '[')
    (hf : 0 < f) : value f t = some x := by
  cases f with
  | zero => omega
  | succ f => rw [ht, value, if_neg hc.1, if_neg hc.2.1, if_neg hc.2.2, ← ht, h]

theorem number_first (neg : Bool) (n : Nat) (r : List Char) :
    ∃ c t, signText neg ++ (natText n ++ r) = c :: t ∧ (c ≠ '"' ∧ c ≠ '{' ∧ c ≠ '[') := by
  obtain ⟨c, t, h1, h2, -⟩ := natText_head neg n r
  refine ⟨c, t, h1, ?_⟩
  rcases h2 with rfl | ⟨d, rfl⟩
  · decide
  · have := digitChar_ne d
    exact ⟨this.2.2.2.2.1, this.2.2.2.2.2.1, this.2.2.2.2.2.2.1⟩

theorem readBack_str (f : Nat) (s r : List Char) (hf : 0 < f) :
    value f (strText s ++ r) = some (.str (String.ofList s), r) := by
  cases f with
  | zero => omega
  | succ f =>
    rw [strText, List.cons_append, value, if_pos rfl, List.append_assoc]
    show (scan .text (charsText s ++ '"' :: r)).map _ = _
    rw [scan_text]; rfl

theorem key_scan (k : Key) (r : List Char) :
    ∃ t, plain (keyOut k) ++ r = '"' :: t ∧
      scan .text t = some ((match keyStr k with | some s => s | none => "").toList, r) := by
  rw [keyOut]
  cases h : keyStr k with
  | none => exact ⟨'"' :: r, rfl, rfl⟩
  | some s =>
    refine ⟨charsText s.toList ++ '"' :: r, ?_, scan_text _ _⟩
    show plain (put (strText s.toList)) ++ r = _
    rw [plain_put, strText]; simp

/-- The elements of a list are read after a first one. -/
def ReadElems (w : Nat) (l : List V) : Prop :=
  ∀ v, ReadBack w v → ∀ f lvl lvl' r,
    (plain (emit w lvl v) ++ (plain (emitElems w lvl l) ++ (newline w lvl' ++ [']']))).length ≤ f →
      elems f (plain (emit w lvl v) ++ (plain (emitElems w lvl l) ++
        (newline w lvl' ++ ']' :: r))) = some (norm v :: normElems l, r)

theorem readElems_nil (w : Nat) : ReadElems w [] := by
  intro v hv f lvl lvl' r hf
  simp only [List.length_append, List.length_cons, List.length_nil] at hf
  cases f with
  | zero => omega
  | succ f =>
    rw [elems, emitElems, plain_nil, List.nil_append,
      hv f lvl _ (by omega) (stops_newline w lvl' _)]
    simp only [skip_newline, skip_cons (show isSpace ']' = false by decide)]
    rfl

theorem readElems_cons (w : Nat) (v : V) (t : List V) (hv : ReadBack w v)
    (ht : ReadElems w t) : ReadElems w (v :: t) := by
  intro v0 hv0 f lvl lvl' r hf
  have hplain : ∀ x, plain (emitElems w lvl (v :: t)) ++ x =
      ',' :: (newline w lvl ++ (plain (emit w lvl v) ++ (plain (emitElems w lvl t) ++ x))) := by
    intro x
    rw [emitElems, plain_append, plain_append, plain_put]; simp
  rw [hplain] at hf ⊢
  simp only [List.length_append, List.length_cons, List.length_nil] at hf
  cases f with
  | zero => omega
  | succ f =>
    rw [elems, hv0 f lvl _ (by omega) (Stops.cons (by decide))]
    simp only [skip_cons (show isSpace ',' = false by decide)]
    rw [if_neg (by decide), if_pos trivial, skip_newline]
    obtain ⟨c, t', h1, h2, -⟩ := emit_head w lvl v
      (plain (emitElems w lvl t) ++ (newline w lvl' ++ ']' :: r))
    have hskip : skip (plain (emit w lvl v) ++ (plain (emitElems w lvl t) ++
        (newline w lvl' ++ ']' :: r))) = plain (emit w lvl v) ++ (plain (emitElems w lvl t) ++
        (newline w lvl' ++ ']' :: r)) := by rw [h1, skip_cons h2]
    rw [hskip, ht v hv f lvl lvl' r (by
      simp only [List.length_append, List.length_cons, List.length_nil]; omega)]
    rfl

theorem readBack_list (w : Nat) (v : V) (t : List V) (hv : ReadBack w v) (ht : ReadElems w t)
    (f lvl : Nat) (r : List Char)
    (hf : (plain (put ('[' :: newline w (lvl + 1)) ++ emit w (lvl + 1) v ++
      emitElems w (lvl + 1) t ++ put (newline w lvl ++ [']']))).length ≤ f) :
    value f (plain (put ('[' :: newline w (lvl + 1)) ++ emit w (lvl + 1) v ++
      emitElems w (lvl + 1) t ++ put (newline w lvl ++ [']'])) ++ r) =
        some (.list (norm v :: normElems t), r) := by
  have e : plain (put ('[' :: newline w (lvl + 1)) ++ emit w (lvl + 1) v ++
      emitElems w (lvl + 1) t ++ put (newline w lvl ++ [']'])) ++ r =
      '[' :: (newline w (lvl + 1) ++ (plain (emit w (lvl + 1) v) ++
        (plain (emitElems w (lvl + 1) t) ++ (newline w lvl ++ ']' :: r)))) := by
    simp [plain_append, plain_put]
  simp only [plain_append, plain_put, List.length_append, List.length_cons,
    List.length_nil] at hf
  rw [e]
  cases f with
  | zero => omega
  | succ f =>
    rw [value, if_neg (by decide), if_neg (by decide), if_pos rfl, skip_newline]
    obtain ⟨c, t', h1, h2, h3⟩ := emit_head w (lvl + 1) v
      (plain (emitElems w (lvl + 1) t) ++ (newline w lvl ++ ']' :: r))
    have hel := ht v hv f (lvl + 1) lvl r (by
      simp only [List.length_append, List.length_cons, List.length_nil]; omega)
    rw [h1, skip_cons h2]
    simp only
    rw [if_neg h3, ← h1, hel]
    rfl

/-- The pairs of a dictionary are read after a first one. -/
def ReadPairs (w : Nat) (l : List (Key × V)) : Prop :=
  ∀ k v, ReadBack w v → ∀ f lvl lvl' r x, plain (keyOut k) ++ (':' :: ' ' ::
      (plain (emit w lvl v) ++ (plain (emitPairs w lvl l) ++ (newline w lvl' ++ '}' :: r)))) =
        '"' :: x →
    (plain (emit w lvl v) ++ (plain (emitPairs w lvl l) ++ (newline w lvl' ++ ['}']))).length ≤ f →
      pairs f x = some (normPairs ((k, v) :: l), r)

theorem pairs_first (w : Nat) (k : Key) (v : V) (hv : ReadBack w v) (f lvl : Nat)
    (x rest : List Char) (hx : plain (keyOut k) ++ (':' :: ' ' :: (plain (emit w lvl v) ++ rest)) =
      '"' :: x) (hf : (plain (emit w lvl v)).length ≤ f) (hr : Stops rest) :
    ∃ t1, scan .text x = some ((match keyStr k with | some s => s | none => "").toList, t1) ∧
      ∃ t2, skip t1 = ':' :: t2 ∧ value f (skip t2) = some (norm v, rest) := by
  obtain ⟨t, h1, h2⟩ := key_scan k (':' :: ' ' :: (plain (emit w lvl v) ++ rest))
  rw [h1] at hx
  injection hx with _ hx
  subst hx
  refine ⟨_, h2, _, rfl, ?_⟩
  obtain ⟨c, t', h3, h4, -⟩ := emit_head w lvl v rest
  have : skip (' ' :: (plain (emit w lvl v) ++ rest)) = plain (emit w lvl v) ++ rest := by
    rw [skip, if_pos (by decide), h3, skip_cons h4]
  rw [this, hv f lvl rest hf hr]

theorem readPairs_nil (w : Nat) : ReadPairs w [] := by
  intro k v hv f lvl lvl' r x hx hf
  simp only [List.length_append, List.length_cons, List.length_nil] at hf
  cases f with
  | zero => omega
  | succ f =>
    rw [emitPairs, plain_nil, List.nil_append] at hx
    obtain ⟨t1, h1, t2, h2, h3⟩ := pairs_first w k v hv f lvl x _ hx (by omega)
      (stops_newline w lvl' _)
    rw [pairs, h1]
    simp only [h2, if_true, h3, skip_newline, skip_cons (show isSpace '}' = false by decide)]
    rw [String.ofList_toList]
    rfl

theorem readPairs_cons (w : Nat) (k : Key) (v : V) (t : List (Key × V)) (hv : ReadBack w v)
    (ht : ReadPairs w t) : ReadPairs w ((k, v) :: t) := by
  intro k0 v0 hv0 f lvl lvl' r x hx hf
  have hplain : ∀ x, plain (emitPairs w lvl ((k, v) :: t)) ++ x =
      ',' :: (newline w lvl ++ (plain (keyOut k) ++ (':' :: ' ' :: (plain (emit w lvl v) ++
        (plain (emitPairs w lvl t) ++ x))))) := by
    intro x
    rw [emitPairs, plain_append, plain_append, plain_append, plain_append, plain_put, plain_put]
    simp
  rw [hplain] at hf hx
  simp only [List.length_append, List.length_cons, List.length_nil] at hf
  cases f with
  | zero => omega
  | succ f =>
    obtain ⟨t1, h1, t2, h2, h3⟩ := pairs_first w k0 v0 hv0 f lvl x _ hx (by omega)
      (Stops.cons (by decide))
    obtain ⟨y, h4, -⟩ := key_scan k (':' :: ' ' :: (plain (emit w lvl v) ++
        (plain (emitPairs w lvl t) ++ (newline w lvl' ++ '}' :: r))))
    have hp := ht k v hv f lvl lvl' r y h4 (by
      simp only [List.length_append, List.length_cons, List.length_nil]; omega)
    rw [pairs, h1]
    simp only [h2, if_true, h3, skip_cons (show isSpace ',' = false by decide)]
    rw [if_neg (by decide), skip_newline, h4, skip_cons (by decide)]
    simp only [if_true, hp]
    rw [String.ofList_toList]
    rfl

theorem readBack_dict (w : Nat) (k : Key) (v : V) (t : List (Key × V)) (hv : ReadBack w v)
    (ht : ReadPairs w t) (f lvl : Nat) (r : List Char)
    (hf : (plain (put ('{' :: newline w (lvl + 1)) ++ keyOut k ++ put [':', ' '] ++
      emit w (lvl + 1) v ++ emitPairs w (lvl + 1) t ++ put (newline w lvl ++ ['}']))).length ≤ f) :
    value f (plain (put ('{' :: newline w (lvl + 1)) ++ keyOut k ++ put [':', ' '] ++
      emit w (lvl + 1) v ++ emitPairs w (lvl + 1) t ++ put (newline w lvl ++ ['}'])) ++ r) =
        some (obj (normPairs ((k, v) :: t)), r) := by
  have e : plain (put ('{' :: newline w (lvl + 1)) ++ keyOut k ++ put [':', ' '] ++
      emit w (lvl + 1) v ++ emitPairs w (lvl + 1) t ++ put (newline w lvl ++ ['}'])) ++ r =
      '{' :: (newline w (lvl + 1) ++ (plain (keyOut k) ++ (':' :: ' ' ::
        (plain (emit w (lvl + 1) v) ++ (plain (emitPairs w (lvl + 1) t) ++
          (newline w lvl ++ '}' :: r)))))) := by
    simp [plain_append, plain_put]
  simp only [plain_append, plain_put, List.length_append, List.length_cons,
    List.length_nil] at hf
  rw [e]
  cases f with
  | zero => omega
  | succ f =>
    obtain ⟨y, h4, -⟩ := key_scan k (':' :: ' ' :: (plain (emit w (lvl + 1) v) ++
        (plain (emitPairs w (lvl + 1) t) ++ (newline w lvl ++ '}' :: r))))
    have hp := ht k v hv f (lvl + 1) lvl r y h4 (by
      simp only [List.length_append, List.length_cons, List.length_nil]; omega)
    rw [value, if_neg (by decide), if_pos rfl, skip_newline, h4, skip_cons (by decide)]
    simp only [if_true, hp]
    rw [if_neg (by decide)]
    rfl

mutual
theorem readBack (w : Nat) : (v : V) → ReadBack w v
  | .null => by
    intro f lvl r hf _
    rw [emit, plain_put] at hf ⊢
    exact value_scalar rfl rfl (by decide) (Nat.lt_of_lt_of_le (by decide) hf)
  | .bool b => by
    intro f lvl r hf _
    rw [emit, plain_put] at hf ⊢
    cases b <;> exact value_scalar rfl rfl (by decide) (Nat.lt_of_lt_of_le (by decide) hf)
  | .int i => by
    intro f lvl r hf hr
    rw [emit, plain_put] at hf ⊢
    have hs := scalar_int i hr
    rw [intText] at hf hs ⊢
    obtain ⟨c, t, h1, h2⟩ := number_first (decide (i < 0)) i.natAbs []
    rw [List.append_nil] at h1
    rw [h1] at hf hs ⊢
    exact value_scalar hs rfl h2 (Nat.lt_of_lt_of_le (by simp) hf)
  | .float x => by
    intro f lvl r hf hr
    rw [emit, plain_put] at hf ⊢
    have hs := scalar_flt x hr
    have hc : ∃ c t, fltText x = c :: t ∧ (c ≠ '"' ∧ c ≠ '{' ∧ c ≠ '[') := by
      cases x with
      | dec neg n d e =>
        cases e with
        | none => rw [fltText, List.append_assoc]; exact number_first _ _ _
        | some e => rw [fltText, List.append_assoc, List.append_assoc]; exact number_first _ _ _
      | sci neg n eneg d => rw [fltText, List.append_assoc]; exact number_first _ _ _
      | nan => exact ⟨_, _, rfl, by decide⟩
      | inf neg => cases neg <;> exact ⟨_, _, rfl, by decide⟩
    obtain ⟨c, t, h1, h2⟩ := hc
    rw [h1] at hf hs ⊢
    exact value_scalar hs rfl h2 (Nat.lt_of_lt_of_le (by simp) hf)
  | .str s => by
    intro f lvl r hf _
    rw [emit, plain_put] at hf ⊢
    rw [readBack_str f s.toList r (Nat.lt_of_lt_of_le (by simp [strText]) hf), norm,
      String.ofList_toList]
  | .list [] => by
    intro f lvl r hf _
    rw [emit, plain_put] at hf ⊢
    cases f with
    | zero => simp at hf
    | succ f => rfl
  | .list (v :: t) => by
    intro f lvl r hf _
    rw [emit] at hf ⊢
    exact readBack_list w v t (readBack w v) (readBack_elems w t) f lvl r hf
  | .tuple [] => by
    intro f lvl r hf _
    rw [emit, plain_put] at hf ⊢
    cases f with
    | zero => simp at hf
    | succ f => rfl
  | .tuple (v :: t) => by
    intro f lvl r hf _
    rw [emit] at hf ⊢
    exact readBack_list w v t (readBack w v) (readBack_elems w t) f lvl r hf
  | .dict [] => by
    intro f lvl r hf _
    rw [emit, plain_put] at hf ⊢
    cases f with
    | zero => simp at hf
    | succ f => rfl
  | .dict ((k, v) :: t) => by
    intro f lvl r hf _
    rw [emit] at hf ⊢
    exact readBack_dict w k v t (readBack w v) (readBack_pairs w t) f lvl r hf
  | .other => by
    intro f lvl r hf _
    rw [emit] at hf ⊢
    cases f with
    | zero => simp [plain_none] at hf
    | succ f => rfl

theorem readBack_elems (w : Nat) : (l : List V) → ReadElems w l
  | [] => readElems_nil w
  | v :: t => readElems_cons w v t (readBack w v) (readBack_elems w t)

theorem readBack_pairs (w : Nat) : (l : List (Key × V)) → ReadPairs w l
  | [] => readPairs_nil w
  | (k, v) :: t => readPairs_cons w k v t (readBack w v) (readBack_pairs w t)
end

/-! ### A text that goes on -/

theorem digits_ext {p : List Char} {ds : List (Fin 10)} {r : List Char} (h : digits p = (ds, r))
    (hr : r ≠ []) (q : List Char) : digits (p ++ q) = (ds, r ++ q) := by
  induction p generalizing ds with
  | nil =>
    simp only [digits, Prod.mk.injEq] at h
    exact absurd h.2.symm hr
  | cons c t ih =>
    rw [digits] at h
    cases hd : digitOf c with
    | none =>
      rw [hd] at h
      simp only [Prod.mk.injEq] at h
      obtain ⟨rfl, rfl⟩ := h
      rw [List.cons_append, digits, hd]
    | some d =>
      rw [hd] at h
      simp only [Prod.mk.injEq] at h
      obtain ⟨rfl, h2⟩ := h
      have := ih (ds := (digits t).1) (by rw [← h2])
      rw [List.cons_append, digits, hd, this]

theorem digits_first {p : List Char} {d : Fin 10} {ds : List (Fin 10)} {r : List Char}
    (h : digits p = (d :: ds, r)) (q : List Char) :
    (∃ c t, p = c :: t) ∧ ∃ ds' r', digits (p ++ q) = (d :: ds', r') := by
  cases p with
  | nil => simp [digits] at h
  | cons c t =>
    refine ⟨⟨c, t, rfl⟩, ?_⟩
    rw [digits] at h
    cases hd : digitOf c with
    | none => rw [hd] at h; simp at h
    | some e =>
      rw [hd] at h
      simp only [Prod.mk.injEq, List.cons.injEq] at h
      exact ⟨_, _, by rw [List.cons_append, digits, hd, ← h.1.1]⟩

theorem intOf_ext {p : List Char} {n : Nat} {r : List Char} (h : intOf p = some (n, r))
    (hr : r ≠ []) (q : List Char) : intOf (p ++ q) = some (n, r ++ q) := by
  rw [intOf] at h
  rcases hd : digits p with ⟨ds, r'⟩
  rw [hd] at h
  cases ds with
  | nil => simp at h
  | cons d ds =>
    simp only at h
    obtain ⟨⟨c, t, rfl⟩, ds', r'', h2⟩ := digits_first hd q
    split at h
    · rename_i hz
      simp only [Option.some.injEq, Prod.mk.injEq] at h
      obtain ⟨rfl, rfl⟩ := h
      rw [intOf, h2]
      simp [hz]
    · rename_i hz
      simp only [Option.some.injEq, Prod.mk.injEq] at h
      obtain ⟨rfl, rfl⟩ := h
      rw [intOf, digits_ext hd hr]
      simp [hz]

theorem expOf_ext {p : List Char} {e : Option (Bool × Digits)} {r : List Char}
    (h : expOf p = (e, r)) (hr : r ≠ []) (hs : Stops r) (q : List Char) :
    expOf (p ++ q) = (e, r ++ q) := by
  cases p with
  | nil =>
    simp only [expOf, Prod.mk.injEq] at h
    exact absurd h.2.symm hr
  | cons c t =>
    rw [expOf] at h
    split at h
    · rename_i hc
      have hbad : r ≠ c :: t := by
        rintro rfl
        have := hs c rfl
        rcases hc with rfl | rfl
        · exact this.2.2.1 rfl
        · exact this.2.2.2 rfl
      cases hx : expDigits t with
      | none =>
        rw [hx] at h
        simp only [Prod.mk.injEq] at h
        exact absurd h.2.symm hbad
      | some x =>
        obtain ⟨e', r'⟩ := x
        rw [hx] at h
        simp only [Prod.mk.injEq] at h
        obtain ⟨rfl, rfl⟩ := h
        have : expDigits (t ++ q) = some (e', r' ++ q) := by
          cases t with
          | nil => simp [expDigits] at hx
          | cons b u =>
            rw [expDigits] at hx
            rw [List.cons_append, expDigits]
            have hsplit : (if b = '-' ∨ b = '+' then u ++ q else b :: (u ++ q)) =
                (if b = '-' ∨ b = '+' then u else b :: u) ++ q := by
              split <;> rfl
            rw [hsplit]
            rcases hd : digits (if b = '-' ∨ b = '+' then u else b :: u) with ⟨ds, r''⟩
            rw [hd] at hx
            cases ds with
            | nil => simp at hx
            | cons d ds =>
              simp only [Option.some.injEq, Prod.mk.injEq] at hx
              obtain ⟨rfl, rfl⟩ := hx
              rw [digits_ext hd hr]
        rw [List.cons_append, expOf, if_pos hc, this]
    · rename_i hc
      simp only [Prod.mk.injEq] at h
      obtain ⟨rfl, rfl⟩ := h
      rw [List.cons_append, expOf, if_neg hc]

theorem expOf_nil {p : List Char} (hp : p = []) : (expOf p).2 = [] := by subst hp; rfl

theorem expOf_dot {t : List Char} : expOf ('.' :: t) = (none, '.' :: t) := by
  rw [expOf, if_neg (by decide)]

theorem number_ext {p : List Char} {v : V} {r : List Char} (h : number p = some (v, r))
    (hr : r ≠ []) (hs : Stops r) (q : List Char) : number (p ++ q) = some (v, r ++ q) := by
  rw [number] at h
  rcases h1 : signOf p with ⟨neg, t1⟩
  rw [h1] at h
  simp only at h
  cases h2 : intOf t1 with
  | none => rw [h2] at h; simp at h
  | some x =>
    obtain ⟨n, t2⟩ := x
    rw [h2] at h
    simp only at h
    rcases h3 : fracOf t2 with ⟨frac, t3⟩
    rw [h3] at h
    simp only at h
    rcases h4 : expOf t3 with ⟨e, t4⟩
    rw [h4] at h
    simp only at h
    have ht4 : t4 = r := by
      cases frac <;> cases e <;>
        simp only [Option.some.injEq, Prod.mk.injEq] at h <;> exact h.2
    subst ht4
    have h3ne : t3 ≠ [] := by
      rintro rfl
      simp only [expOf, Prod.mk.injEq] at h4
      exact hr h4.2.symm
    have h2ne : t2 ≠ [] := by
      rintro rfl
      simp only [fracOf, Prod.mk.injEq] at h3
      exact h3ne h3.2.symm
    have g1 : signOf (p ++ q) = (neg, t1 ++ q) := by
      cases p with
      | nil =>
        simp only [signOf, Prod.mk.injEq] at h1
        rw [← h1.2] at h2
        simp [intOf, digits] at h2
      | cons c t =>
        rw [signOf] at h1
        rw [List.cons_append, signOf]
        split at h1
        · rename_i hc
          simp only [Prod.mk.injEq] at h1
          rw [if_pos hc, h1.1, h1.2]
        · rename_i hc
          simp only [Prod.mk.injEq] at h1
          rw [if_neg hc, h1.1, ← h1.2]; rfl
    have g2 := intOf_ext h2 h2ne q
    have g3 : fracOf (t2 ++ q) = (frac, t3 ++ q) := by
      cases t2 with
      | nil => exact absurd rfl h2ne
      | cons c t =>
        rw [fracOf] at h3
        rw [List.cons_append, fracOf]
        split at h3
        · rename_i hc
          rw [if_pos hc]
          rcases hd : digits t with ⟨ds, r'⟩
          rw [hd] at h3
          cases ds with
          | nil =>
            simp only [Prod.mk.injEq] at h3
            obtain ⟨-, rfl⟩ := h3
            subst hc
            rw [expOf_dot] at h4
            simp only [Prod.mk.injEq] at h4
            have := hs '.' (by rw [← h4.2]; rfl)
            exact absurd rfl this.2.1
          | cons d ds =>
            simp only [Prod.mk.injEq] at h3
            obtain ⟨rfl, rfl⟩ := h3
            rw [digits_ext hd h3ne]
        · rename_i hc
          simp only [Prod.mk.injEq] at h3
          obtain ⟨rfl, rfl⟩ := h3
          rw [if_neg hc]; rfl
    have g4 := expOf_ext h4 hr hs q
    rw [number, g1]
    simp only [g2, g3, g4]
    cases frac <;> cases e <;>
      simp only [Option.some.injEq, Prod.mk.injEq] at h ⊢ <;> exact ⟨h.1, trivial⟩

theorem word_ext {w p r : List Char} (h : word w p = some r) (q : List Char) :
    word w (p ++ q) = some (r ++ q) := by
  induction w generalizing p with
  | nil =>
    simp only [word, Option.some.injEq] at h
    subst h
    cases p <;> rfl
  | cons c w ih =>
    cases p with
    | nil => simp [word] at h
    | cons d t =>
      rw [word] at h
      rw [List.cons_append, word]
      split at h
      · rename_i hc; rw [if_pos hc]; exact ih h
      · simp at h

theorem word_first {c : Char} {w p r : List Char} (h : word (c :: w) p = some r) :
    ∃ t, p = c :: t := by
  cases p with
  | nil => simp [word] at h
  | cons d t =>
    rw [word] at h
    split at h
    · rename_i hc; exact ⟨t, by rw [hc]⟩
    · simp at h

theorem word_other {c d : Char} (h : c ≠ d) (w t : List Char) : word (c :: w) (d :: t) = none := by
  rw [word, if_neg h]

theorem number_first_char {c : Char} {t : List Char} {x : V × List Char}
    (h : number (c :: t) = some x) : c = '-' ∨ ∃ d, digitOf c = some d := by
  by_cases hc : c = '-'
  · exact .inl hc
  · right
    rw [number, signOf, if_neg hc] at h
    cases hd : digitOf c with
    | none =>
      simp only [intOf, digits, hd] at h
      simp at h
    | some d => exact ⟨d, rfl⟩

theorem digitOf_char {c : Char} {d : Fin 10} (h : digitOf c = some d) : c = digitChar d := by
  rw [digitOf] at h
  split at h
  · rename_i hc
    simp only [Option.some.injEq] at h
    subst h
    apply Char.ext
    have := digitChar_toNat ⟨c.toNat - 48, hc.2⟩
    have h2 : (digitChar ⟨c.toNat - 48, hc.2⟩).toNat = c.toNat := by rw [this]; simp; omega
    exact UInt32.toNat_inj.1 h2.symm
  · simp at h

theorem number_none {c : Char} {t : List Char} (h1 : c ≠ '-') (h2 : digitOf c = none) :
    number (c :: t) = none := by
  cases h : number (c :: t) with
  | none => rfl
  | some x =>
    rcases number_first_char h with hc | ⟨d, hd⟩
    · exact absurd hc h1
    · rw [h2] at hd; simp at hd

theorem scalar_ext {p : List Char} {v : V} {r : List Char} (h : scalar p = some (v, r))
    (hr : r ≠ []) (hs : Stops r) (q : List Char) : scalar (p ++ q) = some (v, r ++ q) := by
  cases p with
  | nil =>
    have h1 : scalar [] = none := by decide +kernel
    rw [h1] at h; simp at h
  | cons c t =>
    rw [scalar] at h
    cases h1 : word "null".toList (c :: t) with
    | some r' =>
      rw [h1] at h
      simp only [Option.some.injEq, Prod.mk.injEq] at h
      obtain ⟨rfl, rfl⟩ := h
      rw [scalar, word_ext h1]
    | none =>
    rw [h1] at h
    simp only at h
    cases h2 : word "true".toList (c :: t) with
    | some r' =>
      rw [h2] at h
      simp only [Option.some.injEq, Prod.mk.injEq] at h
      obtain ⟨rfl, rfl⟩ := h
      obtain ⟨u, hu⟩ := word_first (c := 't') h2
      injection hu with hu _
      subst hu
      have e1 : word "null".toList ('t' :: t ++ q) = none := word_other (by decide) _ _
      rw [scalar, e1]
      simp only [word_ext h2]
    | none =>
    rw [h2] at h
    simp only at h
    cases h3 : word "false".toList (c :: t) with
    | some r' =>
      rw [h3] at h
      simp only [Option.some.injEq, Prod.mk.injEq] at h
      obtain ⟨rfl, rfl⟩ := h
      obtain ⟨u, hu⟩ := word_first (c := 'f') h3
      injection hu with hu _
      subst hu
      have e1 : word "null".toList ('f' :: t ++ q) = none := word_other (by decide) _ _
      have e2 : word "true".toList ('f' :: t ++ q) = none := word_other (by decide) _ _
      rw [scalar, e1]
      simp only [e2, word_ext h3]
    | none =>
    rw [h3] at h
    simp only at h
    cases h4 : number (c :: t) with
    | some x =>
      rw [h4] at h
      simp only [Option.some.injEq] at h
      subst h
      have hx := number_ext h4 hr hs q
      refine scalar_number hx (c := c) (t' := t ++ q) rfl ?_
      rcases number_first_char h4 with hc | ⟨d, hd⟩
      · exact .inl hc
      · exact .inr ⟨d, digitOf_char hd⟩
    | none =>
    rw [h4] at h
    simp only at h
    cases h5 : word "NaN".toList (c :: t) with
    | some r' =>
      rw [h5] at h
      simp only [Option.some.injEq, Prod.mk.injEq] at h
      obtain ⟨rfl, rfl⟩ := h
      obtain ⟨u, hu⟩ := word_first (c := 'N') h5
      injection hu with hu _
      subst hu
      have e1 : word "null".toList ('N' :: t ++ q) = none := word_other (by decide) _ _
      have e2 : word "true".toList ('N' :: t ++ q) = none := word_other (by decide) _ _
      have e3 : word "false".toList ('N' :: t ++ q) = none := word_other (by decide) _ _
      have e4 : number ('N' :: t ++ q) = none := number_none (by decide) (by decide)
      rw [scalar, e1]
      simp only [e2, e3, e4, word_ext h5]
    | none =>
    rw [h5] at h
    simp only at h
    cases h6 : word "Infinity".toList (c :: t) with
    | some r' =>
      rw [h6] at h
      simp only [Option.some.injEq, Prod.mk.injEq] at h
      obtain ⟨rfl, rfl⟩ := h
      obtain ⟨u, hu⟩ := word_first (c := 'I') h6
      injection hu with hu _
      subst hu
      have e1 : word "null".toList ('I' :: t ++ q) = none := word_other (by decide) _ _
      have e2 : word "true".toList ('I' :: t ++ q) = none := word_other (by decide) _ _
      have e3 : word "false".toList ('I' :: t ++ q) = none := word_other (by decide) _ _
      have e4 : number ('I' :: t ++ q) = none := number_none (by decide) (by decide)
      have e5 : word "NaN".toList ('I' :: t ++ q) = none := word_other (by decide) _ _
      rw [scalar, e1]
      simp only [e2, e3, e4, e5, word_ext h6]
    | none =>
    rw [h6] at h
    simp only at h
    cases h7 : word "-Infinity".toList (c :: t) with
    | none => rw [h7] at h; simp at h
    | some r' =>
      rw [h7] at h
      simp only [Option.some.injEq, Prod.mk.injEq] at h
      obtain ⟨rfl, rfl⟩ := h
      obtain ⟨u, hu⟩ := word_first (c := '-') h7
      injection hu with hu _
      subst hu
      have h8 : word "Infinity".toList t = some r' := h7
      obtain ⟨u, rfl⟩ := word_first (c := 'I') h8
      have e1 : word "null".toList ('-' :: 'I' :: u ++ q) = none := word_other (by decide) _ _
      have e2 : word "true".toList ('-' :: 'I' :: u ++ q) = none := word_other (by decide) _ _
      have e3 : word "false".toList ('-' :: 'I' :: u ++ q) = none := word_other (by decide) _ _
      have e4 : number ('-' :: 'I' :: u ++ q) = none := by rfl
      have e5 : word "NaN".toList ('-' :: 'I' :: u ++ q) = none := word_other (by decide) _ _
      have e6 : word "Infinity".toList ('-' :: 'I' :: u ++ q) = none :=
        word_other (by decide) _ _
      rw [scalar, e1]
      simp only [e2, e3, e4, e5, e6, word_ext h7]

theorem scan_ext {st : St} {p s r : List Char} (h : scan st p = some (s, r)) (q : List Char) :
    scan st (p ++ q) = some (s, r ++ q) := by
  induction p generalizing st s with
  | nil => simp [scan] at h
  | cons c t ih =>
    rw [scan] at h
    rw [List.cons_append, scan]
    cases hc : step st c with
    | stop =>
      rw [hc] at h
      simp only [Option.some.injEq, Prod.mk.injEq] at h ⊢
      exact ⟨h.1, by rw [h.2]⟩
    | fail => rw [hc] at h; simp at h
    | next st' d =>
      rw [hc] at h
      cases d with
      | none => exact ih h
      | some d =>
        simp only at h ⊢
        cases hx : scan st' t with
        | none => rw [hx] at h; simp at h
        | some x =>
          obtain ⟨s', r'⟩ := x
          rw [hx] at h
          simp only [Option.map_some, Option.some.injEq, Prod.mk.injEq] at h
          obtain ⟨rfl, rfl⟩ := h
          rw [ih hx]; rfl

theorem skip_ext {p : List Char} {c : Char} {t : List Char} (h : skip p = c :: t)
    (q : List Char) : skip (p ++ q) = c :: (t ++ q) := by
  induction p with
  | nil => simp [skip] at h
  | cons d u ih =>
    rw [skip] at h
    rw [List.cons_append, skip]
    split at h
    · rename_i hd; rw [if_pos hd]; exact ih h
    · rename_i hd
      rw [if_neg hd]
      injection h with h1 h2
      rw [h1, h2]

theorem skip_stops {p : List Char} {c : Char} {t : List Char} (h : skip p = c :: t)
    (hc : digitOf c = none ∧ c ≠ '.' ∧ c ≠ 'e' ∧ c ≠ 'E') : p ≠ [] ∧ Stops p := by
  cases p with
  | nil => simp [skip] at h
  | cons d u =>
    refine ⟨by simp, Stops.cons ?_⟩
    rw [skip] at h
    split at h
    · rename_i hd
      simp only [isSpace, Bool.or_eq_true, beq_iff_eq] at hd
      rcases hd with ((rfl | rfl) | rfl) | rfl <;> decide
    · injection h with h1 _
      exact h1 ▸ hc

/-- A value that was read to a character that is not part of a number is read in the same way in
a longer text. -/
def Extends (f : Nat) : Prop :=
  (∀ p v r, value f p = some (v, r) →
      (r ≠ [] ∧ Stops r ∨ ∃ c t, p = c :: t ∧ (c = '"' ∨ c = '{' ∨ c = '[')) →
      ∀ g q, f ≤ g → value g (p ++ q) = some (v, r ++ q)) ∧
  (∀ p l r, elems f p = some (l, r) → ∀ g q, f ≤ g → elems g (p ++ q) = some (l, r ++ q)) ∧
  (∀ p l r, pairs f p = some (l, r) → ∀ g q, f ≤ g → pairs g (p ++ q) = some (l, r ++ q))

theorem map_some {α β : Type} {o : Option (α × List Char)} {F : α × List Char → β × List Char}
    {x : β × List Char} (h : o.map F = some x) : ∃ y, o = some y ∧ F y = x := by
  cases o with
  | none => simp at h
  | some y => exact ⟨y, rfl, by simpa using h⟩

theorem extend (f : Nat) : Extends f := by
  induction f with
  | zero =>
    refine ⟨?_, ?_, ?_⟩
    · intro p v r h; simp [value] at h
    · intro p v r h; simp [elems] at h
    · intro p v r h; simp [pairs] at h
  | succ f ih =>
    obtain ⟨ihv, ihe, ihp⟩ := ih
    refine ⟨?_, ?_, ?_⟩
    · intro p v r h hr g q hg
      cases g with
      | zero => omega
      | succ g =>
        have hg' : f ≤ g := by omega
        cases p with
        | nil => simp [value] at h
        | cons c t =>
          rw [value] at h
          rw [List.cons_append, value]
          split at h
          · rename_i hc
            rw [if_pos hc]
            obtain ⟨⟨s, r'⟩, h1, h2⟩ := map_some h
            simp only [Prod.mk.injEq] at h2
            obtain ⟨rfl, rfl⟩ := h2
            rw [scan_ext h1]; rfl
          rename_i hc1
          rw [if_neg hc1]
          split at h
          · rename_i hc
            rw [if_pos hc]
            cases hsk : skip t with
            | nil => rw [hsk] at h; simp at h
            | cons d t' =>
              rw [hsk] at h
              rw [skip_ext hsk]
              simp only at h ⊢
              split at h
              · rename_i hd
                rw [if_pos hd]
                simp only [Option.some.injEq, Prod.mk.injEq] at h
                obtain ⟨rfl, rfl⟩ := h
                rfl
              rename_i hd
              rw [if_neg hd]
              split at h
              · rename_i hd2
                rw [if_pos hd2]
                obtain ⟨⟨s, r'⟩, h1, h2⟩ := map_some h
                simp only [Prod.mk.injEq] at h2
                obtain ⟨rfl, rfl⟩ := h2
                rw [ihp _ _ _ h1 g q hg']; rfl
              · simp at h
          rename_i hc2
          rw [if_neg hc2]
          split at h
          · rename_i hc
            rw [if_pos hc]
            cases hsk : skip t with
            | nil => rw [hsk] at h; simp at h
            | cons d t' =>
              rw [hsk] at h
              rw [skip_ext hsk]
              simp only at h ⊢
              split at h
              · rename_i hd
                rw [if_pos hd]
                simp only [Option.some.injEq, Prod.mk.injEq] at h
                obtain ⟨rfl, rfl⟩ := h
                rfl
              rename_i hd
              rw [if_neg hd]
              obtain ⟨⟨s, r'⟩, h1, h2⟩ := map_some h
              simp only [Prod.mk.injEq] at h2
              obtain ⟨rfl, rfl⟩ := h2
              have := ihe _ _ _ h1 g q hg'
              rw [List.cons_append] at this
              rw [this]; rfl
          rename_i hc3
          rw [if_neg hc3]
          rcases hr with ⟨h1, h2⟩ | ⟨c', t', h1, h2⟩
          · exact scalar_ext h h1 h2 q
          · injection h1 with h1 _
            subst h1
            rcases h2 with h2 | h2 | h2
            · exact absurd h2 hc1
            · exact absurd h2 hc2
            · exact absurd h2 hc3
    · intro p l r h g q hg
      cases g with
      | zero => omega
      | succ g =>
        have hg' : f ≤ g := by omega
        rw [elems] at h
        rw [elems]
        cases hv : value f p with
        | none => rw [hv] at h; simp at h
        | some x =>
          obtain ⟨v, t1⟩ := x
          rw [hv] at h
          simp only at h
          cases hsk : skip t1 with
          | nil => rw [hsk] at h; simp at h
          | cons c t2 =>
            rw [hsk] at h
            simp only at h
            split at h
            · rename_i hc
              subst hc
              have hv' := ihv _ _ _ hv (.inl (skip_stops hsk (by decide))) g q hg'
              rw [hv']
              simp only [skip_ext hsk, if_true]
              simp only [Option.some.injEq, Prod.mk.injEq] at h
              obtain ⟨rfl, rfl⟩ := h
              rfl
            rename_i hc1
            split at h
            · rename_i hc
              subst hc
              have hv' := ihv _ _ _ hv (.inl (skip_stops hsk (by decide))) g q hg'
              rw [hv']
              simp only [skip_ext hsk, if_true]
              rw [if_neg (by decide)]
              obtain ⟨⟨s, r'⟩, h1, h2⟩ := map_some h
              simp only [Prod.mk.injEq] at h2
              obtain ⟨rfl, rfl⟩ := h2
              have h3 := ihe _ _ _ h1 g q hg'
              have h4 : skip (t2 ++ q) = skip t2 ++ q := by
                cases hs2 : skip t2 with
                | nil =>
                  rw [hs2] at h1
                  cases f with
                  | zero => simp [elems] at h1
                  | succ f =>
                    cases f with
                    | zero => simp [elems, value] at h1
                    | succ f => simp [elems, value] at h1
                | cons d t3 => exact skip_ext hs2 q
              rw [h4, h3]; rfl
            · simp at h
    · intro p l r h g q hg
      cases g with
      | zero => omega
      | succ g =>
        have hg' : f ≤ g := by omega
        rw [pairs] at h
        rw [pairs]
        cases hk : scan .text p with
        | none => rw [hk] at h; simp at h
        | some x =>
          obtain ⟨k, t1⟩ := x
          rw [hk] at h
          rw [scan_ext hk]
          simp only at h ⊢
          cases hsk : skip t1 with
          | nil => rw [hsk] at h; simp at h
          | cons c t2 =>
            rw [hsk] at h
            rw [skip_ext hsk]
            simp only at h ⊢
            split at h
            case isFalse => simp at h
            rename_i hc
            rw [if_pos hc]
            cases hv : value f (skip t2) with
            | none => rw [hv] at h; simp at h
            | some x =>
              obtain ⟨v, t3⟩ := x
              rw [hv] at h
              simp only at h
              have h4 : skip (t2 ++ q) = skip t2 ++ q := by
                cases hs2 : skip t2 with
                | nil =>
                  rw [hs2] at hv
                  cases f <;> simp [value] at hv
                | cons d t3 => exact skip_ext hs2 q
              rw [h4]
              cases hsk3 : skip t3 with
              | nil => rw [hsk3] at h; simp at h
              | cons d t4 =>
                rw [hsk3] at h
                simp only at h
                split at h
                · rename_i hd
                  subst hd
                  have hv' := ihv _ _ _ hv (.inl (skip_stops hsk3 (by decide))) g q hg'
                  rw [hv']
                  simp only [skip_ext hsk3, if_true]
                  simp only [Option.some.injEq, Prod.mk.injEq] at h
                  obtain ⟨rfl, rfl⟩ := h
                  rfl
                rename_i hd1
                split at h
                · rename_i hd
                  subst hd
                  have hv' := ihv _ _ _ hv (.inl (skip_stops hsk3 (by decide))) g q hg'
                  rw [hv']
                  simp only [skip_ext hsk3, if_true]
                  rw [if_neg (by decide)]
                  cases hsk4 : skip t4 with
                  | nil => rw [hsk4] at h; simp at h
                  | cons e t5 =>
                    rw [hsk4] at h
                    rw [skip_ext hsk4]
                    simp only at h ⊢
                    split at h
                    · rename_i he
                      rw [if_pos he]
                      obtain ⟨⟨s, r'⟩, h1, h2⟩ := map_some h
                      simp only [Prod.mk.injEq] at h2
                      obtain ⟨rfl, rfl⟩ := h2
                      rw [ihp _ _ _ h1 g q hg']; rfl
                    · simp at h
                · simp at h

/-! ### Whole texts -/

theorem load_plain (w : Nat) (v : V) : load (plain (emit w 0 v)) = .ok (norm v) := by
  obtain ⟨c, t, h1, h2, -⟩ := emit_head w 0 v []
  rw [List.append_nil] at h1
  have hsk : skip (plain (emit w 0 v)) = plain (emit w 0 v) := by rw [h1, skip_cons h2]
  have := readBack w v ((plain (emit w 0 v)).length + 1) 0 [] (by omega) Stops.nil
  rw [List.append_nil] at this
  rw [load, hsk, this]
  rfl

theorem emit_dict_first (w lvl : Nat) (d : List (Key × V)) :
    ∃ t, plain (emit w lvl (.dict d)) = '{' :: t := by
  cases d with
  | nil => exact ⟨['}'], by rw [emit, plain_put]⟩
  | cons kv t =>
    obtain ⟨k, v⟩ := kv
    rw [emit, List.append_assoc, List.append_assoc, List.append_assoc, List.append_assoc,
      plain_append, plain_put]
    exact ⟨_, rfl⟩

/-- The beginning of the text of a dictionary is not a text. -/
theorem load_prefix (w : Nat) (d : List (Key × V)) {p q : List Char}
    (h : plain (emit w 0 (.dict d)) = p ++ q) (hq : q ≠ []) : load p = .error .valueError := by
  obtain ⟨t, ht⟩ := emit_dict_first w 0 d
  cases p with
  | nil => rfl
  | cons c p' =>
    rw [ht] at h
    injection h with hc h'
    subst hc
    have hsk : skip ('{' :: p') = '{' :: p' := skip_cons (by decide) _
    rw [load, hsk]
    cases hv : value (('{' :: p').length + 1) ('{' :: p') with
    | none => rfl
    | some x =>
      obtain ⟨v, r⟩ := x
      have hlen : ('{' :: p').length + 1 ≤ (plain (emit w 0 (.dict d))).length + 1 := by
        rw [ht, h']; simp
      have he := (extend _).1 _ _ _ hv (.inr ⟨'{', p', rfl, .inr (.inl rfl)⟩) _ q hlen
      have hb := readBack w (.dict d) ((plain (emit w 0 (.dict d))).length + 1) 0 [] (by omega)
        Stops.nil
      rw [List.append_nil] at hb
      have heq : plain (emit w 0 (.dict d)) = '{' :: p' ++ q := by rw [ht, h']; rfl
      rw [← heq, hb] at he
      simp only [Option.some.injEq, Prod.mk.injEq] at he
      have := List.append_eq_nil_iff.1 he.2.symm
      exact absurd this.2 hq

/-- The text of a dictionary with something more after it is not a text. -/
theorem load_longer (w : Nat) (d : List (Key × V)) {q : List Char} (hq : skip q ≠ []) :
    load (plain (emit w 0 (.dict d)) ++ q) = .error .valueError := by
  obtain ⟨t, ht⟩ := emit_dict_first w 0 d
  have hb := readBack w (.dict d) ((plain (emit w 0 (.dict d))).length + 1) 0 [] (by omega)
    Stops.nil
  rw [List.append_nil] at hb
  have he := (extend _).1 _ _ _ hb (.inr ⟨'{', t, ht, .inr (.inl rfl)⟩)
    ((plain (emit w 0 (.dict d)) ++ q).length + 1) q (by simp)
  have hsk : skip (plain (emit w 0 (.dict d)) ++ q) = plain (emit w 0 (.dict d)) ++ q := by
    rw [ht, List.cons_append, skip_cons (by decide)]
  rw [load, hsk, he]
  simp [hq]

/-! ### Which values are refused -/

theorem mem_put {t : List Char} : none ∉ put t := by simp [put]

theorem keyOut_none {k : Key} : none ∈ keyOut k ↔ k = .other := by
  cases k <;> simp [keyOut, keyStr, put]

mutual
theorem emit_none (w : Nat) : (v : V) → ∀ lvl, none ∈ emit w lvl v ↔ ¬ Spec.Writable v
  | .null => fun lvl => by simp [emit, put, Spec.Writable]
  | .bool b => fun lvl => by simp [emit, put, Spec.Writable]
  | .int i => fun lvl => by simp [emit, put, Spec.Writable]
  | .float x => fun lvl => by simp [emit, put, Spec.Writable]
  | .str s => fun lvl => by simp [emit, put, Spec.Writable]
  | .list [] => fun lvl => by simp [emit, put, Spec.Writable, Spec.WritableElems]
  | .list (v :: t) => fun lvl => by
    have h1 := emit_none w v (lvl + 1)
    have h2 := emitElems_none w t (lvl + 1)
    rw [emit, Spec.Writable, Spec.WritableElems]
    simp only [List.mem_append, h1, h2, mem_put, false_or, or_false, Classical.not_and_iff_not_or_not]
  | .tuple [] => fun lvl => by simp [emit, put, Spec.Writable, Spec.WritableElems]
  | .tuple (v :: t) => fun lvl => by
    have h1 := emit_none w v (lvl + 1)
    have h2 := emitElems_none w t (lvl + 1)
    rw [emit, Spec.Writable, Spec.WritableElems]
    simp only [List.mem_append, h1, h2, mem_put, false_or, or_false, Classical.not_and_iff_not_or_not]
  | .dict [] => fun lvl => by simp [emit, put, Spec.Writable, Spec.WritablePairs]
  | .dict ((k, v) :: t) => fun lvl => by
    have h1 := emit_none w v (lvl + 1)
    have h2 := emitPairs_none w t (lvl + 1)
    rw [emit, Spec.Writable, Spec.WritablePairs]
    simp only [List.mem_append, h1, h2, mem_put, false_or, or_false, keyOut_none,
      Classical.not_and_iff_not_or_not, or_assoc, ne_eq, Classical.not_not]
  | .other => fun lvl => by simp [emit, Spec.Writable]

theorem emitElems_none (w : Nat) :
    (l : List V) → ∀ lvl, none ∈ emitElems w lvl l ↔ ¬ Spec.WritableElems l
  | [] => fun lvl => by simp [emitElems, Spec.WritableElems]
  | v :: t => fun lvl => by
    have h1 := emit_none w v lvl
    have h2 := emitElems_none w t lvl
    rw [emitElems, Spec.WritableElems]
    simp only [List.mem_append, h1, h2, mem_put, false_or, Classical.not_and_iff_not_or_not]

theorem emitPairs_none (w : Nat) :
    (l : List (Key × V)) → ∀ lvl, none ∈ emitPairs w lvl l ↔ ¬ Spec.WritablePairs l
  | [] => fun lvl => by simp [emitPairs, Spec.WritablePairs]
  | (k, v) :: t => fun lvl => by
    have h1 := emit_none w v lvl
    have h2 := emitPairs_none w t lvl
    rw [emitPairs, Spec.WritablePairs]
    simp only [List.mem_append, h1, h2, mem_put, false_or, or_false, keyOut_none,
      Classical.not_and_iff_not_or_not, or_assoc, ne_eq, Classical.not_not]
end

/-! ### What is read -/

theorem setItem_lookup (k : String) (v : V) (d : List (String × V)) (n : String) :
    (setItem k v d).lookup n = if n = k then some v else d.lookup n := by
  induction d with
  | nil =>
    by_cases h : n = k
    · subst h; simp [setItem]
    · have : (n == k) = false := beq_eq_false_iff_ne.2 h
      simp [setItem, List.lookup, this, h]
  | cons a t ih =>
    obtain ⟨ak, av⟩ := a
    by_cases hak : ak = k
    · subst hak
      simp only [setItem, if_true]
      by_cases h : n = ak
      · subst h; simp
      · have : (n == ak) = false := beq_eq_false_iff_ne.2 h
        simp [List.lookup, this, h]
    · simp only [setItem, if_neg hak]
      by_cases h : n = ak
      · subst h; simp [hak]
      · have : (n == ak) = false := beq_eq_false_iff_ne.2 h
        simp only [List.lookup, this, ih]

theorem setItem_keys (k : String) (v : V) (d : List (String × V)) :
    (setItem k v d).map (·.1) =
      if k ∈ d.map (·.1) then d.map (·.1) else d.map (·.1) ++ [k] := by
  induction d with
  | nil => rfl
  | cons a t ih =>
    obtain ⟨ak, av⟩ := a
    by_cases hak : ak = k
    · subst hak; simp [setItem]
    · have hka : ¬ k = ak := fun h => hak h.symm
      simp only [setItem, if_neg hak, List.map_cons, ih, List.mem_cons, hka, false_or]
      split <;> rfl

theorem eraseDups_snoc (l : List String) (k : String) :
    (l ++ [k]).eraseDups = if k ∈ l then l.eraseDups else l.eraseDups ++ [k] := by
  rw [List.eraseDups_append]
  by_cases h : k ∈ l
  · rw [if_pos h]; simp [List.removeAll, h]
  · rw [if_neg h]; simp [List.removeAll, h]; rfl

theorem dictOf_snoc (l : List (String × V)) (kv : String × V) :
    dictOf (l ++ [kv]) = setItem kv.1 kv.2 (dictOf l) := by
  simp [dictOf, List.foldl_append]

theorem dictOf_spec (l : List (String × V)) :
    (dictOf l).map (·.1) = (l.map (·.1)).eraseDups ∧
      ∀ n, (dictOf l).lookup n = l.reverse.lookup n := by
  have : ∀ m : List (String × V), (dictOf m.reverse).map (·.1) =
      (m.reverse.map (·.1)).eraseDups ∧ ∀ n, (dictOf m.reverse).lookup n = m.lookup n := by
    intro m
    induction m with
    | nil => exact ⟨rfl, fun _ => rfl⟩
    | cons kv t ih =>
      obtain ⟨h1, h2⟩ := ih
      rw [List.reverse_cons, dictOf_snoc]
      refine ⟨?_, ?_⟩
      · rw [setItem_keys, h1, List.map_append, List.map_singleton, eraseDups_snoc]
        simp only [List.mem_eraseDups]
      · intro n
        rw [setItem_lookup, h2, List.lookup]
        by_cases hn : n = kv.1
        · subst hn; simp
        · have : (n == kv.1) = false := beq_eq_false_iff_ne.2 hn
          simp [hn, this]
  have h := this l.reverse
  rw [List.reverse_reverse] at h
  exact h

/-- A list of pairs with distinct keys is given by its keys and its values. -/
theorem pairs_of_lookup (d : List (String × V)) (h : (d.map (·.1)).Nodup) :
    (d.map (·.1)).filterMap (fun k => (d.lookup k).map fun v => (k, v)) = d := by
  induction d with
  | nil => rfl
  | cons a t ih =>
    obtain ⟨k, v⟩ := a
    simp only [List.map_cons, List.nodup_cons] at h
    rw [List.map_cons, List.filterMap_cons]
    simp only [List.lookup, beq_self_eq_true, Option.map_some]
    congr 1
    refine Eq.trans ?_ (ih h.2)
    have : ∀ l : List String, (∀ x ∈ l, x ≠ k) →
        l.filterMap (fun x => (match x == k with
          | true => some v
          | false => List.lookup x t).map fun v => (x, v)) =
        l.filterMap (fun x => (t.lookup x).map fun v => (x, v)) := by
      intro l hl
      induction l with
      | nil => rfl
      | cons x u ihu =>
        have : (x == k) = false := beq_eq_false_iff_ne.2 (hl x (by simp))
        simp only [List.filterMap_cons, this, ihu fun y hy => hl y (by simp [hy])]
    exact this _ fun x hx hxk => h.1 (hxk ▸ hx)

theorem eraseDups_nodup (l : List String) : l.eraseDups.Nodup := by
  have : ∀ m : List String, m.reverse.eraseDups.Nodup := by
    intro m
    induction m with
    | nil => simp
    | cons k t ih =>
      rw [List.reverse_cons, eraseDups_snoc]
      split
      · exact ih
      · rename_i hk
        exact List.nodup_append.2 ⟨ih, by simp, by
          rintro a ha b hb rfl
          rw [List.mem_eraseDups] at ha
          exact hk (List.mem_singleton.1 hb ▸ ha)⟩
  have h := this l.reverse
  rwa [List.reverse_reverse] at h

theorem dictOf_collapse (l : List (String × V)) : dictOf l = Spec.collapse l := by
  obtain ⟨h1, h2⟩ := dictOf_spec l
  have := pairs_of_lookup (dictOf l) (by rw [h1]; exact eraseDups_nodup _)
  rw [← this, h1, Spec.collapse]
  simp only [h2]

theorem keyText_spec (k : Key) :
    (match keyStr k with | some s => s | none => "") = Spec.keyText k := by
  cases k with
  | bool b => cases b <;> rfl
  | _ => rfl

mutual
theorem norm_readAs : (v : V) → norm v = Spec.readAs v
  | .null => by rw [norm, Spec.readAs]
  | .bool b => by rw [norm, Spec.readAs]
  | .int i => by rw [norm, Spec.readAs]
  | .float x => by rw [norm, Spec.readAs]
  | .str s => by rw [norm, Spec.readAs]
  | .list l => by rw [norm, Spec.readAs, normElems_readAs l]
  | .tuple l => by rw [norm, Spec.readAs, normElems_readAs l]
  | .dict d => by rw [norm, Spec.readAs, normPairs_readAs d, obj, dictOf_collapse]
  | .other => by rw [norm, Spec.readAs]

theorem normElems_readAs : (l : List V) → normElems l = Spec.readElems l
  | [] => by rw [normElems, Spec.readElems]
  | v :: t => by rw [normElems, Spec.readElems, norm_readAs v, normElems_readAs t]

theorem normPairs_readAs : (l : List (Key × V)) → normPairs l = Spec.readPairs l
  | [] => by rw [normPairs, Spec.readPairs]
  | (k, v) :: t => by
    rw [normPairs, Spec.readPairs, norm_readAs v, normPairs_readAs t, keyText_spec]
end

theorem eraseDups_id {l : List String} (h : l.Nodup) : l.eraseDups = l := by
  have : ∀ m : List String, m.reverse.Nodup → m.reverse.eraseDups = m.reverse := by
    intro m
    induction m with
    | nil => intro _; rfl
    | cons k t ih =>
      intro hm
      rw [List.reverse_cons] at hm ⊢
      obtain ⟨h1, -, h3⟩ := List.nodup_append.1 hm
      rw [eraseDups_snoc, if_neg (fun hk => h3 k hk k (by simp) rfl), ih h1]
  have h' := this l.reverse
  rw [List.reverse_reverse] at h'
  exact h' h

theorem lookup_reverse {l : List (String × V)} (h : (l.map (·.1)).Nodup) (n : String) :
    l.reverse.lookup n = l.lookup n := by
  induction l with
  | nil => rfl
  | cons a t ih =>
    obtain ⟨k, v⟩ := a
    simp only [List.map_cons, List.nodup_cons] at h
    rw [List.reverse_cons, List.lookup_append, ih h.2]
    by_cases hn : n = k
    · subst hn
      have : t.lookup n = none := by
        rw [List.lookup_eq_none_iff]
        intro p hp
        simp only [bne_iff_ne, ne_eq]
        intro hpn
        exact h.1 (List.mem_map.2 ⟨p, hp, hpn.symm⟩)
      rw [this]; simp
    · have : (n == k) = false := beq_eq_false_iff_ne.2 hn
      simp [List.lookup, this]

/-- Distinct keys stay as they are. -/
theorem collapse_id {l : List (String × V)} (h : (l.map (·.1)).Nodup) : Spec.collapse l = l := by
  rw [Spec.collapse, eraseDups_id h]
  simp only [lookup_reverse h]
  exact pairs_of_lookup l h

mutual
theorem readAs_unaltered : (v : V) → Spec.Unaltered v → Spec.Writable v ∧ Spec.readAs v = v
  | .null => fun _ => ⟨by simp [Spec.Writable], by rw [Spec.readAs]⟩
  | .bool b => fun _ => ⟨by simp [Spec.Writable], by rw [Spec.readAs]⟩
  | .int i => fun _ => ⟨by simp [Spec.Writable], by rw [Spec.readAs]⟩
  | .float x => fun _ => ⟨by simp [Spec.Writable], by rw [Spec.readAs]⟩
  | .str s => fun _ => ⟨by simp [Spec.Writable], by rw [Spec.readAs]⟩
  | .list l => fun h => by
    rw [Spec.Unaltered] at h
    obtain ⟨h1, h2⟩ := readElems_unaltered l h
    exact ⟨by rw [Spec.Writable]; exact h1, by rw [Spec.readAs, h2]⟩
  | .tuple l => fun h => by rw [Spec.Unaltered] at h; exact h.elim
  | .dict d => fun h => by
    rw [Spec.Unaltered] at h
    obtain ⟨h1, h2, h3⟩ := readPairs_unaltered d h
    refine ⟨by rw [Spec.Writable]; exact h1, ?_⟩
    rw [Spec.readAs, collapse_id h3, h2]
  | .other => fun h => by rw [Spec.Unaltered] at h; exact h.elim

theorem readElems_unaltered :
    (l : List V) → Spec.UnalteredElems l → Spec.WritableElems l ∧ Spec.readElems l = l
  | [] => fun _ => ⟨by simp [Spec.WritableElems], by rw [Spec.readElems]⟩
  | v :: t => fun h => by
    rw [Spec.UnalteredElems] at h
    obtain ⟨h1, h2⟩ := readAs_unaltered v h.1
    obtain ⟨h3, h4⟩ := readElems_unaltered t h.2
    exact ⟨by rw [Spec.WritableElems]; exact ⟨h1, h3⟩, by rw [Spec.readElems, h2, h4]⟩

theorem readPairs_unaltered :
    (l : List (Key × V)) → Spec.UnalteredPairs l → Spec.WritablePairs l ∧
      (Spec.readPairs l).map (fun kv => (Key.str kv.1, kv.2)) = l ∧
      ((Spec.readPairs l).map (·.1)).Nodup
  | [] => fun _ => ⟨by simp [Spec.WritablePairs], by rw [Spec.readPairs]; rfl, by
      rw [Spec.readPairs]; simp⟩
  | (k, v) :: t => fun h => by
    rw [Spec.UnalteredPairs] at h
    obtain ⟨⟨s, rfl⟩, hk, hv, ht⟩ := h
    obtain ⟨h1, h2⟩ := readAs_unaltered v hv
    obtain ⟨h3, h4, h5⟩ := readPairs_unaltered t ht
    refine ⟨by rw [Spec.WritablePairs]; exact ⟨by simp, h1, h3⟩, ?_, ?_⟩
    · rw [Spec.readPairs, List.map_cons, h4, h2]; rfl
    · rw [Spec.readPairs, List.map_cons, List.nodup_cons]
      refine ⟨?_, h5⟩
      intro hm
      obtain ⟨kv, hkv, he⟩ := List.mem_map.1 hm
      apply hk
      rw [← h4]
      simp only [List.map_map, List.mem_map, Function.comp_apply]
      exact ⟨kv, hkv, by rw [he]; rfl⟩
end

end Verif.Json
