import Verif.Model.Path

/-! Lemmas on the textual form of partition keys. -/

namespace Verif.Path

/-! ### integers -/

theorem isDigit_toDigits {n : Nat} {c : Char} (h : c ∈ Nat.toDigits 10 n) : c.isDigit = true :=
  Nat.isDigit_of_mem_toDigits (by omega) (by omega) h

theorem natOf_toDigits (n : Nat) : natOf (Nat.toDigits 10 n) = some n := by
  unfold natOf
  rw [if_pos ⟨Nat.toDigits_ne_nil, List.all_eq_true.2 fun c hc => isDigit_toDigits hc⟩,
    Nat.ofDigitChars_ten_toDigits]

theorem natOf_zero_toDigits (n : Nat) : natOf ('0' :: Nat.toDigits 10 n) = some n := by
  unfold natOf
  have h : ('0' :: Nat.toDigits 10 n).all Char.isDigit = true := by
    refine List.all_eq_true.2 fun c hc => ?_
    rcases List.mem_cons.1 hc with rfl | hc
    · decide
    · exact isDigit_toDigits hc
  rw [if_pos ⟨by simp, h⟩, Nat.ofDigitChars_cons]
  exact congrArg some Nat.ofDigitChars_ten_toDigits

theorem pyInt_digits (s : List Char) (n : Nat) (h : natOf s = some n) : pyInt s = .ok n := by
  have hne : s ≠ [] ∧ s.all Char.isDigit = true := by
    unfold natOf at h
    split at h
    · assumption
    · simp at h
  cases s with
  | nil => exact absurd rfl hne.1
  | cons c t =>
    have hc : c.isDigit = true := by
      have := hne.2
      simp only [List.all_cons, Bool.and_eq_true] at this
      exact this.1
    have h1 : c ≠ '-' := by rintro rfl; revert hc; decide
    have h2 : c ≠ '+' := by rintro rfl; revert hc; decide
    unfold pyInt
    split
    · next e => simp at e; exact absurd e.1 h1
    · next e => simp at e; exact absurd e.1 h2
    · rw [h]
      rfl

theorem pyInt_neg (n : Nat) : pyInt ('-' :: Nat.toDigits 10 n) = .ok (-(n : Int)) := by
  simp [pyInt, natOf_toDigits]

theorem pyInt_fmtInt (v : Int) : pyInt (fmtInt v) = .ok v := by
  unfold fmtInt
  split
  · rw [pyInt_neg]
    congr 1
    omega
  · rw [pyInt_digits _ _ (natOf_toDigits _)]
    congr 1
    omega

theorem pyInt_fmt02 (v : Int) : pyInt (fmt02 v) = .ok v := by
  unfold fmt02
  split
  · rw [pyInt_neg]
    congr 1
    omega
  · simp only
    split
    · rw [pyInt_digits _ _ (natOf_zero_toDigits _)]
      congr 1
      omega
    · rw [pyInt_digits _ _ (natOf_toDigits _)]
      congr 1
      omega

/-- What the proof needs about a format of integers. -/
structure GoodFmt (fmt : Int → List Char) : Prop where
  inv : ∀ v, pyInt (fmt v) = .ok v
  noEq : ∀ v, '=' ∉ fmt v
  noNl : ∀ v, '\n' ∉ fmt v

theorem fmtInt_mem {v : Int} {c : Char} (h : c ∈ fmtInt v) : c = '-' ∨ c.isDigit = true := by
  unfold fmtInt at h
  split at h
  · rcases List.mem_cons.1 h with h | h
    · exact .inl h
    · exact .inr (isDigit_toDigits h)
  · exact .inr (isDigit_toDigits h)

theorem fmt02_mem {v : Int} {c : Char} (h : c ∈ fmt02 v) : c = '-' ∨ c.isDigit = true := by
  unfold fmt02 at h
  split at h
  · rcases List.mem_cons.1 h with h | h
    · exact .inl h
    · exact .inr (isDigit_toDigits h)
  · simp only at h
    split at h
    · rcases List.mem_cons.1 h with h | h
      · right
        rw [h]
        decide
      · exact .inr (isDigit_toDigits h)
    · exact .inr (isDigit_toDigits h)

theorem goodFmt_int : GoodFmt fmtInt where
  inv := pyInt_fmtInt
  noEq v h := by rcases fmtInt_mem h with h | h <;> revert h <;> decide
  noNl v h := by rcases fmtInt_mem h with h | h <;> revert h <;> decide

theorem goodFmt_02 : GoodFmt fmt02 where
  inv := pyInt_fmt02
  noEq v h := by rcases fmt02_mem h with h | h <;> revert h <;> decide
  noNl v h := by rcases fmt02_mem h with h | h <;> revert h <;> decide

/-! ### the matcher -/

theorem strip_iff (p s r : List Char) : strip p s = some r ↔ s = p ++ r := by
  induction p generalizing s with
  | nil => simp [strip, eq_comm]
  | cons c p ih =>
    cases s with
    | nil => simp [strip]
    | cons d s =>
      simp only [strip]
      split
      · next h => subst h; simp [ih]
      · next h =>
        simp only [reduceCtorEq, List.cons_append, List.cons.injEq, false_iff]
        exact fun e => h e.1.symm

theorem tryLengths_some {β : Type} {f : List Char → Option β} {s : List Char} {n : Nat}
    {r : List Char × β} (h : tryLengths f s n = some r) :
    ∃ m ≤ n, attempt f s m = some r := by
  induction n with
  | zero => exact ⟨0, Nat.le_refl _, h⟩
  | succ n ih =>
    simp only [tryLengths] at h
    split at h
    · next r' he =>
      cases h
      exact ⟨n + 1, Nat.le_refl _, he⟩
    · obtain ⟨m, hm, he⟩ := ih h
      exact ⟨m, by omega, he⟩

/-- A match consumes one equal sign per key. -/
theorem matchAt_count (ks : List String) (s : List Char) (r : List (String × List Char))
    (h : matchAt ks s = some r) : ks.length ≤ s.count '=' := by
  induction ks generalizing s r with
  | nil => simp
  | cons k ks ih =>
    simp only [matchAt] at h
    split at h
    · simp at h
    · next rest hrest =>
      rw [strip_iff] at hrest
      subst hrest
      cases ks with
      | nil => simp; omega
      | cons k' ks =>
        simp only [Option.map_eq_some_iff] at h
        obtain ⟨x, hx, _⟩ := h
        obtain ⟨m, _, hm⟩ := tryLengths_some hx
        unfold attempt at hm
        split at hm
        · simp at hm
        · next c t hct =>
          split at hm
          · simp at hm
          · rw [Option.map_eq_some_iff] at hm
            obtain ⟨y, hy, _⟩ := hm
            have h1 := ih t y hy
            have h2 : t.count '=' ≤ rest.count '=' := by
              have : t.Sublist rest := by
                have h3 : (c :: t).Sublist rest := hct ▸ List.drop_sublist _ _
                exact (List.sublist_cons_self c t).trans h3
              exact this.count_le _
            simp only [List.length_cons] at h1 ⊢
            simp only [List.count_append, List.count_cons, List.count_nil, beq_self_eq_true,
              if_true]
            omega

theorem tryLengths_eq {β : Type} (f : List Char → Option β) (s : List Char) (m n : Nat)
    (hmn : m ≤ n) (r : List Char × β) (hm : attempt f s m = some r)
    (hu : ∀ i, i ≤ n → i ≠ m → attempt f s i = none) : tryLengths f s n = some r := by
  induction n with
  | zero =>
    have : m = 0 := by omega
    subst this
    exact hm
  | succ n ih =>
    simp only [tryLengths]
    by_cases he : m = n + 1
    · subst he
      rw [hm]
    · rw [hu (n + 1) (Nat.le_refl _) (fun e => he e.symm)]
      exact ih (by omega) fun i hi => hu i (by omega)

theorem append_eq_of_not_mem {a b a' b' : List Char} (ha : '=' ∉ a) (ha' : '=' ∉ a')
    (h : a ++ '=' :: b = a' ++ '=' :: b') : a = a' ∧ b = b' := by
  induction a generalizing a' with
  | nil =>
    cases a' with
    | nil => simpa using h
    | cons c t =>
      simp only [List.nil_append, List.cons_append, List.cons.injEq] at h
      exact absurd (by rw [h.1]; simp) ha'
  | cons c t ih =>
    cases a' with
    | nil =>
      simp only [List.nil_append, List.cons_append, List.cons.injEq] at h
      exact absurd (by rw [← h.1]; simp) ha
    | cons c' t' =>
      simp only [List.cons_append, List.cons.injEq] at h
      obtain ⟨rfl, h⟩ := h
      obtain ⟨h1, h2⟩ := ih (fun e => ha (by simp [e])) (fun e => ha' (by simp [e])) h
      exact ⟨by rw [h1], h2⟩

/-- Where a match can start: if the string is `a=tail` with no equal sign in `a` and too few
in `tail`, the suffixes that match start exactly at the last `k` of `a`. -/
theorem matchAt_start (k : String) (ks : List String) (a tail : List Char) (i : Nat)
    (ha : '=' ∉ a) (hk : '=' ∉ k.toList) (ht : tail.count '=' ≤ ks.length)
    (r : List (String × List Char)) (h : matchAt (k :: ks) ((a ++ '=' :: tail).drop i) = some r) :
    i ≤ a.length ∧ a.drop i = k.toList := by
  have hc := matchAt_count _ _ _ h
  by_cases hi : i ≤ a.length
  · refine ⟨hi, ?_⟩
    rw [List.drop_append_of_le_length hi] at h
    simp only [matchAt] at h
    split at h
    · simp at h
    · next rest hrest =>
      rw [strip_iff, List.append_assoc] at hrest
      simp only [List.cons_append, List.nil_append] at hrest
      exact (append_eq_of_not_mem (fun e => ha (List.mem_of_mem_drop e)) hk hrest).1
  · exfalso
    have hs : ((a ++ '=' :: tail).drop i).Sublist tail := by
      rw [List.drop_append, List.drop_eq_nil_of_le (by omega), List.nil_append]
      obtain ⟨j, hj⟩ : ∃ j, i - a.length = j + 1 := ⟨i - a.length - 1, by omega⟩
      rw [hj, List.drop_succ_cons]
      exact List.drop_sublist _ _
    have := hs.count_le '='
    simp only [List.length_cons] at hc
    omega

/-- Number of equal signs of a joined partition. -/
theorem count_joinWith (fmt : Int → List Char) (hf : GoodFmt fmt) (kvs : List (String × Int))
    (hk : ∀ kv ∈ kvs, '=' ∉ kv.1.toList) :
    (joinWith fmt ['/'] kvs).count '=' = kvs.length := by
  induction kvs with
  | nil => simp [joinWith]
  | cons kv t ih =>
    have h1 : kv.1.toList.count '=' = 0 := List.count_eq_zero.2 (hk kv (by simp))
    have h2 : (fmt kv.2).count '=' = 0 := List.count_eq_zero.2 (hf.noEq kv.2)
    have h3 := ih fun x hx => hk x (by simp [hx])
    cases t with
    | nil => simp [joinWith, h1, h2]
    | cons kv' t =>
      simp only [joinWith, List.count_append, List.count_cons, h1, h2, h3] at *
      simp

theorem joinWith_cons (fmt : Int → List Char) (kv kv' : String × Int) (t : List (String × Int)) :
    joinWith fmt ['/'] (kv :: kv' :: t) =
      kv.1.toList ++ '=' :: (fmt kv.2 ++ '/' :: joinWith fmt ['/'] (kv' :: t)) := by
  simp [joinWith]

theorem joinWith_head (fmt : Int → List Char) (kv : String × Int) (t : List (String × Int)) :
    ∃ tail, joinWith fmt ['/'] (kv :: t) = kv.1.toList ++ '=' :: tail := by
  cases t with
  | nil => exact ⟨_, rfl⟩
  | cons kv' t => exact ⟨_, joinWith_cons fmt kv kv' t⟩

theorem takeWhile_append_nl (a b : List Char) (ha : '\n' ∉ a) :
    a.length ≤ ((a ++ b).takeWhile (· ≠ '\n')).length := by
  rw [List.takeWhile_append_of_pos]
  · simp
  · intro c hc
    simp only [ne_eq, decide_eq_true_eq]
    rintro rfl
    exact ha hc

theorem takeWhile_all (a : List Char) (ha : '\n' ∉ a) : a.takeWhile (· ≠ '\n') = a := by
  have := List.takeWhile_append_of_pos (p := fun c => decide (c ≠ '\n')) (l₁ := a) (l₂ := [])
    (fun c hc => by
      simp only [ne_eq, decide_eq_true_eq]
      rintro rfl
      exact ha hc)
  simpa using this

theorem matchAt_join (fmt : Int → List Char) (hf : GoodFmt fmt) (kv : String × Int)
    (t : List (String × Int)) (hk : ∀ x ∈ kv :: t, '=' ∉ x.1.toList) :
    matchAt ((kv :: t).map (·.1)) (joinWith fmt ['/'] (kv :: t)) =
      some ((kv :: t).map fun x => (x.1, fmt x.2)) := by
  induction t generalizing kv with
  | nil =>
    have : strip (kv.1.toList ++ ['=']) (joinWith fmt ['/'] [kv]) = some (fmt kv.2) := by
      rw [strip_iff]
      simp [joinWith]
    simp only [List.map_cons, List.map_nil, matchAt, this]
    rw [takeWhile_all _ (hf.noNl _)]
  | cons kv' t ih =>
    have hk' : ∀ x ∈ kv' :: t, '=' ∉ x.1.toList := fun x hx => hk x (by simp [hx])
    have hkv' := hk' kv' (by simp)
    have hj := joinWith_cons fmt kv kv' t
    have hs : strip (kv.1.toList ++ ['=']) (joinWith fmt ['/'] (kv :: kv' :: t)) =
        some (fmt kv.2 ++ '/' :: joinWith fmt ['/'] (kv' :: t)) := by
      rw [strip_iff, hj]
      simp
    have hcount := count_joinWith fmt hf (kv' :: t) hk'
    have hih := ih kv' hk'
    have e : (kv :: kv' :: t).map (·.1) = kv.1 :: kv'.1 :: t.map (·.1) := rfl
    rw [e, matchAt, hs]
    simp only
    have key : tryLengths (matchAt (kv'.1 :: t.map (·.1)))
        (fmt kv.2 ++ '/' :: joinWith fmt ['/'] (kv' :: t))
        ((fmt kv.2 ++ '/' :: joinWith fmt ['/'] (kv' :: t)).takeWhile (· ≠ '\n')).length =
        some (fmt kv.2, (kv' :: t).map fun x => (x.1, fmt x.2)) := by
      refine tryLengths_eq _ _ (fmt kv.2).length _ (takeWhile_append_nl _ _ (hf.noNl _)) _ ?_ ?_
      · unfold attempt
        rw [List.drop_left]
        simp only [Char.reduceEq, if_false, List.take_left]
        rw [show (kv'.1 :: t.map (·.1)) = (kv' :: t).map (·.1) from rfl, hih]
        rfl
      · intro i _ hi
        cases hat : attempt (matchAt (kv'.1 :: t.map (·.1)))
            (fmt kv.2 ++ '/' :: joinWith fmt ['/'] (kv' :: t)) i with
        | none => rfl
        | some r =>
          exfalso
          unfold attempt at hat
          split at hat
          · simp at hat
          · next c u hcu =>
            split at hat
            · simp at hat
            · rw [Option.map_eq_some_iff] at hat
              obtain ⟨y, hy, _⟩ := hat
              obtain ⟨tail, htail⟩ := joinWith_head fmt kv' t
              rw [htail] at hcu hcount
              have hu : u = ((fmt kv.2 ++ '/' :: kv'.1.toList) ++ '=' :: tail).drop (i + 1) := by
                rw [← List.drop_drop (i := 1) (j := i)] 
                rw [List.append_assoc, List.cons_append, hcu]
                rfl
              rw [hu] at hy
              have hcnt : tail.count '=' ≤ (t.map (·.1)).length := by
                simp only [List.count_append, List.count_cons, beq_self_eq_true, if_true,
                  List.length_cons] at hcount
                simp only [List.length_map]
                omega
              obtain ⟨h1, h2⟩ := matchAt_start kv'.1 (t.map (·.1)) (fmt kv.2 ++ '/' :: kv'.1.toList)
                tail (i + 1) (by
                  intro hm
                  rcases List.mem_append.1 hm with hm | hm
                  · exact hf.noEq _ hm
                  · rcases List.mem_cons.1 hm with hm | hm
                    · revert hm; decide
                    · exact hkv' hm) hkv' hcnt y hy
              have h3 := congrArg List.length h2
              simp only [List.length_drop, List.length_append, List.length_cons] at h1 h3
              omega
    rw [key]
    rfl

theorem search_join (fmt : Int → List Char) (hf : GoodFmt fmt) (pre : List Char)
    (kv : String × Int) (t : List (String × Int)) (hpre : ¬ (kv.1.toList ++ ['=']) <:+: pre)
    (hk : ∀ x ∈ kv :: t, '=' ∉ x.1.toList) :
    search ((kv :: t).map (·.1)) (pre ++ joinWith fmt ['/'] (kv :: t)) =
      some ((kv :: t).map fun x => (x.1, fmt x.2)) := by
  have hm := matchAt_join fmt hf kv t hk
  obtain ⟨tail, htail⟩ := joinWith_head fmt kv t
  have hkv := hk kv (by simp)
  induction pre with
  | nil =>
    rw [List.nil_append]
    cases hj : joinWith fmt ['/'] (kv :: t) with
    | nil =>
      rw [hj] at hm
      simpa [search] using hm
    | cons c u =>
      rw [hj] at hm
      simp only [search, hm]
  | cons c pre ih =>
    have hnone : matchAt ((kv :: t).map (·.1)) ((c :: pre) ++ joinWith fmt ['/'] (kv :: t)) =
        none := by
      cases hx : matchAt ((kv :: t).map (·.1)) ((c :: pre) ++ joinWith fmt ['/'] (kv :: t)) with
      | none => rfl
      | some r =>
        exfalso
        simp only [List.map_cons, matchAt] at hx
        split at hx
        · simp at hx
        · next rest hrest =>
          rw [strip_iff, htail] at hrest
          by_cases hl : kv.1.toList.length < (c :: pre).length
          · -- the literal lies inside the prefix
            apply hpre
            refine ⟨[], (c :: pre).drop (kv.1.toList.length + 1), ?_⟩
            have h1 := congrArg (List.take (kv.1.toList.length + 1)) hrest
            rw [List.take_append_of_le_length (by omega)] at h1
            have e : kv.1.toList.length + 1 = (kv.1.toList ++ ['=']).length := by simp
            rw [e, List.take_left] at h1
            rw [List.nil_append, ← h1, ← e, List.take_append_drop]
          · -- the literal would have to end after the first character of the key
            have hk0 : '=' ∉ (c :: pre) := by
              intro hmem
              have h2 : (c :: pre) <+: kv.1.toList := by
                refine List.prefix_of_prefix_length_le (l₃ := kv.1.toList ++ ['='] ++ rest)
                  ⟨_, hrest⟩ ⟨['='] ++ rest, by simp⟩ (by omega)
              exact hkv (h2.subset hmem)
            have h2 : (c :: pre ++ kv.1.toList) ++ '=' :: tail = kv.1.toList ++ '=' :: rest := by
              have := hrest
              simp only [List.append_assoc, List.cons_append, List.nil_append] at this ⊢
              exact this
            obtain ⟨h3, _⟩ := append_eq_of_not_mem (by
              intro e
              rcases List.mem_append.1 e with e | e
              · exact hk0 e
              · exact hkv e) hkv h2
            have := congrArg List.length h3
            simp at this
            omega
    have hrest := ih fun h => hpre (h.trans (List.suffix_cons c pre).isInfix)
    simp only [List.cons_append, search]
    rw [List.cons_append] at hnone
    rw [hnone]
    exact hrest

/-! ### prefixes that contain the first key -/

theorem tryLengths_ge {β : Type} (f : List Char → Option β) (s : List Char) (m n : Nat)
    (hmn : m ≤ n) (h : attempt f s m ≠ none) :
    ∃ m' r, m ≤ m' ∧ attempt f s m' = some r ∧ tryLengths f s n = some r := by
  induction n with
  | zero =>
    have : m = 0 := by omega
    subst this
    cases hr : attempt f s 0 with
    | none => exact absurd hr h
    | some r => exact ⟨0, r, Nat.le_refl _, hr, hr⟩
  | succ n ih =>
    simp only [tryLengths]
    split
    · next r he => exact ⟨n + 1, r, hmn, he, rfl⟩
    · next he =>
      refine ih ?_
      have : m ≠ n + 1 := by rintro rfl; exact h he
      omega

/-- When the name of the first key occurs earlier on the line, its value swallows the real
one. -/
theorem matchAt_swallow (fmt : Int → List Char) (hf : GoodFmt fmt) (q : List Char)
    (hq : '\n' ∉ q) (kv : String × Int) (t : List (String × Int))
    (hnl : '\n' ∉ kv.1.toList) (hk : ∀ x ∈ kv :: t, '=' ∉ x.1.toList) :
    ∃ val rest, '=' ∈ val ∧ matchAt ((kv :: t).map (·.1))
      (kv.1.toList ++ '=' :: (q ++ joinWith fmt ['/'] (kv :: t))) = some ((kv.1, val) :: rest) := by
  have hs : strip (kv.1.toList ++ ['='])
      (kv.1.toList ++ '=' :: (q ++ joinWith fmt ['/'] (kv :: t))) =
      some (q ++ joinWith fmt ['/'] (kv :: t)) := by
    rw [strip_iff]
    simp
  cases t with
  | nil =>
    refine ⟨q ++ joinWith fmt ['/'] [kv], [], by simp [joinWith], ?_⟩
    simp only [List.map_cons, List.map_nil, matchAt, hs]
    rw [takeWhile_all]
    intro e
    simp only [joinWith, List.mem_append, List.mem_cons] at e
    rcases e with e | e | e | e
    · exact hq e
    · exact hnl e
    · revert e; decide
    · exact hf.noNl _ e
  | cons kv' t =>
    have hm := matchAt_join fmt hf kv' t (fun x hx => hk x (by simp [hx]))
    have e : (kv :: kv' :: t).map (·.1) = kv.1 :: kv'.1 :: t.map (·.1) := rfl
    rw [e, matchAt, hs]
    simp only
    have hassoc : q ++ joinWith fmt ['/'] (kv :: kv' :: t) =
        (q ++ (kv.1.toList ++ '=' :: fmt kv.2)) ++ '/' :: joinWith fmt ['/'] (kv' :: t) := by
      rw [joinWith_cons]
      simp
    rw [hassoc]
    obtain ⟨m', r, h1, h2, h3⟩ := tryLengths_ge (matchAt (kv'.1 :: t.map (·.1)))
      ((q ++ (kv.1.toList ++ '=' :: fmt kv.2)) ++ '/' :: joinWith fmt ['/'] (kv' :: t))
      (q ++ (kv.1.toList ++ '=' :: fmt kv.2)).length _ (takeWhile_append_nl _ _ (by
        intro e
        simp only [List.mem_append, List.mem_cons] at e
        rcases e with e | e | e | e
        · exact hq e
        · exact hnl e
        · revert e; decide
        · exact hf.noNl _ e)) (by
        unfold attempt
        rw [List.drop_left]
        simp only [Char.reduceEq, if_false, List.take_left]
        rw [show (kv'.1 :: t.map (·.1)) = (kv' :: t).map (·.1) from rfl, hm]
        simp)
    refine ⟨r.1, r.2, ?_, by rw [h3]; rfl⟩
    unfold attempt at h2
    split at h2
    · simp at h2
    · split at h2
      · simp at h2
      · rw [Option.map_eq_some_iff] at h2
        obtain ⟨y, _, rfl⟩ := h2
        simp only
        rw [List.take_append]
        rw [List.take_of_length_le h1]
        simp

theorem search_swallow (fmt : Int → List Char) (hf : GoodFmt fmt) (pre : List Char)
    (hnlp : '\n' ∉ pre) (kv : String × Int) (t : List (String × Int))
    (hnl : '\n' ∉ kv.1.toList) (hpre : (kv.1.toList ++ ['=']) <:+: pre)
    (hk : ∀ x ∈ kv :: t, '=' ∉ x.1.toList) :
    ∃ val rest, '=' ∈ val ∧ search ((kv :: t).map (·.1))
      (pre ++ joinWith fmt ['/'] (kv :: t)) = some ((kv.1, val) :: rest) := by
  induction pre with
  | nil =>
    have := List.infix_nil.1 hpre
    simp at this
  | cons c pre ih =>
    cases hx : matchAt ((kv :: t).map (·.1)) ((c :: pre) ++ joinWith fmt ['/'] (kv :: t)) with
    | none =>
      have hpre' : (kv.1.toList ++ ['=']) <:+: pre := by
        rcases List.infix_cons_iff.1 hpre with h | h
        · exfalso
          obtain ⟨q, hq⟩ := h
          obtain ⟨val, rest, _, h2⟩ := matchAt_swallow fmt hf q
            (fun e => hnlp (by rw [← hq]; simp [e])) kv t hnl hk
          rw [← hq] at hx
          simp only [List.append_assoc, List.cons_append, List.nil_append] at hx
          rw [h2] at hx
          simp at hx
        · exact h
      obtain ⟨val, rest, h1, h2⟩ := ih (fun e => hnlp (by simp [e])) hpre'
      refine ⟨val, rest, h1, ?_⟩
      rw [List.cons_append] at hx ⊢
      simp only [search, hx]
      exact h2
    | some r =>
      have hsearch : search ((kv :: t).map (·.1)) ((c :: pre) ++ joinWith fmt ['/'] (kv :: t)) =
          some r := by
        rw [List.cons_append] at hx ⊢
        simp only [search, hx]
      rw [hsearch]
      obtain ⟨tail, htail⟩ := joinWith_head fmt kv t
      have hkv := hk kv (by simp)
      -- the match starts at the head: the literal lies inside the prefix
      have hx' := hx
      simp only [List.map_cons, matchAt] at hx
      split at hx
      · simp at hx
      · next rest hrest =>
        rw [strip_iff] at hrest
        by_cases hl : kv.1.toList.length < (c :: pre).length
        · have e : kv.1.toList.length + 1 = (kv.1.toList ++ ['=']).length := by simp
          have h1 := congrArg (List.take (kv.1.toList.length + 1)) hrest
          rw [List.take_append_of_le_length (by omega), e, List.take_left] at h1
          have hq : (kv.1.toList ++ ['=']) ++ (c :: pre).drop (kv.1.toList.length + 1) =
              c :: pre := by
            rw [← h1, ← e, List.take_append_drop]
          obtain ⟨val, rest', h2, h3⟩ := matchAt_swallow fmt hf
            ((c :: pre).drop (kv.1.toList.length + 1))
            (fun e => hnlp (List.mem_of_mem_drop e)) kv t hnl hk
          rw [← hq] at hx'
          simp only [List.append_assoc, List.cons_append, List.nil_append] at hx'
          rw [h3] at hx'
          exact ⟨val, rest', h2, hx'.symm⟩
        · exfalso
          rw [htail] at hrest
          have hk0 : '=' ∉ (c :: pre) := by
            intro hmem
            have h2 : (c :: pre) <+: kv.1.toList := by
              refine List.prefix_of_prefix_length_le (l₃ := kv.1.toList ++ ['='] ++ rest)
                ⟨_, hrest⟩ ⟨['='] ++ rest, by simp⟩ (by omega)
            exact hkv (h2.subset hmem)
          exact hk0 (hpre.subset (by simp))

theorem natOf_eq_none {s : List Char} (h : '=' ∈ s) : natOf s = none := by
  unfold natOf
  rw [if_neg]
  rintro ⟨_, h2⟩
  have := List.all_eq_true.1 h2 '=' h
  revert this
  decide

theorem pyInt_eq_error {s : List Char} (h : '=' ∈ s) : pyInt s = .error .valueError := by
  unfold pyInt
  split
  · next t =>
    have : '=' ∈ t := by simpa using h
    simp [natOf_eq_none this]
  · next t =>
    have : '=' ∈ t := by simpa using h
    simp [natOf_eq_none this]
  · simp [natOf_eq_none h]

theorem parse_swallow (fmt : Int → List Char) (hf : GoodFmt fmt) (pre : List Char)
    (hnlp : '\n' ∉ pre) (kv : String × Int) (t : List (String × Int))
    (hnl : '\n' ∉ kv.1.toList) (hpre : (kv.1.toList ++ ['=']) <:+: pre)
    (hk : ∀ x ∈ kv :: t, '=' ∉ x.1.toList) :
    parse ((kv :: t).map (·.1)) (pre ++ joinWith fmt ['/'] (kv :: t)) = .error .valueError := by
  obtain ⟨val, rest, h1, h2⟩ := search_swallow fmt hf pre hnlp kv t hnl hpre hk
  unfold parse
  rw [h2]
  simp [convert, pyInt_eq_error h1, bind, Except.bind]

theorem convert_map (fmt : Int → List Char) (hf : GoodFmt fmt) (kvs : List (String × Int)) :
    convert (kvs.map fun x => (x.1, fmt x.2)) = .ok kvs := by
  induction kvs with
  | nil => rfl
  | cons kv t ih => simp [convert, hf.inv, ih, bind, Except.bind, pure, Except.pure]

theorem parse_join (fmt : Int → List Char) (hf : GoodFmt fmt) (pre : List Char)
    (kv : String × Int) (t : List (String × Int)) (hpre : ¬ (kv.1.toList ++ ['=']) <:+: pre)
    (hk : ∀ x ∈ kv :: t, '=' ∉ x.1.toList) :
    parse ((kv :: t).map (·.1)) (pre ++ joinWith fmt ['/'] (kv :: t)) = .ok (kv :: t) := by
  unfold parse
  rw [search_join fmt hf pre kv t hpre hk]
  exact convert_map fmt hf _

end Verif.Path
