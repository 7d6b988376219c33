import Verif.Spec.Expression
import Verif.Props.Listing

/-! C20: the conditions written as expressions. -/

namespace Verif

open Spec Expr

/-- The value of a name when the keys are given. -/
def lookKeys (keys : List (String × Int)) (n : String) : Py Val :=
  if n = "range" then .ok .rangeType
  else match Expr.lookup keys n with
    | some v => .ok (.int v)
    | none => .error .keyError

theorem lookup_key {keys : List (String × Int)} (hk : (keys.map (·.1)).Nodup) {n : String}
    {v : Int} (h : (n, v) ∈ keys) : Expr.lookup keys n = some v := by
  unfold Expr.lookup
  have hk' : (keys.reverse.map (·.1)).Nodup := by
    rw [List.map_reverse]
    exact List.pairwise_reverse.2 (hk.imp fun h => h.symm)
  have h' : (n, v) ∈ keys.reverse := List.mem_reverse.2 h
  generalize keys.reverse = l at hk' h'
  induction l with
  | nil => cases h'
  | cons a t ih =>
    simp only [List.map_cons, List.nodup_cons] at hk'
    rcases List.mem_cons.1 h' with rfl | ht
    · simp [List.lookup]
    · have hne : n ≠ a.1 := by
        rintro rfl
        exact hk'.1 (List.mem_map.2 ⟨(a.1, v), ht, rfl⟩)
      simp only [List.lookup, beq_eq_false_iff_ne.2 hne]
      exact ih hk'.2 ht

theorem divides_spec {x y q r : Int} (h : Divides x y q r) :
    y ≠ 0 ∧ x.fdiv y = q ∧ x.fmod y = r := by
  obtain ⟨h1, h2⟩ := h
  have hy : y ≠ 0 := by omega
  have key : x.fdiv y = q := by
    rcases h2 with h2 | h2
    · rw [Int.fdiv_eq_ediv_of_nonneg _ (by omega)]
      subst h1
      rw [Int.add_comm, Int.add_mul_ediv_left _ _ hy, Int.ediv_eq_zero_of_lt h2.1 h2.2]
      omega
    · have hn : x.fdiv y = (-x).fdiv (-y) := by rw [Int.neg_fdiv_neg]
      rw [hn, Int.fdiv_eq_ediv_of_nonneg _ (by omega), h1,
        show -(y * q + r) = -r + (-y) * q by rw [Int.neg_add, Int.neg_mul, Int.add_comm],
        Int.add_mul_ediv_left _ _ (by omega), Int.ediv_eq_zero_of_lt (by omega) (by omega)]
      omega
  refine ⟨hy, key, ?_⟩
  have := Int.mul_fdiv_add_fmod x y
  rw [key] at this
  omega

theorem value_eval {keys : List (String × Int)} (hk : (keys.map (·.1)).Nodup) {e : Expr.Expr}
    {v : Int} (h : Value keys e v) : Expr.eval (lookKeys keys) e = .ok (.int v) ∧
      ∀ n ∈ Expr.names e, n ≠ "range" → ∃ w, Expr.lookup keys n = some w := by
  induction h with
  | lit v => exact ⟨rfl, by simp [Expr.names]⟩
  | key n v h1 h2 =>
    have := lookup_key hk h1
    refine ⟨by simp [Expr.eval, lookKeys, h2, this], ?_⟩
    intro m hm _
    simp only [Expr.names, List.mem_singleton] at hm
    exact ⟨v, hm ▸ this⟩
  | add a b x y _ _ iha ihb | sub a b x y _ _ iha ihb | mul a b x y _ _ iha ihb =>
    refine ⟨by simp [Expr.eval, iha.1, ihb.1, bind, Except.bind, Val.toNum, Val.num, Expr.arith],
      ?_⟩
    intro n hn hr
    simp only [Expr.names, List.mem_append] at hn
    exact hn.elim (fun h => iha.2 n h hr) (fun h => ihb.2 n h hr)
  | div a b x y q r _ _ hd iha ihb =>
    obtain ⟨d1, d2, d3⟩ := divides_spec hd
    refine ⟨by simp [Expr.eval, iha.1, ihb.1, bind, Except.bind, Val.toNum, Val.num, Expr.arith,
      d1, d2], ?_⟩
    intro n hn hr
    simp only [Expr.names, List.mem_append] at hn
    exact hn.elim (fun h => iha.2 n h hr) (fun h => ihb.2 n h hr)
  | mod a b x y q r _ _ hd iha ihb =>
    obtain ⟨d1, d2, d3⟩ := divides_spec hd
    refine ⟨by simp [Expr.eval, iha.1, ihb.1, bind, Except.bind, Val.toNum, Val.num, Expr.arith,
      d1, d3], ?_⟩
    intro n hn hr
    simp only [Expr.names, List.mem_append] at hn
    exact hn.elim (fun h => iha.2 n h hr) (fun h => ihb.2 n h hr)

theorem compare_spec {op : CmpOp} {x y : Int} {t : Bool} (h : t = true ↔ Compares op x y) :
    Expr.compare op (.int x) (.int y) = .ok (.bool t) := by
  have : ∀ (q : Prop) [Decidable q], (q ↔ Compares op x y) → decide q = t := by
    intro q _ hq
    rw [← hq] at h
    cases t <;> simp_all
  cases op
  · exact congrArg (fun b => Except.ok (Val.bool b)) (this _ (by simp [Compares, Val.num]))
  · exact congrArg (fun b => Except.ok (Val.bool b)) (this _ (by simp [Compares, Val.num]))
  · exact congrArg (fun b => Except.ok (Val.bool b)) (this _ (by simp [Compares]))
  · exact congrArg (fun b => Except.ok (Val.bool b)) (this _ (by simp only [Compares]; omega))
  · exact congrArg (fun b => Except.ok (Val.bool b)) (this _ (by simp [Compares]))
  · exact congrArg (fun b => Except.ok (Val.bool b)) (this _ (by simp only [Compares]; omega))

theorem says_eval {keys : List (String × Int)} (hk : (keys.map (·.1)).Nodup) {e : Expr.Expr}
    {t : Bool} (h : Says keys e t) : Expr.eval (lookKeys keys) e = .ok (.bool t) ∧
      ∀ n ∈ Expr.names e, n ≠ "range" → ∃ w, Expr.lookup keys n = some w := by
  induction h with
  | cmp op a b x y t h1 h2 h3 =>
    have iha := value_eval hk h1
    have ihb := value_eval hk h2
    refine ⟨by simp only [Expr.eval, iha.1, ihb.1, bind, Except.bind]; exact compare_spec h3, ?_⟩
    intro n hn hr
    simp only [Expr.names, List.mem_append] at hn
    exact hn.elim (fun h => iha.2 n h hr) (fun h => ihb.2 n h hr)
  | both a b s t _ _ iha ihb =>
    refine ⟨by cases s <;> simp [Expr.eval, iha.1, ihb.1, bind, Except.bind, Val.truth, pure,
      Except.pure], ?_⟩
    intro n hn hr
    simp only [Expr.names, List.mem_append] at hn
    exact hn.elim (fun h => iha.2 n h hr) (fun h => ihb.2 n h hr)
  | either a b s t _ _ iha ihb =>
    refine ⟨by cases s <;> simp [Expr.eval, iha.1, ihb.1, bind, Except.bind, Val.truth, pure,
      Except.pure], ?_⟩
    intro n hn hr
    simp only [Expr.names, List.mem_append] at hn
    exact hn.elim (fun h => iha.2 n h hr) (fun h => ihb.2 n h hr)
  | neg a t _ iha =>
    exact ⟨by simp [Expr.eval, iha.1, bind, Except.bind, Val.truth, pure, Except.pure], iha.2⟩
  | range e a b x lo hi t h1 h2 h3 h4 =>
    have ihe := value_eval hk h1
    have iha := value_eval hk h2
    have ihb := value_eval hk h3
    have : decide (lo ≤ x ∧ x < hi) = t := by
      cases t <;> simp_all
    refine ⟨by simp [Expr.eval, ihe.1, iha.1, ihb.1, bind, Except.bind, Val.toNum, Val.num, pure,
      Except.pure, ← this], ?_⟩
    intro n hn hr
    simp only [Expr.names, List.mem_append, List.mem_cons] at hn
    rcases hn with hn | rfl | hn | hn
    · exact ihe.2 n hn hr
    · exact absurd rfl hr
    · exact iha.2 n hn hr
    · exact ihb.2 n hn hr
  | among e l x t h1 h2 =>
    have ihe := value_eval hk h1
    have : decide (x ∈ l) = t := by
      cases t <;> simp_all
    exact ⟨by simp [Expr.eval, ihe.1, bind, Except.bind, Val.num, pure, Except.pure, ← this],
      ihe.2⟩

/-- C20: a condition built from comparisons of numbers, `in range(...)`, membership, `and`,
`or` and `not` is true for a partition exactly when it holds of its keys. -/
theorem C20_condition (e : Expr.Expr) (keys : List (String × Int)) (hk : (keys.map (·.1)).Nodup)
    (t : Bool) (h : Says keys e t) : Expr.filter e keys = .ok t := by
  obtain ⟨h1, h2⟩ := says_eval hk h
  have h3 := C20_expression e keys h2
  have h4 : Expr.call e keys = .ok (.bool t) := by
    rw [h3, ← h1]
    apply Expr.eval_congr
    intro n _
    unfold lookKeys
    split
    · rfl
    · cases Expr.lookup keys n <;> rfl
  simp only [Expr.filter, h4, bind, Except.bind, pure, Except.pure, Val.truth]

/-- The hypotheses are met: `year == 2000 and day in range(1, 12) and not day % 7 == 3`. -/
example : Expr.filter (.land (.land (.cmp .eq (.name "year") (.lit 2000))
      (.inRange (.name "day") (.lit 1) (.lit 12)))
      (.lnot (.cmp .eq (.arith .mod (.name "day") (.lit 7)) (.lit 3))))
    [("year", 2000), ("day", 11)] = .ok true := by
  refine C20_condition _ _ (by decide) _ (.both _ _ true true (.both _ _ true true
    (.cmp _ _ _ 2000 2000 _ (.key _ _ (by simp) (by decide)) (.lit _) (by simp [Compares]))
    (.range _ _ _ 11 1 12 _ (.key _ _ (by simp) (by decide)) (.lit _) (.lit _) (by simp)))
    (.neg _ false (.cmp _ _ _ 4 3 _ (.mod _ _ 11 7 1 4 (.key _ _ (by simp) (by decide)) (.lit _)
      (by unfold Divides; omega)) (.lit _) (by simp [Compares]))))

theorem truth_num {v : Val} {x : Int} (h : v.num = some x) : v.truth = decide (x ≠ 0) := by
  cases v with
  | int i => simp only [Val.num, Option.some.injEq] at h; subst h; rfl
  | bool b => cases b <;> simp_all [Val.num, Val.truth] <;> omega
  | rangeType => simp [Val.num] at h

theorem toNum_num {v : Val} {x : Int} (h : v.num = some x) : v.toNum = .ok x := by
  simp [Val.toNum, h]

theorem compare_num {op : CmpOp} {v w : Val} {x y : Int} (hv : v.num = some x)
    (hw : w.num = some y) : ∃ t, Expr.compare op v w = .ok (.bool t) ∧
      (t = true ↔ Compares op x y) := by
  cases op <;> simp only [Expr.compare, hv, hw, toNum_num hv, toNum_num hw, bind, Except.bind,
    pure, Except.pure, Except.ok.injEq, Val.bool.injEq, exists_eq_left', decide_eq_true_eq,
    Compares, ne_eq, Option.some.injEq] <;> omega

theorem means_eval {keys : List (String × Int)} (hk : (keys.map (·.1)).Nodup) {e : Expr.Expr}
    {n : Int} (h : Means keys e n) :
    ∃ v, Expr.eval (lookKeys keys) e = .ok v ∧ v.num = some n := by
  induction h with
  | lit v => exact ⟨.int v, rfl, rfl⟩
  | key n v h1 h2 => exact ⟨.int v, by simp [Expr.eval, lookKeys, h2, lookup_key hk h1], rfl⟩
  | add a b x y _ _ iha ihb | sub a b x y _ _ iha ihb | mul a b x y _ _ iha ihb =>
    obtain ⟨v, hv, hv'⟩ := iha
    obtain ⟨w, hw, hw'⟩ := ihb
    refine ⟨.int _, ?_, rfl⟩
    simp only [Expr.eval, hv, hw, bind, Except.bind, toNum_num hv', toNum_num hw', Expr.arith]
  | div a b x y q r _ _ hd iha ihb | mod a b x y q r _ _ hd iha ihb =>
    obtain ⟨v, hv, hv'⟩ := iha
    obtain ⟨w, hw, hw'⟩ := ihb
    obtain ⟨d1, d2, d3⟩ := divides_spec hd
    refine ⟨.int _, ?_, rfl⟩
    simp only [Expr.eval, hv, hw, bind, Except.bind, toNum_num hv', toNum_num hw', Expr.arith,
      d1, d2, d3, if_false]
  | holds op a b x y _ _ hc iha ihb =>
    obtain ⟨v, hv, hv'⟩ := iha
    obtain ⟨w, hw, hw'⟩ := ihb
    obtain ⟨t, h1, h2⟩ := compare_num (op := op) hv' hw'
    refine ⟨.bool t, by simp only [Expr.eval, hv, hw, bind, Except.bind, h1], ?_⟩
    rw [h2.2 hc]; rfl
  | fails op a b x y _ _ hc iha ihb =>
    obtain ⟨v, hv, hv'⟩ := iha
    obtain ⟨w, hw, hw'⟩ := ihb
    obtain ⟨t, h1, h2⟩ := compare_num (op := op) hv' hw'
    refine ⟨.bool t, by simp only [Expr.eval, hv, hw, bind, Except.bind, h1], ?_⟩
    have : t = false := by
      cases t
      · rfl
      · exact absurd (h2.1 rfl) hc
    rw [this]; rfl
  | and_false a b _ iha =>
    obtain ⟨v, hv, hv'⟩ := iha
    exact ⟨v, by simp [Expr.eval, hv, bind, Except.bind, truth_num hv', pure, Except.pure], hv'⟩
  | and_true a b x y _ hx _ iha ihb =>
    obtain ⟨v, hv, hv'⟩ := iha
    obtain ⟨w, hw, hw'⟩ := ihb
    exact ⟨w, by simp [Expr.eval, hv, hw, bind, Except.bind, truth_num hv', hx], hw'⟩
  | or_false a b y _ _ iha ihb =>
    obtain ⟨v, hv, hv'⟩ := iha
    obtain ⟨w, hw, hw'⟩ := ihb
    exact ⟨w, by simp [Expr.eval, hv, hw, bind, Except.bind, truth_num hv'], hw'⟩
  | or_true a b x _ hx iha =>
    obtain ⟨v, hv, hv'⟩ := iha
    exact ⟨v, by simp [Expr.eval, hv, bind, Except.bind, truth_num hv', hx, pure, Except.pure], hv'⟩
  | not_false a _ iha =>
    obtain ⟨v, hv, hv'⟩ := iha
    exact ⟨.bool true, by simp [Expr.eval, hv, bind, Except.bind, truth_num hv', pure,
      Except.pure], rfl⟩
  | not_true a x _ hx iha =>
    obtain ⟨v, hv, hv'⟩ := iha
    exact ⟨.bool false, by simp [Expr.eval, hv, bind, Except.bind, truth_num hv', hx, pure,
      Except.pure], rfl⟩
  | inside e a b x lo hi _ _ _ h1 h2 ihe iha ihb =>
    obtain ⟨u, hu, hu'⟩ := ihe
    obtain ⟨v, hv, hv'⟩ := iha
    obtain ⟨w, hw, hw'⟩ := ihb
    exact ⟨.bool true, by simp [Expr.eval, hu, hv, hw, bind, Except.bind, toNum_num hv',
      toNum_num hw', hu', pure, Except.pure, h1, h2], rfl⟩
  | outside e a b x lo hi _ _ _ h1 ihe iha ihb =>
    obtain ⟨u, hu, hu'⟩ := ihe
    obtain ⟨v, hv, hv'⟩ := iha
    obtain ⟨w, hw, hw'⟩ := ihb
    have : ¬ (lo ≤ x ∧ x < hi) := by omega
    exact ⟨.bool false, by simp only [Expr.eval, hu, hv, hw, bind, Except.bind, toNum_num hv',
      toNum_num hw', hu', pure, Except.pure, this, decide_false], rfl⟩
  | among e l x _ h1 ihe =>
    obtain ⟨u, hu, hu'⟩ := ihe
    exact ⟨.bool true, by simp [Expr.eval, hu, bind, Except.bind, hu', pure, Except.pure, h1], rfl⟩
  | notAmong e l x _ h1 ihe =>
    obtain ⟨u, hu, hu'⟩ := ihe
    exact ⟨.bool false, by simp [Expr.eval, hu, bind, Except.bind, hu', pure, Except.pure, h1],
      rfl⟩

/-- C20: an expression, the names of which are keys of the partitions, selects a partition exactly
when the number it stands for is not 0: conditions can be added and numbers used as conditions. -/
theorem C20_number (e : Expr.Expr) (keys : List (String × Int)) (hk : (keys.map (·.1)).Nodup)
    (hn : ∀ n ∈ Expr.names e, n ≠ "range" → n ∈ keys.map (·.1)) (x : Int) (h : Means keys e x) :
    Expr.filter e keys = .ok (decide (x ≠ 0)) := by
  obtain ⟨v, h1, h2⟩ := means_eval hk h
  have h3 := C20_expression e keys fun n hn' hr => by
    obtain ⟨kv, hkv, rfl⟩ := List.mem_map.1 (hn n hn' hr)
    exact ⟨kv.2, lookup_key hk hkv⟩
  have h4 : Expr.call e keys = .ok v := by
    rw [h3, ← h1]
    apply Expr.eval_congr
    intro n _
    unfold lookKeys
    split
    · rfl
    · cases Expr.lookup keys n <;> rfl
  simp only [Expr.filter, h4, bind, Except.bind, pure, Except.pure, truth_num h2]

/-- The hypotheses are met: `(year == 2000) + (day > 20) == 1 and day - 12`. -/
example : Expr.filter (.land (.cmp .eq (.arith .add (.cmp .eq (.name "year") (.lit 2000))
      (.cmp .gt (.name "day") (.lit 20))) (.lit 1)) (.arith .sub (.name "day") (.lit 12)))
    [("year", 2000), ("day", 11)] = .ok true := by
  refine C20_number _ _ (by decide) (by decide) (-1) (.and_true _ _ 1 (-1)
    (.holds _ _ _ 1 1 (.add _ _ 1 0
      (.holds _ _ _ 2000 2000 (.key _ _ (by simp) (by decide)) (.lit _) (by simp [Compares]))
      (.fails _ _ _ 11 20 (.key _ _ (by simp) (by decide)) (.lit _) (by simp [Compares])))
      (.lit _) (by simp [Compares])) (by decide)
    (.sub _ _ 11 12 (.key _ _ (by simp) (by decide)) (.lit _)))

/-- C20: a key named `range` is never read: the name is the class `range`, which is true, is not
equal to any number and is not comparable to any. -/
theorem C20_range_hidden (keys : List (String × Int)) (x : Int) :
    Expr.filter (.name "range") keys = .ok true ∧
      Expr.filter (.cmp .eq (.name "range") (.lit x)) keys = .ok false ∧
      Expr.filter (.cmp .lt (.name "range") (.lit x)) keys = .error .typeError := by
  refine ⟨?_, ?_, ?_⟩ <;> rfl

/-- So `range == 3` does not select the partition `range=3`. -/
example : Expr.filter (.cmp .eq (.name "range") (.lit 3)) [("range", 3)] = .ok false :=
  (C20_range_hidden _ _).2.1

end Verif
