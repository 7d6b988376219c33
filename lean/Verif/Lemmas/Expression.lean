import Verif.Model.Expression

/-! Lemmas on expressions. -/

namespace Verif.Expr

theorem eval_congr (f g : String → Py Val) (e : Expr) (h : ∀ n ∈ names e, f n = g n) :
    eval f e = eval g e := by
  induction e with
  | lit v => rfl
  | name s => exact h s (by simp [names])
  | arith op a b iha ihb | cmp op a b iha ihb | land a b iha ihb | lor a b iha ihb =>
    have ha := iha fun n hn => h n (by simp [names, hn])
    have hb := ihb fun n hn => h n (by simp [names, hn])
    simp only [eval, ha, hb]
  | lnot a iha =>
    simp only [eval, iha fun n hn => h n hn]
  | inRange e a b ihe iha ihb =>
    have he := ihe fun n hn => h n (by simp [names, hn])
    have ha := iha fun n hn => h n (by simp [names, hn])
    have hb := ihb fun n hn => h n (by simp [names, hn])
    simp only [eval, ha, hb, he]
  | isIn e vs ihe =>
    simp only [eval, ihe fun n hn => h n hn]

theorem localsOf_ok (variables : List (String × Int)) (ns : List String)
    (h : ∀ n ∈ ns, n ≠ "range" → (lookup variables n).isSome) :
    ∃ locs, localsOf variables ns = .ok locs ∧
      ∀ n, locs.lookup n = if n ∈ ns ∧ n ≠ "range" then lookup variables n else none := by
  induction ns with
  | nil => exact ⟨[], rfl, by simp⟩
  | cons m t ih =>
    obtain ⟨locs, h1, h2⟩ := ih fun n hn => h n (List.mem_cons_of_mem _ hn)
    by_cases hm : m = "range"
    · refine ⟨locs, by simp [localsOf, hm, h1], ?_⟩
      intro n
      rw [h2]
      by_cases hn : n = "range"
      · simp [hn]
      · have : n ≠ m := by rw [hm]; exact hn
        simp [hn, this]
    · obtain ⟨v, hv⟩ := Option.isSome_iff_exists.1 (h m List.mem_cons_self hm)
      refine ⟨(m, v) :: locs, by simp [localsOf, hm, h1, hv, bind, Except.bind, pure, Except.pure],
        ?_⟩
      intro n
      rw [List.lookup_cons]
      by_cases hn : n = m
      · subst hn
        simp [hm, hv]
      · have hb : (n == m) = false := by simpa using hn
        rw [hb, h2]
        simp [hn]

theorem localsOf_error (variables : List (String × Int)) (ns : List String) (n : String)
    (hn : n ∈ ns) (hr : n ≠ "range") (h : lookup variables n = none) :
    localsOf variables ns = .error .nameError := by
  induction ns with
  | nil => simp at hn
  | cons m t ih =>
    simp only [localsOf]
    by_cases hnm : n = m
    · subst hnm
      simp [hr, h]
    · have ht := ih ((List.mem_cons.1 hn).resolve_left hnm)
      split
      · exact ht
      · split
        · rfl
        · simp [ht, bind, Except.bind]

end Verif.Expr
