import Verif.Spec.Xarray
import Verif.Lemmas.OverlapLoad

/-! Lemmas on the conversion to xarray. -/

namespace Verif

open Spec Nd Xr

variable {V : Type}

namespace Xr

theorem lookup_put (d : List (Attr V)) (k e : String) (x : V) :
    (put k x d).lookup e = if e = k then some x else d.lookup e := by
  induction d with
  | nil =>
    simp only [put, lookup_cons, List.lookup_nil]
  | cons a t ih =>
    obtain ⟨n, y⟩ := a
    simp only [put]
    split
    · next h =>
      subst h
      simp only [lookup_cons]
      by_cases h : e = n
      · subst h; simp
      · simp [h]
    · next h =>
      simp only [lookup_cons, ih]
      by_cases h1 : e = n
      · subst h1; simp [show e ≠ k from h]
      · simp [h1]

theorem lookup_pop (d : List (Attr V)) (k e : String) :
    (pop k d).lookup e = if e = k then none else d.lookup e := by
  induction d with
  | nil => simp [pop]
  | cons a t ih =>
    obtain ⟨n, y⟩ := a
    simp only [pop, List.filter_cons] at ih ⊢
    by_cases h : n = k
    · subst h
      simp only [ne_eq, not_true_eq_false, decide_false, Bool.false_eq_true, if_false, ih,
        lookup_cons]
      by_cases h1 : e = n
      · subst h1; simp
      · simp [h1]
    · simp only [ne_eq, h, not_false_eq_true, decide_true, if_true, lookup_cons, ih]
      by_cases h1 : e = n
      · subst h1; simp [h]
      · simp [h1]

theorem mem_put {d : List (Attr V)} {k : String} {x : V} {a : Attr V} (h : a ∈ put k x d) :
    a = (k, x) ∨ a ∈ d := by
  induction d with
  | nil => exact .inl (by simpa [put] using h)
  | cons b t ih =>
    simp only [put] at h
    split at h
    · rcases List.mem_cons.1 h with h | h
      · exact .inl h
      · exact .inr (List.mem_cons_of_mem _ h)
    · rcases List.mem_cons.1 h with h | h
      · exact .inr (h ▸ List.mem_cons_self)
      · exact (ih h).imp id (List.mem_cons_of_mem _)

theorem put_new (d : List (Attr V)) (k : String) (x : V) (h : k ∉ d.map (·.1)) :
    put k x d = d ++ [(k, x)] := by
  induction d with
  | nil => rfl
  | cons b t ih =>
    rw [List.map_cons, List.mem_cons, not_or] at h
    simp only [put, if_neg (Ne.symm h.1), ih h.2, List.cons_append]

theorem dictOf_id (l : List (Attr V)) (h : (l.map (·.1)).Nodup) : dictOf l = l := by
  have : ∀ acc : List (Attr V), ((acc ++ l).map (·.1)).Nodup →
      l.foldl (fun d a => put a.1 a.2 d) acc = acc ++ l := by
    clear h
    induction l with
    | nil => intro acc _; simp
    | cons a t ih =>
      intro acc hn
      have hna : a.1 ∉ acc.map (·.1) := by
        rw [List.map_append, List.nodup_append] at hn
        intro hm
        exact hn.2.2 _ hm _ (by simp) rfl
      rw [List.foldl_cons, put_new acc a.1 a.2 hna, ih _ (by simpa using hn)]
      simp
  have := this [] (by simpa using h)
  rw [List.nil_append] at this
  exact this

theorem mem_pop {d : List (Attr V)} {k : String} {a : Attr V} (h : a ∈ pop k d) : a ∈ d :=
  (List.mem_filter.1 h).1

theorem pop_nodup {d : List (Attr V)} (k : String) (h : (d.map (·.1)).Nodup) :
    ((pop k d).map (·.1)).Nodup := by
  rw [List.nodup_iff_pairwise_ne, List.pairwise_map] at h ⊢
  exact h.filter _

theorem put_names (d : List (Attr V)) (k : String) (x : V) :
    (put k x d).map (·.1) = if k ∈ d.map (·.1) then d.map (·.1) else d.map (·.1) ++ [k] := by
  induction d with
  | nil => simp [put]
  | cons a t ih =>
    simp only [put]
    by_cases h : a.1 = k
    · simp [h]
    · simp only [if_neg h, List.map_cons, ih, List.mem_cons]
      by_cases h1 : k ∈ t.map (·.1)
      · simp [h1]
      · simp [h1, Ne.symm h]

theorem put_nodup {d : List (Attr V)} (k : String) (x : V) (h : (d.map (·.1)).Nodup) :
    ((put k x d).map (·.1)).Nodup := by
  rw [put_names]
  split
  · exact h
  · next hk =>
    rw [List.nodup_append]
    refine ⟨h, by simp, ?_⟩
    intro a ha b hb
    simp only [List.mem_singleton] at hb
    subst hb
    intro he
    exact hk (he ▸ ha)

/-! ### One variable -/

/-- The attributes of the variable of xarray, before they are decoded. -/
def rawAttrs (v : Var V) : List (Attr V) :=
  match v.fill with
  | none => v.attrs
  | some f => put "_FillValue" f v.attrs

theorem rawAttrs_nodup {v : Var V} (h : (v.attrs.map (·.1)).Nodup) :
    ((rawAttrs v).map (·.1)).Nodup := by
  unfold rawAttrs
  split
  · exact h
  · exact put_nodup _ _ h

theorem rawAttrs_mem {v : Var V} {a : Attr V} (h : a ∈ rawAttrs v) :
    a ∈ v.attrs ∨ a.1 = "_FillValue" := by
  unfold rawAttrs at h
  split at h
  · exact .inl h
  · rcases mem_put h with h | h
    · exact .inr (h ▸ rfl)
    · exact .inl h

theorem rawAttrs_fill (v : Var V) (f : V) :
    (rawAttrs v).lookup "_FillValue" = some f ↔ FillOf v f := by
  unfold rawAttrs FillOf
  cases v.fill with
  | none => simp
  | some g => simp [lookup_put]

theorem rawAttrs_other (v : Var V) (k : String) (h : k ≠ "_FillValue") :
    (rawAttrs v).lookup k = v.attrs.lookup k := by
  unfold rawAttrs
  cases v.fill with
  | none => rfl
  | some g => simp [lookup_put, h]

/-- The variable of xarray, before it is decoded. -/
def rawVar (v : Var V) : XVar V where
  dims := v.dims
  data := v.array
  attrs := rawAttrs v
  enc := { filters := if v.filters = [] then none else some v.filters
           compressor := v.compressor, fill := none, missing := none, coordinates := none }

theorem toVariable_ok {v : Var V} (hr : v.array.shape.length = v.dims.length)
    (hn : (v.attrs.map (·.1)).Nodup) : toVariable v = .ok (rawVar v) := by
  simp only [toVariable, hr, ne_eq, not_true_eq_false, if_false, dictOf_id _ hn]
  rfl

theorem decodeVar_masked {cf : Cf V} {v : Var V} (hc : Conventional cf v) :
    decodeVar cf true (rawVar v) = decodeMask cf (rawVar v) := by
  have := hc (decodeMask cf (rawVar v)).attrs (decodeMask cf (rawVar v)).data (by
    intro a ha
    exact rawAttrs_mem (mem_pop (mem_pop ha)))
  simp only [decodeVar, if_true, this]

theorem decodeVar_raw {cf : Cf V} {v : Var V} (hc : Conventional cf v) :
    decodeVar cf false (rawVar v) = rawVar v := by
  have := hc (rawVar v).attrs (rawVar v).data (by
    intro a ha
    exact rawAttrs_mem ha)
  simp only [decodeVar, Bool.false_eq_true, if_false, this]

theorem unfill_nanFilled {cf : Cf V} {v : Var V} :
    NanFilled cf v (decodeMask cf (rawVar v)).data := by
  have hm : ∀ f, f ∈ ((rawAttrs v).lookup "_FillValue").toList ++
      ((rawAttrs v).lookup "missing_value").toList ↔ MissingOf v f := by
    intro f
    rw [List.mem_append, Option.mem_toList, Option.mem_toList, rawAttrs_fill,
      rawAttrs_other _ _ (by decide)]
    rfl
  refine ⟨rfl, ?_, ?_, ?_⟩
  · intro idx e f he hf heq
    show Option.map _ (v.array.get idx) = _
    rw [he, Option.map_some, if_pos]
    exact List.any_eq_true.2 ⟨f, (hm f).2 hf, heq⟩
  · intro idx e he hne
    show Option.map _ (v.array.get idx) = _
    rw [he, Option.map_some, if_neg]
    intro hany
    obtain ⟨f, h1, h2⟩ := List.any_eq_true.1 hany
    have := hne f ((hm f).1 h1)
    rw [h2] at this
    cases this
  · intro idx he
    show Option.map _ (v.array.get idx) = _
    rw [he]
    rfl

theorem decodeMask_lookup (cf : Cf V) (v : Var V) (k : String) (h1 : k ≠ "_FillValue")
    (h2 : k ≠ "missing_value") :
    (decodeMask cf (rawVar v)).attrs.lookup k = v.attrs.lookup k := by
  show (pop _ (pop _ (rawAttrs v))).lookup k = _
  rw [lookup_pop, if_neg h2, lookup_pop, if_neg h1, rawAttrs_other v k h1]

theorem decodeMask_reserved (cf : Cf V) (v : Var V) :
    (decodeMask cf (rawVar v)).attrs.lookup "_FillValue" = none ∧
    (decodeMask cf (rawVar v)).attrs.lookup "missing_value" = none := by
  constructor
  · show (pop _ (pop _ (rawAttrs v))).lookup _ = _
    rw [lookup_pop, if_neg (by decide), lookup_pop, if_pos rfl]
  · show (pop _ (pop _ (rawAttrs v))).lookup _ = _
    rw [lookup_pop, if_pos rfl]

/-- The attribute `coordinates` apart, decoding coordinates changes nothing. -/
theorem decodeCoords_spec {cf : Cf V} {names : List String} {x y : XVar V} {l : List String}
    (h : decodeCoords cf names x = .ok (y, l)) :
    y.dims = x.dims ∧ y.data = x.data ∧
      (∀ k, k ≠ "coordinates" → y.attrs.lookup k = x.attrs.lookup k) ∧
      y.enc.fill = x.enc.fill ∧ y.enc.compressor = x.enc.compressor ∧
      y.enc.filters = x.enc.filters ∧ (∀ a ∈ y.attrs, a ∈ x.attrs) ∧
      ((x.attrs.map (·.1)).Nodup → (y.attrs.map (·.1)).Nodup) ∧
      (∀ n, n ∈ l ↔ ∃ c w, x.attrs.lookup "coordinates" = some c ∧ cf.words c = some w ∧ n ∈ w ∧
        ∀ m ∈ w, m ∈ names) ∧
      (x.attrs.lookup "coordinates" = none → y = x) := by
  simp only [decodeCoords] at h
  cases hc : x.attrs.lookup "coordinates" with
  | none =>
    rw [hc] at h
    cases h
    exact ⟨rfl, rfl, fun _ _ => rfl, rfl, rfl, rfl, fun _ h => h, fun h => h, by simp, fun _ => rfl⟩
  | some c =>
    rw [hc] at h
    cases hw : cf.words c with
    | none => simp only [hw] at h; cases h
    | some w =>
      simp only [hw] at h
      split at h
      · next hall =>
        cases h
        refine ⟨rfl, rfl, fun k hk => ?_, rfl, rfl, rfl, fun a ha => mem_pop ha,
          fun hn => pop_nodup _ hn, fun n => ?_, fun h => by cases h⟩
        · simp only [lookup_pop, if_neg hk]
        · constructor
          · intro hn
            refine ⟨c, _, rfl, hw, hn, fun m hm => ?_⟩
            simpa using List.all_eq_true.1 hall m hm
          · rintro ⟨c', w', h1, h2, h3, _⟩
            cases h1
            rw [hw] at h2
            cases h2
            exact h3
      · next hall =>
        cases h
        refine ⟨rfl, rfl, fun _ _ => rfl, rfl, rfl, rfl, fun _ h => h, fun h => h, fun n => ?_,
          fun _ => rfl⟩
        constructor
        · intro hn; cases hn
        · rintro ⟨c', w', h1, h2, _, h4⟩
          cases h1
          rw [hw] at h2
          cases h2
          exact absurd (List.all_eq_true.2 fun m hm => decide_eq_true (h4 m hm)) hall

/-- An attribute `coordinates` that is left names another thing than the variables. -/
theorem decodeCoords_left {cf : Cf V} {names : List String} {x y : XVar V} {l : List String}
    (h : decodeCoords cf names x = .ok (y, l)) {c : V}
    (hc : y.attrs.lookup "coordinates" = some c) :
    ∃ w, cf.words c = some w ∧ w.all (fun n => decide (n ∈ names)) ≠ true := by
  simp only [decodeCoords] at h
  cases hx : x.attrs.lookup "coordinates" with
  | none =>
    rw [hx] at h
    cases h
    rw [hx] at hc
    cases hc
  | some c' =>
    rw [hx] at h
    cases hw : cf.words c' with
    | none => simp only [hw] at h; cases h
    | some w =>
      simp only [hw] at h
      split at h
      · cases h
        simp only [lookup_pop, if_true] at hc
        cases hc
      · next hall =>
        cases h
        rw [hx] at hc
        cases hc
        exact ⟨w, hw, hall⟩

/-- Such an attribute is left again. -/
theorem decodeCoords_keep {cf : Cf V} {names : List String} {x : XVar V}
    (hx : ∀ c, x.attrs.lookup "coordinates" = some c →
      ∃ w, cf.words c = some w ∧ w.all (fun n => decide (n ∈ names)) ≠ true) :
    decodeCoords cf names x = .ok (x, []) := by
  simp only [decodeCoords]
  cases hc : x.attrs.lookup "coordinates" with
  | none => rfl
  | some c =>
    obtain ⟨w, h1, h2⟩ := hx c hc
    simp only [h1, if_neg h2]

theorem decodeCoords_ok (cf : Cf V) (names : List String) (x : XVar V)
    (h : ∀ c, x.attrs.lookup "coordinates" = some c → ∃ l, cf.words c = some l) :
    ∃ r, decodeCoords cf names x = .ok r := by
  simp only [decodeCoords]
  cases hc : x.attrs.lookup "coordinates" with
  | none => exact ⟨_, rfl⟩
  | some c =>
    obtain ⟨l, hl⟩ := h c hc
    simp only [hl]
    split
    · exact ⟨_, rfl⟩
    · exact ⟨_, rfl⟩

/-! ### The dimensions -/

theorem checkVars_ok (vars : List (String × XVar V)) (dims big : List (String × Nat))
    (hsub : Extends dims big)
    (hn : ∀ t ∈ vars, t.1 ∈ t.2.dims → t.2.dims.length = 1)
    (hs : ∀ t ∈ vars, ∀ (i : Nat) (d : String), t.2.dims[i]? = some d →
      ∃ n, t.2.data.shape[i]? = some n ∧ big.lookup d = some n) :
    checkVars dims vars = .ok () := by
  induction vars generalizing dims with
  | nil => rfl
  | cons t l ih =>
    obtain ⟨d1, h1, h2⟩ := addDims_ok t.2.dims t.2.data.shape dims big hsub (hs t (by simp))
    have hno : ¬ (t.1 ∈ t.2.dims ∧ t.2.dims.length ≠ 1) := fun h => h.2 (hn t (by simp) h.1)
    obtain ⟨n, x⟩ := t
    simp only [checkVars, if_neg hno, h1, bind, Except.bind]
    exact ih d1 h2 (fun t ht => hn t (by simp [ht])) fun t ht => hs t (by simp [ht])

theorem checkVars_named {vars : List (String × XVar V)} {dims : List (String × Nat)}
    (h : checkVars dims vars = .ok ()) :
    ∀ t ∈ vars, t.1 ∈ t.2.dims → t.2.dims.length = 1 := by
  induction vars generalizing dims with
  | nil => intro t ht; cases ht
  | cons t l ih =>
    obtain ⟨n, x⟩ := t
    simp only [checkVars, bind, Except.bind] at h
    split at h
    · cases h
    · next hno =>
      split at h
      · cases h
      · next d1 hd =>
        intro t ht
        rcases List.mem_cons.1 ht with rfl | ht
        · intro hm
          exact Classical.byContradiction fun hc => hno ⟨hm, hc⟩
        · exact ih h t ht

end Xr

end Verif
