import Verif.Lemmas.Meta

/-! C18: metadata round trip; C48: metadata guards insertion. -/

namespace Verif

open Spec Meta

/-! ### C18 -/

/-- C18: equality of metadata ignores the order of variables and attributes and nothing
else. -/
theorem C18_equality (a b : Ds) (ha : WellFormed a) (hb : WellFormed b) :
    a.eq b = true ↔ SameMeta a b :=
  eq_iff_sameMeta a b ha hb

/-- C18, full statement: metadata stored in the configuration and read back are equal to the
original. -/
def C18_full : Prop := ∀ d : Ds, WellFormed d → (Ds.fromConfig d.getConfig).eq d = true

/-- C18 is violated by the code: an attribute whose value is a tuple comes back as a list,
and the metadata read back differ from the original. -/
theorem C18_counterexample : ¬ C18_full := by
  intro h
  have := h ⟨[], [], [("range", .tuple ["0", "1"])], [], 1⟩ (by
    refine ⟨by simp, by simp, by simp, by simp⟩)
  revert this
  decide

theorem json_attrs (l : List Attr) (h : ∀ a ∈ l, ∀ t, a.2 ≠ .tuple t) :
    l.map (fun a => (a.1, a.2.json)) = l := by
  induction l with
  | nil => rfl
  | cons a t ih =>
    rw [List.map_cons, ih fun x hx => h x (List.mem_cons_of_mem _ hx)]
    congr 1
    obtain ⟨n, v⟩ := a
    cases v with
    | scalar s => rfl
    | list l => rfl
    | tuple l => exact absurd rfl (h _ List.mem_cons_self l)

/-- C18: without tuples in the values of attributes, the metadata read back are equal to
the original.  Missing for C18: tuples. -/
theorem C18_round_trip_partial (d : Ds) (hd : WellFormed d)
    (hattrs : ∀ a ∈ d.attrs, ∀ t, a.2 ≠ .tuple t)
    (hvars : ∀ v ∈ d.vars, ∀ a ∈ v.attrs, ∀ t, a.2 ≠ .tuple t) :
    SameMeta (Ds.fromConfig d.getConfig) d ∧ (Ds.fromConfig d.getConfig).eq d = true := by
  obtain ⟨h1, h2, h3, h4⟩ := hd
  have hpa : (sortAttrs d.attrs).Perm d.attrs := Sort.isort_perm _
  have e1 : (sortAttrs d.attrs).map (fun a => (a.1, a.2.json)) = sortAttrs d.attrs :=
    json_attrs _ fun a ha => hattrs a (hpa.mem_iff.1 ha)
  have hpv : (sortVars d.vars).Perm d.vars := Sort.isort_perm _
  have e2 : (List.map Var.getConfig (sortVars d.vars)).map Var.fromConfig =
      (sortVars d.vars).map Var.getConfig := by
    rw [List.map_map]
    apply List.map_congr_left
    intro v hv
    have hv' := hpv.mem_iff.1 hv
    have hp : (sortAttrs v.attrs).Perm v.attrs := Sort.isort_perm _
    simp only [Function.comp, Var.fromConfig, Var.getConfig]
    rw [json_attrs _ fun a ha => hvars v hv' a (hp.mem_iff.1 ha)]
  have hn : (((sortVars d.vars).map Var.getConfig).map (·.name)).Nodup := by
    rw [List.map_map]
    exact ((hpv.map (·.name)).nodup_iff).2 h1
  have e3 : Ds.fromConfig d.getConfig =
      ⟨d.dims, (sortVars d.vars).map Var.getConfig, sortAttrs d.attrs, d.chunks, d.limit⟩ := by
    have e4 : dictOf [] ((sortVars d.vars).map Var.getConfig) =
        (sortVars d.vars).map Var.getConfig := by
      rw [dictOf_nodup [] _ (by rw [List.nil_append]; exact hn), List.nil_append]
    unfold Ds.fromConfig Ds.getConfig mkDs
    simp only [e1, e2, e4]
  have hs : ∀ v : Var, SameVarMeta v.getConfig v := fun v =>
    ⟨rfl, rfl, rfl, Sort.isort_perm _, rfl, rfl, rfl⟩
  have hsame : SameMeta (Ds.fromConfig d.getConfig) d := by
    rw [e3]
    refine ⟨rfl, rfl, rfl, hpa, ?_, ?_⟩
    · intro v hv
      obtain ⟨w, hw, rfl⟩ := List.mem_map.1 hv
      exact ⟨w, hpv.mem_iff.1 hw, hs w⟩
    · intro w hw
      exact ⟨w.getConfig, List.mem_map_of_mem (hpv.mem_iff.2 hw), hs w⟩
  refine ⟨hsame, (eq_iff_sameMeta _ _ ?_ ⟨h1, h2, h3, h4⟩).2 hsame⟩
  rw [e3]
  refine ⟨hn, ?_, ?_, h4⟩
  · exact ((hpa.map (·.1)).nodup_iff).2 h2
  · intro v hv
    obtain ⟨w, hw, rfl⟩ := List.mem_map.1 hv
    have hp : (sortAttrs w.attrs).Perm w.attrs := Sort.isort_perm _
    exact ((hp.map (·.1)).nodup_iff).2 (h3 w (hpv.mem_iff.1 hw))

/-- C18: the limit of the metadata that are built is never zero, as the round trip requires;
it is the limit that is given, if this is not zero, and otherwise that of a dataset built without
limit. -/
theorem C18_limit (dims : List String) (vars : List Var) (attrs : List Attr)
    (chunks : List (String × Int)) (limit : Option Nat) :
    (mkDs dims vars attrs chunks limit).limit ≠ 0 ∧
    (∀ n, limit = some n → n ≠ 0 → (mkDs dims vars attrs chunks limit).limit = n) ∧
    (limit = some 0 → (mkDs dims vars attrs chunks limit).limit = 128 * 1024 * 1024) ∧
    (limit = none → (mkDs dims vars attrs chunks limit).limit = 128 * 1024 * 1024) := by
  cases limit with
  | none => exact ⟨nofun, nofun, nofun, fun _ => rfl⟩
  | some n =>
    cases n with
    | zero => exact ⟨nofun, fun n h hn => by cases h; exact absurd rfl hn, fun _ => rfl, nofun⟩
    | succ n =>
      exact ⟨Nat.succ_ne_zero n, fun m h _ => by cases h; rfl, nofun, nofun⟩

/-- Metadata with two variables. -/
def c18Example : Ds :=
  ⟨["x"], [⟨"time", "<M8[ns]", ["x"], [("b", .scalar "1"), ("a", .list ["2"])], none, none, []⟩,
    ⟨"ssh", "<f8", ["x"], [], some "zstd", some "NaN", ["shuffle"]⟩], [("t", .scalar "u")],
    [("x", 100)], 4⟩

example : WellFormed c18Example := by
  refine ⟨by decide, by decide, ?_, by decide⟩
  intro v hv
  simp only [c18Example, List.mem_cons, List.not_mem_nil, or_false] at hv
  rcases hv with rfl | rfl <;> decide

example : (Ds.fromConfig c18Example.getConfig).vars.map (·.name) = ["ssh", "time"] := by
  decide +kernel

/-! ### C48 -/

/-- What an insertion with validation accepts, according to C48: every variable of the
dataset is known, the missing ones can be completed, and the completed variables and the
properties of the dataset are those of the collection, in any order. -/
def Accepted (self ds : Ds) : Prop :=
  (∀ v ∈ ds.vars, ∃ w ∈ self.vars, SameVarMeta v w) ∧
  (∀ w ∈ self.vars, (∃ v ∈ ds.vars, v.name = w.name) ∨ ∀ d ∈ w.dims, d ∈ ds.dims) ∧
  ds.attrs.Perm self.attrs ∧ ds.chunks = self.chunks ∧ ds.limit = self.limit

/-- C48, full statement: the order in which the dataset was built does not matter. -/
def C48_full : Prop :=
  ∀ (self : Ds) (vars : List Var) (attrs : List Attr) (chunks : List (String × Int))
    (limit : Option Nat), WellFormed self → WellFormed (dsMeta vars attrs chunks limit) →
    (∀ d, d ∈ self.dims ↔ ∃ v ∈ self.vars, d ∈ v.dims) →
    ((∃ ds', insertCheck self (dsMeta vars attrs chunks limit) true = .ok ds') ↔
      Accepted self (dsMeta vars attrs chunks limit))

/-- C48 is violated by the code: the names of the dimensions are compared in the order in
which the variables use them, so a dataset with the same variables in another order is
refused. -/
theorem C48_counterexample : ¬ C48_full := by
  intro h
  let a : Var := ⟨"a", "<f8", ["x"], [], none, none, []⟩
  let b : Var := ⟨"b", "<f8", ["y"], [], none, none, []⟩
  have h1 := h (dsMeta [a, b] [] [] none) [b, a] [] [] none
    (by refine ⟨by decide, by decide, ?_, by decide⟩; decide)
    (by refine ⟨by decide, by decide, ?_, by decide⟩; decide)
    (by
      intro d
      have e : (dsMeta [a, b] [] [] none).dims = ["x", "y"] := by decide
      have e' : (dsMeta [a, b] [] [] none).vars = [a, b] := by decide
      rw [e, e']
      simp [a, b])
  have h2 : Accepted (dsMeta [a, b] [] [] none) (dsMeta [b, a] [] [] none) := by
    have e : (dsMeta [a, b] [] [] none).vars = [a, b] := by decide
    have e' : (dsMeta [b, a] [] [] none).vars = [b, a] := by decide
    have hs : ∀ v, SameVarMeta v v := fun v => ⟨rfl, rfl, rfl, .refl _, rfl, rfl, rfl⟩
    refine ⟨?_, ?_, .refl _, rfl, rfl⟩
    · rw [e, e']
      intro v hv
      exact ⟨v, by simpa [or_comm] using hv, hs v⟩
    · rw [e, e']
      intro v hv
      exact .inl ⟨v, by simpa [or_comm] using hv, rfl⟩
  obtain ⟨ds', h3⟩ := h1.2 h2
  revert h3
  have : insertCheck (dsMeta [a, b] [] [] none) (dsMeta [b, a] [] [] none) true =
    .error .valueError := by decide
  rw [this]
  simp

theorem addAll_ok_iff (d : Ds) (l : List Var) :
    (∃ d', addAll d l = .ok d') ↔ ∀ v ∈ l, ∀ x ∈ v.dims, x ∈ d.dims := by
  induction l generalizing d with
  | nil => simp [addAll]
  | cons v t ih =>
    simp only [addAll, addMissing, bind, Except.bind]
    by_cases h : v.dims.all (· ∈ d.dims) = true
    · rw [if_pos h]
      have := ih { d with vars := d.vars ++ [v] }
      simp only at this
      rw [this]
      simp only [List.all_eq_true, decide_eq_true_eq] at h
      rw [List.forall_mem_cons]
      exact ⟨fun hh => ⟨h, hh⟩, fun hh => hh.2⟩
    · rw [if_neg h]
      simp only [List.all_eq_true, decide_eq_true_eq] at h
      rw [List.forall_mem_cons]
      simp only [reduceCtorEq, exists_false, false_iff]
      exact fun hh => h hh.1

theorem addAll_eq (d d' : Ds) (l : List Var) (h : addAll d l = .ok d') :
    d' = { d with vars := d.vars ++ l } := by
  induction l generalizing d with
  | nil => simpa [addAll, eq_comm] using h
  | cons v t ih =>
    simp only [addAll, addMissing, bind, Except.bind] at h
    split at h
    · simp at h
    · next d2 hd2 =>
      split at hd2
      · cases hd2
        rw [ih _ h]
        simp
      · simp at hd2

theorem sameVar_unique {l : List Var} (hl : (l.map (·.name)).Nodup) {v w : Var} (hv : v ∈ l)
    (hw : w ∈ l) (h : v.name = w.name) : v = w := by
  induction l with
  | nil => simp at hv
  | cons x t ih =>
    rw [List.map_cons, List.nodup_cons] at hl
    rcases List.mem_cons.1 hv with rfl | hv2
    · rcases List.mem_cons.1 hw with rfl | hw2
      · rfl
      · exact absurd (List.mem_map.2 ⟨w, hw2, h.symm⟩) hl.1
    · rcases List.mem_cons.1 hw with rfl | hw2
      · exact absurd (List.mem_map.2 ⟨v, hv2, h⟩) hl.1
      · exact ih hl.2 hv2 hw2

/-- C48: with validation, an insertion accepts exactly the datasets whose known variables and
properties are those of the collection, provided the names of the dimensions come in the
same order.  Missing for C48: datasets whose variables use the dimensions in another order
(refused even if everything else is equal). -/
theorem C48_validate_partial (self ds : Ds) (hs : WellFormed self) (hd : WellFormed ds)
    (hdims : ds.dims = self.dims) :
    (∃ ds', insertCheck self ds true = .ok ds') ↔ Accepted self ds := by
  have hkey : ∀ m, missingVariables self ds = .ok m →
      (m = self.vars.filter fun v => v.name ∉ ds.vars.map (·.name)) ∧
      ∀ v ∈ ds.vars, v.name ∈ self.vars.map (·.name) := by
    intro m hm
    unfold missingVariables at hm
    split at hm
    · next h =>
      refine ⟨(Except.ok.inj hm).symm, ?_⟩
      simpa using h
    · simp at hm
  -- the completed dataset
  have hcompl : ∀ ds' : Ds, ds' = { ds with
      vars := ds.vars ++ self.vars.filter fun (v : Var) => v.name ∉ ds.vars.map Var.name } →
      (∀ v ∈ ds.vars, v.name ∈ self.vars.map (·.name)) →
      (ds'.eq self = true ↔ (∀ v ∈ ds.vars, ∃ w ∈ self.vars, SameVarMeta v w) ∧
        ds.attrs.Perm self.attrs ∧ ds.chunks = self.chunks ∧ ds.limit = self.limit) := by
    intro ds' he hnames
    have hwf : WellFormed ds' := by
      subst he
      refine ⟨?_, hd.2.1, ?_, hd.2.2.2⟩
      · simp only [List.map_append]
        rw [List.nodup_append]
        refine ⟨hd.1, hs.1.sublist (List.filter_sublist.map _), ?_⟩
        intro a ha b hb hab
        subst hab
        obtain ⟨w, hw, rfl⟩ := List.mem_map.1 hb
        rw [List.mem_filter] at hw
        simp only [decide_eq_true_eq] at hw
        exact hw.2 ha
      · intro v hv
        rcases List.mem_append.1 hv with hv | hv
        · exact hd.2.2.1 v hv
        · exact hs.2.2.1 v (List.mem_filter.1 hv).1
    rw [eq_iff_sameMeta _ _ hwf hs]
    subst he
    have hrefl : ∀ v, SameVarMeta v v := fun v => ⟨rfl, rfl, rfl, .refl _, rfl, rfl, rfl⟩
    constructor
    · rintro ⟨_, h2, h3, h4, h5, _⟩
      exact ⟨fun v hv => h5 v (List.mem_append_left _ hv), h4, h2, h3⟩
    · rintro ⟨h1, h4, h2, h3⟩
      refine ⟨hdims, h2, h3, h4, ?_, ?_⟩
      · intro v hv
        rcases List.mem_append.1 hv with hv | hv
        · exact h1 v hv
        · exact ⟨v, (List.mem_filter.1 hv).1, hrefl v⟩
      · intro w hw
        by_cases hin : w.name ∈ ds.vars.map (·.name)
        · obtain ⟨v, hv, hn⟩ := List.mem_map.1 hin
          obtain ⟨w', hw', hsv⟩ := h1 v hv
          have : w' = w := sameVar_unique hs.1 hw' hw (by rw [← hsv.1, hn])
          subst this
          exact ⟨v, List.mem_append_left _ hv, hsv⟩
        · exact ⟨w, List.mem_append_right _ (List.mem_filter.2 ⟨hw, by simpa using hin⟩), hrefl w⟩
  constructor
  · rintro ⟨ds', h⟩
    simp only [insertCheck, bind, Except.bind] at h
    split at h
    · simp at h
    · next m hm =>
      obtain ⟨rfl, hnames⟩ := hkey m hm
      split at h
      · simp at h
      · next d2 hd2 =>
        have he := addAll_eq _ _ _ hd2
        have hok := (addAll_ok_iff ds _).1 ⟨_, hd2⟩
        have heq : d2.eq self = true := by
          cases hx : d2.eq self with
          | true => rfl
          | false => simp [hx] at h
        obtain ⟨h1, h2, h3, h4⟩ := (hcompl d2 he hnames).1 heq
        refine ⟨h1, ?_, h2, h3, h4⟩
        intro w hw
        by_cases hin : w.name ∈ ds.vars.map (·.name)
        · left
          obtain ⟨v, hv, hn⟩ := List.mem_map.1 hin
          exact ⟨v, hv, hn⟩
        · right
          exact hok w (List.mem_filter.2 ⟨hw, by simpa using hin⟩)
  · rintro ⟨h1, h2, h3, h4, h5⟩
    have hnames : ∀ v ∈ ds.vars, v.name ∈ self.vars.map (·.name) := by
      intro v hv
      obtain ⟨w, hw, hsv⟩ := h1 v hv
      exact List.mem_map.2 ⟨w, hw, hsv.1.symm⟩
    have hm : missingVariables self ds =
        .ok (self.vars.filter fun v => v.name ∉ ds.vars.map (·.name)) := by
      unfold missingVariables
      rw [if_pos]
      simpa using hnames
    obtain ⟨d2, hd2⟩ := (addAll_ok_iff ds (self.vars.filter fun v =>
        v.name ∉ ds.vars.map (·.name))).2 (by
      intro w hw
      rw [List.mem_filter] at hw
      rcases h2 w hw.1 with ⟨v, hv, hn⟩ | h
      · exact absurd (List.mem_map.2 ⟨v, hv, hn⟩) (by simpa using hw.2)
      · exact h)
    refine ⟨d2, ?_⟩
    have heq := (hcompl d2 (addAll_eq _ _ _ hd2) hnames).2 ⟨h1, h3, h4, h5⟩
    simp only [insertCheck, bind, Except.bind, hm, hd2, heq, Bool.not_true, Bool.and_false,
      Bool.false_eq_true, if_false, pure, Except.pure]

/-- C48: a variable unknown to the collection is refused, with and without validation. -/
theorem C48_unknown_refused (self ds : Ds) (validate : Bool) (v : Var) (hv : v ∈ ds.vars)
    (hn : ∀ w ∈ self.vars, w.name ≠ v.name) :
    insertCheck self ds validate = .error .valueError := by
  have : missingVariables self ds = .error .valueError := by
    unfold missingVariables
    rw [if_neg]
    intro h
    rw [List.all_eq_true] at h
    have := h v hv
    simp only [decide_eq_true_eq, List.mem_map] at this
    obtain ⟨w, hw, he⟩ := this
    exact hn w hw he
  simp only [insertCheck, this, bind, Except.bind]

/-- C48: the dataset that is inserted has exactly the variables of the collection, and its
own variables come first, unchanged. -/
theorem C48_completed (self ds ds' : Ds) (validate : Bool)
    (h : insertCheck self ds validate = .ok ds') :
    (∃ added, ds'.vars = ds.vars ++ added ∧ ∀ v ∈ added, v ∈ self.vars) ∧
      ∀ n, n ∈ ds'.vars.map (·.name) ↔ n ∈ self.vars.map (·.name) := by
  simp only [insertCheck, bind, Except.bind] at h
  split at h
  · simp at h
  · next m hm =>
    split at h
    · simp at h
    · next d2 hd2 =>
      have hds : d2 = ds' := by
        split at h
        · simp at h
        · exact Except.ok.inj h
      subst hds
      have he := addAll_eq _ _ _ hd2
      unfold missingVariables at hm
      split at hm
      · next hall =>
        cases hm
        subst he
        refine ⟨⟨_, rfl, fun v hv => (List.mem_filter.1 hv).1⟩, ?_⟩
        intro n
        simp only [List.map_append, List.mem_append]
        rw [List.all_eq_true] at hall
        constructor
        · rintro (hn | hn)
          · obtain ⟨v, hv, rfl⟩ := List.mem_map.1 hn
            simpa using hall v hv
          · obtain ⟨v, hv, rfl⟩ := List.mem_map.1 hn
            exact List.mem_map_of_mem (List.mem_filter.1 hv).1
        · intro hn
          by_cases hin : n ∈ ds.vars.map (·.name)
          · exact .inl hin
          · right
            obtain ⟨v, hv, rfl⟩ := List.mem_map.1 hn
            exact List.mem_map_of_mem (List.mem_filter.2 ⟨hv, by simpa using hin⟩)
      · simp at hm

/-- C48, finding: without validation (the default) a dataset whose variable has another type
is accepted. -/
theorem C48_default_counterexample :
    let self := dsMeta [⟨"a", "<f8", ["x"], [], none, none, []⟩] [] [] none
    let ds := dsMeta [⟨"a", "<i4", ["x"], [], none, none, []⟩] [] [] none
    (∃ ds', insertCheck self ds false = .ok ds') ∧
      insertCheck self ds true = .error .valueError := by
  refine ⟨⟨_, rfl⟩, by decide⟩

example : ∃ ds', insertCheck c18Example
    ⟨["x"], [⟨"time", "<M8[ns]", ["x"], [("a", .list ["2"]), ("b", .scalar "1")], none, none, []⟩],
      [("t", .scalar "u")], [("x", 100)], 4⟩ true = .ok ds' := by
  rw [C48_validate_partial]
  · refine ⟨?_, ?_, .refl _, rfl, rfl⟩
    · intro v hv
      simp only [List.mem_singleton] at hv
      subst hv
      refine ⟨_, List.mem_cons_self, rfl, rfl, rfl, ?_, rfl, rfl, rfl⟩
      exact List.Perm.swap _ _ _
    · intro w hw
      simp only [c18Example, List.mem_cons, List.not_mem_nil, or_false] at hw
      rcases hw with rfl | rfl <;> simp
  · refine ⟨by decide, by decide, ?_, by decide⟩
    intro v hv
    simp only [c18Example, List.mem_cons, List.not_mem_nil, or_false] at hv
    rcases hv with rfl | rfl <;> decide
  · refine ⟨by decide, by decide, ?_, by decide⟩
    intro v hv
    simp only [List.mem_singleton] at hv
    subst hv
    decide
  · rfl

theorem foldl_dims (l acc : List String) (h : acc.Nodup) :
    (l.foldl (fun a d => if d ∈ a then a else a ++ [d]) acc).Nodup ∧
      ∀ d, d ∈ l.foldl (fun a d => if d ∈ a then a else a ++ [d]) acc ↔ d ∈ acc ∨ d ∈ l := by
  induction l generalizing acc with
  | nil => exact ⟨h, by simp⟩
  | cons x t ih =>
    rw [List.foldl_cons]
    by_cases hx : x ∈ acc
    · rw [if_pos hx]
      obtain ⟨h1, h2⟩ := ih acc h
      refine ⟨h1, fun d => ?_⟩
      rw [h2, List.mem_cons]
      constructor
      · rintro (h | h)
        · exact .inl h
        · exact .inr (.inr h)
      · rintro (h | rfl | h)
        · exact .inl h
        · exact .inl hx
        · exact .inr h
    · rw [if_neg hx]
      obtain ⟨h1, h2⟩ := ih (acc ++ [x]) (by
        rw [List.nodup_append]
        refine ⟨h, by simp, ?_⟩
        rintro a ha b hb rfl
        exact hx (List.mem_singleton.1 hb ▸ ha))
      refine ⟨h1, fun d => ?_⟩
      rw [h2, List.mem_append, List.mem_singleton, List.mem_cons, or_assoc]

theorem dimsOf_spec (vars : List Var) (acc : List String) (h : acc.Nodup) :
    (dimsOf acc vars).Nodup ∧ ∀ d, d ∈ dimsOf acc vars ↔ d ∈ acc ∨ ∃ v ∈ vars, d ∈ v.dims := by
  induction vars generalizing acc with
  | nil => exact ⟨h, by simp [dimsOf]⟩
  | cons v t ih =>
    obtain ⟨h1, h2⟩ := foldl_dims v.dims acc h
    obtain ⟨h3, h4⟩ := ih _ h1
    refine ⟨h3, fun d => ?_⟩
    rw [dimsOf, h4, h2, or_assoc]
    simp only [List.mem_cons, exists_eq_or_imp]

theorem dictOf_distinct (vars acc : List Var) (h : ((acc ++ vars).map (·.name)).Nodup) :
    dictOf acc vars = acc ++ vars := by
  induction vars generalizing acc with
  | nil => simp [dictOf]
  | cons v t ih =>
    have hv : v.name ∉ acc.map (·.name) := by
      rw [List.map_append, List.nodup_append] at h
      exact fun hm => h.2.2 _ hm v.name (by simp) rfl
    rw [dictOf, if_neg hv, ih (acc ++ [v]) (by simpa using h)]
    simp

/-- C48: the metadata of a dataset have its variables, attributes and sizes of chunks, the
dimensions of its variables, each once, and the limit of the size of blocks, 128 MiB if none was
given; with or without validation, a collection made from a dataset accepts this dataset. -/
theorem C48_own (vars : List Var) (attrs : List Attr) (chunks : List (String × Int))
    (limit : Option Nat) (validate : Bool) (hn : (vars.map (·.name)).Nodup) :
    let m := dsMeta vars attrs chunks limit
    m.vars = vars ∧ m.attrs = attrs ∧ m.chunks = chunks ∧ m.dims.Nodup ∧
      (∀ d, d ∈ m.dims ↔ ∃ v ∈ vars, d ∈ v.dims) ∧
      (m.limit = match limit with | some (n + 1) => n + 1 | _ => 128 * 1024 * 1024) ∧
      insertCheck m m validate = .ok m := by
  have hd := dictOf_distinct vars [] (by simpa using hn)
  rw [List.nil_append] at hd
  obtain ⟨h1, h2⟩ := dimsOf_spec vars [] (by simp)
  have hm : missingVariables (dsMeta vars attrs chunks limit) (dsMeta vars attrs chunks limit) =
      .ok [] := by
    unfold missingVariables
    rw [if_pos (List.all_eq_true.2 fun v hv => by simpa using ⟨v, hv, rfl⟩)]
    congr 1
    rw [List.filter_eq_nil_iff]
    intro v hv
    simpa using ⟨v, hv, rfl⟩
  refine ⟨hd, rfl, rfl, ?_, fun d => ?_, ?_, ?_⟩
  · simp only [dsMeta, mkDs, hd]
    exact h1
  · simp only [dsMeta, mkDs, hd]
    rw [h2]
    simp
  · match limit with
    | none => rfl
    | some 0 => rfl
    | some (n + 1) => rfl
  · simp only [insertCheck, hm, addAll, bind, Except.bind]
    cases validate <;> simp [Ds.eq, pure, Except.pure]

example : insertCheck (dsMeta [⟨"a", "<f8", ["x", "y"], [], none, none, []⟩,
      ⟨"b", "<f8", ["y"], [], none, none, []⟩] [("t", .scalar "u")] [("x", 10)] none)
    (dsMeta [⟨"a", "<f8", ["x", "y"], [], none, none, []⟩,
      ⟨"b", "<f8", ["y"], [], none, none, []⟩] [("t", .scalar "u")] [("x", 10)] none) true =
    .ok (dsMeta [⟨"a", "<f8", ["x", "y"], [], none, none, []⟩,
      ⟨"b", "<f8", ["y"], [], none, none, []⟩] [("t", .scalar "u")] [("x", 10)] none) :=
  (C48_own _ _ _ _ true (by decide)).2.2.2.2.2.2

end Verif
