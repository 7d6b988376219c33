import Verif.Lemmas.Attributes

/-! C65: the attributes of the variables and of the datasets. -/

namespace Verif

open Spec Meta Ds

variable {P : Type}

/-! ### The files of attributes -/

/-- C65: the attributes written with a variable are read back, with its dimensions; tuples
become lists. -/
theorem C65_zattrs_partial (name : String) (attrs : List Attr) (dims : List String)
    (hd : (attrs.map (·.1)).Nodup) (hk : "_ARRAY_DIMENSIONS" ∉ attrs.map (·.1)) :
    At.readZattrs name (At.writeZattrs attrs dims) =
      .ok ⟨name, dims, attrs.map fun a => (a.1, a.2.json)⟩ := by
  have h1 : At.writeZattrs attrs dims =
      (attrs.map fun a => (a.1, a.2.json)) ++ [("_ARRAY_DIMENSIONS", AttrVal.list dims)] := by
    rw [At.writeZattrs, dictOf_id _ hd, put_new At.dimKey (.tuple dims) attrs hk]
    simp only [At.json, List.map_append]
    rfl
  have h2 : ((attrs.map fun a => (a.1, a.2.json)) ++
      [("_ARRAY_DIMENSIONS", AttrVal.list dims)]).lookup At.dimKey = some (.list dims) := by
    rw [List.lookup_append]
    have : (attrs.map fun a => (a.1, a.2.json)).lookup At.dimKey = none := by
      rw [List.lookup_eq_none_iff]
      intro a ha
      obtain ⟨b, hb, rfl⟩ := List.mem_map.1 ha
      simp only [ne_eq, bne_iff_ne]
      exact fun he => hk (show At.dimKey ∈ _ from he ▸ List.mem_map_of_mem hb)
    rw [this]
    rfl
  rw [At.readZattrs, h1, h2]
  simp only [List.filter_append]
  congr 2
  have h3 : (attrs.map fun a => (a.1, a.2.json)).filter (fun a => decide (a.1 ≠ At.dimKey)) =
      attrs.map fun a => (a.1, a.2.json) := by
    rw [List.filter_eq_self]
    intro a ha
    obtain ⟨b, hb, rfl⟩ := List.mem_map.1 ha
    exact decide_eq_true fun he : b.1 = At.dimKey =>
      hk (show At.dimKey ∈ _ from he ▸ List.mem_map_of_mem hb)
  rw [h3]
  simp [At.dimKey]

example : At.readZattrs "v" (At.writeZattrs [("units", .scalar "m"), ("range", .tuple ["0", "1"])]
    ["x"]) = .ok ⟨"v", ["x"], [("units", .scalar "m"), ("range", .list ["0", "1"])]⟩ :=
  C65_zattrs_partial _ _ _ (by decide) (by decide)

theorem attrs_put_lookup (k : String) (v : AttrVal) (d : List Attr) (n : String) :
    (At.put k v d).lookup n = if n = k then some v else d.lookup n := by
  induction d with
  | nil =>
    by_cases h : n = k
    · subst h; simp [At.put]
    · have : (n == k) = false := beq_eq_false_iff_ne.2 h
      simp [At.put, List.lookup, this, h]
  | cons a t ih =>
    obtain ⟨ak, av⟩ := a
    by_cases hak : ak = k
    · subst hak
      simp only [At.put, if_true]
      by_cases h : n = ak
      · subst h; simp [List.lookup]
      · have : (n == ak) = false := beq_eq_false_iff_ne.2 h
        simp [List.lookup, this, h]
    · simp only [At.put, if_neg hak]
      by_cases h : n = ak
      · subst h; simp [List.lookup, hak]
      · have : (n == ak) = false := beq_eq_false_iff_ne.2 h
        simp only [List.lookup, this, ih]

theorem attrs_put_names (k : String) (v : AttrVal) (d : List Attr) :
    (At.put k v d).map (·.1) = if k ∈ d.map (·.1) then d.map (·.1) else d.map (·.1) ++ [k] := by
  induction d with
  | nil => rfl
  | cons a t ih =>
    obtain ⟨ak, av⟩ := a
    by_cases hak : ak = k
    · subst hak; simp [At.put]
    · have hka : ¬ k = ak := fun h => hak h.symm
      simp only [At.put, if_neg hak, List.map_cons, ih, List.mem_cons, hka, false_or]
      split <;> rfl

theorem attrs_put_nodup (k : String) (v : AttrVal) {d : List Attr} (h : (d.map (·.1)).Nodup) :
    ((At.put k v d).map (·.1)).Nodup := by
  rw [attrs_put_names]
  split
  · exact h
  · rename_i hk
    exact List.nodup_append.2 ⟨h, by simp, by
      rintro a ha b hb rfl
      exact hk (List.mem_singleton.1 hb ▸ ha)⟩

theorem attrs_dict (l d : List Attr) (h : (d.map (·.1)).Nodup) (n : String) :
    ((l.foldl (fun d a => At.put a.1 a.2 d) d).map (·.1)).Nodup ∧
      (l.foldl (fun d a => At.put a.1 a.2 d) d).lookup n =
        (l.reverse.lookup n).or (d.lookup n) := by
  induction l generalizing d with
  | nil => exact ⟨h, rfl⟩
  | cons a t ih =>
    obtain ⟨h1, h2⟩ := ih (At.put a.1 a.2 d) (attrs_put_nodup _ _ h)
    refine ⟨h1, ?_⟩
    rw [List.foldl_cons, h2, attrs_put_lookup, List.reverse_cons, List.lookup_append]
    by_cases hn : n = a.1
    · subst hn
      cases (t.reverse.lookup a.1) <;> simp [List.lookup]
    · have : (n == a.1) = false := beq_eq_false_iff_ne.2 hn
      cases (t.reverse.lookup n) <;> simp [List.lookup, this, hn]

/-- C65: of the attributes of one name given to a variable, the last one is stored, once. -/
theorem C65_zattrs_last (name : String) (attrs : List Attr) (dims : List String) :
    ∃ v, At.readZattrs name (At.writeZattrs attrs dims) = .ok v ∧ v.name = name ∧ v.dims = dims ∧
      (v.attrs.map (·.1)).Nodup ∧ ∀ n, n ≠ "_ARRAY_DIMENSIONS" →
        v.attrs.lookup n = (attrs.reverse.lookup n).map AttrVal.json := by
  have hj : ∀ (d : List Attr) n, (At.json d).lookup n = (d.lookup n).map AttrVal.json := by
    intro d n
    induction d with
    | nil => rfl
    | cons a t ih =>
      simp only [At.json, List.map_cons] at ih ⊢
      simp only [List.lookup]
      split
      · rfl
      · exact ih
  have hd := fun n => attrs_dict attrs [] (by simp) n
  have hdim : (At.writeZattrs attrs dims).lookup At.dimKey = some (.list dims) := by
    rw [At.writeZattrs, hj, attrs_put_lookup]
    simp [AttrVal.json]
  refine ⟨⟨name, dims, (At.writeZattrs attrs dims).filter fun a => decide (a.1 ≠ At.dimKey)⟩,
    by rw [At.readZattrs, hdim], rfl, rfl, ?_, ?_⟩
  · have h0 : ((At.writeZattrs attrs dims).map (·.1)).Nodup := by
      have := attrs_put_nodup At.dimKey (.tuple dims) (hd "").1
      simpa [At.writeZattrs, At.json, At.dictOf, List.map_map, Function.comp_def] using this
    exact h0.sublist (List.filter_sublist.map _)
  · intro n hn
    have hf : ∀ l : List Attr,
        (l.filter fun a => decide (a.1 ≠ At.dimKey)).lookup n = l.lookup n := by
      intro l
      induction l with
      | nil => rfl
      | cons a t ih =>
        by_cases ha : a.1 = At.dimKey
        · rw [List.filter_cons_of_neg (by simp [ha]), ih]
          have : (n == a.1) = false := beq_eq_false_iff_ne.2 (by rw [ha]; exact hn)
          simp [List.lookup, this]
        · rw [List.filter_cons_of_pos (by simp [ha])]
          simp only [List.lookup, ih]
    simp only [hf]
    rw [At.writeZattrs, hj, attrs_put_lookup, if_neg (show ¬ n = At.dimKey from hn), At.dictOf,
      (hd n).2]
    simp

example : At.readZattrs "v" (At.writeZattrs [("a", .scalar "1"), ("b", .scalar "2"),
    ("a", .scalar "3")] ["x"]) = .ok ⟨"v", ["x"], [("a", .scalar "3"), ("b", .scalar "2")]⟩ := by
  decide +kernel

/-- C65: `Dataset.merge` of datasets with no variable in common keeps the variables of both with
their attributes; of the attributes of the datasets it keeps one of each name, that of the
dataset merged if it has one. -/
theorem C65_merge (ds other : At.Dset)
    (h : ∀ v ∈ other.vars, v.name ∉ ds.vars.map (·.name)) :
    ∃ r, At.merge ds other = .ok r ∧ r.vars = ds.vars ++ other.vars ∧
      (r.attrs.map (·.1)).Nodup ∧
      ∀ n, r.attrs.lookup n = (other.attrs.reverse.lookup n).or (ds.attrs.reverse.lookup n) := by
  refine ⟨⟨At.dictOf (ds.attrs ++ other.attrs), ds.vars ++ other.vars⟩, ?_, rfl, ?_, ?_⟩
  · rw [At.merge, if_neg]
    rintro ⟨v, hv, hm⟩
    exact h v hv hm
  · exact (attrs_dict (ds.attrs ++ other.attrs) [] (by simp) "").1
  · intro n
    show (At.dictOf _).lookup n = _
    rw [At.dictOf, (attrs_dict (ds.attrs ++ other.attrs) [] (by simp) n).2, List.reverse_append,
      List.lookup_append]
    simp

example : At.merge ⟨[("a", .scalar "1"), ("b", .scalar "2")], [⟨"v", ["x"], []⟩]⟩
    ⟨[("b", .scalar "3")], [⟨"w", ["x"], []⟩]⟩ =
      .ok ⟨[("a", .scalar "1"), ("b", .scalar "3")], [⟨"v", ["x"], []⟩, ⟨"w", ["x"], []⟩]⟩ := by
  decide +kernel

/-- An attribute that has the name under which the dimensions are stored is lost. -/
theorem C65_zattrs_counterexample (name : String) (v : AttrVal) (dims : List String) :
    At.readZattrs name (At.writeZattrs [("_ARRAY_DIMENSIONS", v)] dims) = .ok ⟨name, dims, []⟩ :=
  rfl

/-! ### Loads -/

theorem fillAttrs_ok (m : Meta.Ds) (ds : At.Dset)
    (h : ∀ n ∈ named ds, n ∈ m.vars.map (·.name)) :
    ∃ r, At.fillAttrs m ds = .ok r ∧ Attributed m r ∧ named r = named ds := by
  have key : ∀ l : List At.Var, (∀ v ∈ l, v.name ∈ m.vars.map (·.name)) →
      ∃ vars, mapPy (At.fillVar m) l = .ok vars ∧
        (∀ v ∈ vars, ∃ w ∈ m.vars, w.name = v.name ∧ v.attrs = w.attrs) ∧
        vars.map (·.name) = l.map (·.name) := by
    intro l
    induction l with
    | nil => exact fun _ => ⟨[], rfl, by simp, rfl⟩
    | cons v t ih =>
      intro hl
      obtain ⟨vars, h1, h2, h3⟩ := ih fun x hx => hl x (List.mem_cons_of_mem _ hx)
      have hv := hl v (List.mem_cons_self ..)
      cases hf : m.vars.find? fun w => decide (w.name = v.name) with
      | none =>
        obtain ⟨w, hw, he⟩ := List.mem_map.1 hv
        have := List.find?_eq_none.1 hf w hw
        exact absurd he (by simpa using this)
      | some w =>
        refine ⟨{ v with attrs := w.attrs } :: vars, ?_, ?_, ?_⟩
        · simp only [mapPy, bind, Except.bind, At.fillVar, hf, h1]
        · intro x hx
          rcases List.mem_cons.1 hx with rfl | hx
          · exact ⟨w, List.mem_of_find?_eq_some hf,
              (by simpa using List.find?_some hf), rfl⟩
          · exact h2 x hx
        · simp [h3]
  obtain ⟨vars, h1, h2, h3⟩ := key ds.vars fun v hv => h _ (List.mem_map_of_mem hv)
  exact ⟨⟨m.attrs, vars⟩, by simp only [At.fillAttrs, bind, Except.bind, h1], ⟨rfl, h2⟩, h3⟩

theorem concat_first {l : List At.Dset} (hne : l ≠ [])
    (h : ∀ a ∈ l, ∀ b ∈ l, ∀ n ∈ named a, n ∈ named b) :
    ∃ r, At.concat l = .ok r ∧ r ∈ l := by
  match l, hne with
  | [ds], _ => exact ⟨ds, rfl, by simp⟩
  | ds :: o :: rest, _ =>
    refine ⟨ds, ?_, by simp⟩
    simp only [At.concat]
    rw [if_neg]
    rintro ⟨v, hv, x, hx, hn⟩
    exact hn (h ds (by simp) x (List.mem_cons_of_mem _ hx) v.name (List.mem_map_of_mem hv))

variable [DecidableEq P]

/-- The partitions of the list exist and hold the same variables, and those that are not split
are stored apart. -/
structure Loadable (c : At.Coll P) (ps : List P) : Prop where
  exist : ∀ p ∈ ps, c.parts p ≠ none
  same : ∀ p ∈ ps, ∀ q ∈ ps, ∀ g h, c.parts p = some g → c.parts q = some h →
    ∀ n ∈ g.arrays.map (·.1), n ∈ h.arrays.map (·.1)
  immutable : c.imm = true → c.immutable ≠ none
  apart : ∀ p ∈ ps, ∀ g h, c.imm = true → c.parts p = some g → c.immutable = some h →
    ∀ n ∈ h.arrays.map (·.1), n ∉ g.arrays.map (·.1)

omit [DecidableEq P] in
theorem openParts_bare {c : At.Coll P} (ht : Tidy c) (sel : String → Bool) (ps : List P)
    (he : ∀ p ∈ ps, c.parts p ≠ none) :
    ∃ arrays, mapPy (At.openPart c sel) ps = .ok arrays ∧ arrays.length = ps.length ∧
      ∀ ds ∈ arrays, Bare ds ∧ ∃ p ∈ ps, ∃ g, c.parts p = some g ∧
        named ds = (g.arrays.map (·.1)).filter sel := by
  induction ps with
  | nil => exact ⟨[], rfl, rfl, by simp⟩
  | cons p t ih =>
    obtain ⟨arrays, h1, h2, h3⟩ := ih fun q hq => he q (List.mem_cons_of_mem _ hq)
    cases hp : c.parts p with
    | none => exact absurd hp (he p (List.mem_cons_self ..))
    | some g =>
      obtain ⟨ds, d1, d2, d3⟩ := openGroup_bare (ht.parts p g hp).1 sel
      refine ⟨ds :: arrays, ?_, by simp [h2], ?_⟩
      · have hop : At.openPart c sel p = .ok ds := by simp only [At.openPart, hp, d1]
        simp only [mapPy, bind, Except.bind, hop, h1]
      · intro x hx
        rcases List.mem_cons.1 hx with rfl | hx
        · exact ⟨d2, p, List.mem_cons_self .., g, hp, d3⟩
        · obtain ⟨x1, q, hq, x2⟩ := h3 x hx
          exact ⟨x1, q, List.mem_cons_of_mem _ hq, x2⟩

omit [DecidableEq P] in
theorem withImmutable_bare {c : At.Coll P} (ht : Tidy c) (sel : String → Bool) {ds : At.Dset}
    (hb : Bare ds) {g : At.Group} (hn : named ds = (g.arrays.map (·.1)).filter sel)
    (hi : c.imm = true → c.immutable ≠ none)
    (ha : ∀ h, c.imm = true → c.immutable = some h → ∀ n ∈ h.arrays.map (·.1),
      n ∉ g.arrays.map (·.1)) :
    ∃ r, At.withImmutable c sel ds = .ok r ∧ Bare r ∧
      ∀ n, n ∈ named r ↔ sel n = true ∧ (n ∈ g.arrays.map (·.1) ∨
        ∃ h, c.imm = true ∧ c.immutable = some h ∧ n ∈ h.arrays.map (·.1)) := by
  unfold At.withImmutable
  cases hc : c.imm with
  | false =>
    refine ⟨ds, rfl, hb, ?_⟩
    intro n
    rw [hn, List.mem_filter]
    simp [and_comm]
  | true =>
    cases him : c.immutable with
    | none => exact absurd him (hi hc)
    | some h =>
      obtain ⟨o, o1, o2, o3⟩ := openGroup_bare (ht.immutable h hc him).1 sel
      simp only [if_true, bind, Except.bind, o1, At.merge]
      rw [if_neg]
      · refine ⟨_, rfl, ⟨?_, ?_⟩, ?_⟩
        · simp only [hb.1, o2.1]
          rfl
        · intro v hv
          rcases List.mem_append.1 hv with hv | hv
          · exact hb.2 v hv
          · exact o2.2 v hv
        · intro n
          have e : named ⟨At.dictOf (ds.attrs ++ o.attrs), ds.vars ++ o.vars⟩ =
              named ds ++ named o := List.map_append
          rw [e, List.mem_append, hn, o3, List.mem_filter, List.mem_filter]
          simp only [Option.some.injEq, true_and, exists_eq_left']
          exact ⟨fun hh => hh.elim (fun x => ⟨x.2, .inl x.1⟩) fun x => ⟨x.2, .inr x.1⟩,
            fun hh => hh.2.elim (fun x => .inl ⟨x, hh.1⟩) fun x => .inr ⟨x, hh.1⟩⟩
      · rintro ⟨v, hv, hvn⟩
        have h1 : v.name ∈ named o := List.mem_map_of_mem hv
        have h2 : v.name ∈ named ds := hvn
        rw [o3] at h1
        rw [hn] at h2
        exact ha h hc him _ (List.mem_filter.1 h1).1 (List.mem_filter.1 h2).1

omit [DecidableEq P] in
theorem load_tidy {c : At.Coll P} (ht : Tidy c) (sel : String → Bool) (ps : List P)
    (hl : Loadable c ps) (p : P) (hp : p ∈ ps) (g : At.Group) (hg : c.parts p = some g) :
    ∃ r, At.load c sel ps = .ok (some r) ∧ Attributed c.md r ∧
      ∀ n, n ∈ named r ↔ sel n = true ∧ (n ∈ g.arrays.map (·.1) ∨
        ∃ h, c.imm = true ∧ c.immutable = some h ∧ n ∈ h.arrays.map (·.1)) := by
  have hne : ps ≠ [] := by
    rintro rfl
    cases hp
  obtain ⟨arrays, a1, a2, a3⟩ := openParts_bare ht sel ps hl.exist
  have hane : arrays ≠ [] := by
    rintro rfl
    exact hne (List.length_eq_zero_iff.1 a2.symm)
  obtain ⟨ds, d1, d2⟩ := concat_first hane (by
    intro a ha b hb n hn
    obtain ⟨_, q, hq, gq, hgq, eq⟩ := a3 a ha
    obtain ⟨_, q', hq', gq', hgq', eq'⟩ := a3 b hb
    rw [eq, List.mem_filter] at hn
    rw [eq', List.mem_filter]
    exact ⟨hl.same q hq q' hq' _ _ hgq hgq' n hn.1, hn.2⟩)
  obtain ⟨b, q, hq, gq, hgq, eq⟩ := a3 ds d2
  obtain ⟨r, r1, r2, r3⟩ := withImmutable_bare ht sel b eq hl.immutable
    fun h hi hh => hl.apart q hq gq h hi hgq hh
  obtain ⟨z, z1, z2, z3⟩ := fillAttrs_ok c.md r (by
    intro n hn
    rcases ((r3 n).1 hn).2 with h1 | ⟨h, hi, hh, h1⟩
    · exact (ht.parts q gq hgq).2 n h1
    · exact (ht.immutable h hi hh).2 n h1)
  refine ⟨z, ?_, z2, ?_⟩
  · simp only [At.load, if_neg hne, bind, Except.bind, a1, d1, r1, z1]
  · intro n
    rw [z3, r3]
    have e : n ∈ g.arrays.map (·.1) ↔ n ∈ gq.arrays.map (·.1) :=
      ⟨hl.same p hp q hq _ _ hg hgq n, hl.same q hq p hp _ _ hgq hg n⟩
    rw [e]

/-- C65: whatever was done to the collection since its creation — insertions with or without
merges, variables added or dropped, partitions dropped, the collection closed and opened — a
load returns the variables with the attributes of the metadata, those and no other. -/
theorem C65_load (c : At.Coll P) (hc : New c) (ops : List (At.Op P))
    (hops : ∀ op ∈ ops, ModestCall op) (sel : String → Bool) (ps : List P)
    (hl : Loadable (At.run c ops) ps) (p : P) (hp : p ∈ ps) (g : At.Group)
    (hg : (At.run c ops).parts p = some g) :
    ∃ r, At.load (At.run c ops) sel ps = .ok (some r) ∧ Attributed (At.run c ops).md r ∧
      ∀ n, n ∈ named r ↔ sel n = true ∧ (n ∈ g.arrays.map (·.1) ∨
        ∃ h, (At.run c ops).imm = true ∧ (At.run c ops).immutable = some h ∧
          n ∈ h.arrays.map (·.1)) :=
  load_tidy (run_tidy hc.tidy ops hops) sel ps hl p hp g hg

/-- C65: the partitions never hold attributes, so that the metadata are the only place where
they are. -/
theorem C65_stored (c : At.Coll P) (hc : New c) (ops : List (At.Op P))
    (hops : ∀ op ∈ ops, ModestCall op) (p : P) (g : At.Group)
    (hg : (At.run c ops).parts p = some g) : BareFiles g :=
  ((run_tidy hc.tidy ops hops).parts p g hg).1

/-- The callbacks of `merge_time_series` are modest. -/
theorem C65_time_series (places : List At.Place) : Modest (At.timeSeries places) := by
  have hcat : ∀ l : List At.Dset, ∀ r, At.concat l = .ok r → r ∈ l := by
    intro l r h
    match l, h with
    | [ds], h => cases h; simp
    | ds :: o :: rest, h =>
      simp only [At.concat] at h
      split at h
      · cases h
      · cases h; simp
  have hat : ∀ p a b r, At.mergeAt p a b = .ok r → r = a ∨ r = b := by
    intro p a b r h
    cases p with
    | before =>
      simp only [At.mergeAt] at h
      have := hcat _ _ h
      simpa [or_comm] using this
    | after =>
      simp only [At.mergeAt] at h
      have := hcat _ _ h
      simpa using this
    | replaced => cases h; exact .inr rfl
    | inside =>
      simp only [At.mergeAt] at h
      have := hcat _ _ h
      simp only [List.mem_cons, List.not_mem_nil, or_false] at this
      rcases this with h | h | h
      · exact .inl h
      · exact .inr h
      · exact .inl h
  have hall : ∀ places a b r, At.timeSeries places a b = .ok r → r = a ∨ r = b := by
    intro places
    induction places with
    | nil => intro a b r h; cases h; exact .inl rfl
    | cons p t ih =>
      intro a b r h
      simp only [At.timeSeries, bind, Except.bind] at h
      split at h
      · cases h
      · next x hx =>
        rcases ih x b r h with rfl | rfl
        · exact hat p a b r hx
        · exact .inr rfl
  intro a b r h
  rcases hall places a b r h with rfl | rfl
  · exact ⟨fun h _ => h, fun n hn => .inl hn⟩
  · exact ⟨fun _ h => h, fun n hn => .inr hn⟩

/-! ### The callbacks -/

/-- C65, full statement for the callbacks: the dataset that the callback of `map` or `update`
gets has the attributes of the metadata. -/
def C65_callback_full : Prop :=
  ∀ (c : At.Coll Nat), New c → ∀ (ops : List (At.Op Nat)), (∀ op ∈ ops, ModestCall op) →
    ∀ (sel : String → Bool) (p : Nat) (r : At.Dset),
      At.callbackDataset (At.run c ops) sel p = .ok r → Attributed (At.run c ops).md r

/-- C65: the dataset that the callback of `map` or `update` gets has no attribute at all. -/
theorem C65_callback_partial (c : At.Coll P) (hc : New c) (ops : List (At.Op P))
    (hops : ∀ op ∈ ops, ModestCall op) (sel : String → Bool) (p : P) (r : At.Dset)
    (h : At.callbackDataset (At.run c ops) sel p = .ok r) : Bare r := by
  have ht := run_tidy hc.tidy ops hops
  generalize At.run c ops = d at h ht
  simp only [At.callbackDataset, bind, Except.bind] at h
  split at h
  · cases h
  · next ds hds =>
    unfold At.openPart at hds
    split at hds
    · cases hds
    · next g hg =>
      obtain ⟨x, x1, x2, _⟩ := openGroup_bare (ht.parts p g hg).1 sel
      rw [hds] at x1
      cases x1
      unfold At.withImmutable at h
      split at h
      · next hi =>
        split at h
        · cases h
        · next gi hgi =>
          obtain ⟨y, y1, y2, _⟩ := openGroup_bare (ht.immutable gi hi hgi).1 sel
          simp only [bind, Except.bind, y1, At.merge] at h
          split at h
          · cases h
          · cases h
            refine ⟨?_, ?_⟩
            · simp only [x2.1, y2.1]
              rfl
            · intro v hv
              rcases List.mem_append.1 hv with hv | hv
              · exact x2.2 v hv
              · exact y2.2 v hv
      · cases h
        exact x2

/-! ### What was inserted -/

/-- C65, full statement for the insertions: the variables that were inserted are loaded with the
attributes that they had. -/
def C65_full : Prop :=
  ∀ (c : At.Coll Nat), New c → ∀ (validate : Bool) (pieces : List Nat) (ds : Meta.Ds)
    (c' : At.Coll Nat), At.insert c validate none pieces ds = (c', .ok ()) →
    ∀ (sel : String → Bool) (ps : List Nat) (r : At.Dset), At.load c' sel ps = .ok (some r) →
      ∀ v ∈ r.vars, ∀ w ∈ ds.vars, w.name = v.name → v.attrs.Perm w.attrs

theorem config_attrs {v w : Meta.Var} (h : v.getConfig = w.getConfig) :
    v.name = w.name ∧ v.attrs.Perm w.attrs := by
  have h1 : v.getConfig.name = w.getConfig.name := by rw [h]
  have h2 : sortAttrs v.attrs = sortAttrs w.attrs := by
    show v.getConfig.attrs = w.getConfig.attrs
    rw [h]
  refine ⟨h1, ?_⟩
  have e1 := Sort.isort_perm (le := fun (a b : Attr) => decide (a.1 ≤ b.1)) v.attrs
  have e2 := Sort.isort_perm (le := fun (a b : Attr) => decide (a.1 ≤ b.1)) w.attrs
  have h3 : Sort.isort (fun (a b : Attr) => decide (a.1 ≤ b.1)) v.attrs =
    Sort.isort (fun (a b : Attr) => decide (a.1 ≤ b.1)) w.attrs := h2
  rw [h3] at e1
  exact e1.symm.trans e2

/-- What a validated insertion accepts has the attributes of the metadata. -/
theorem validated_attrs {self ds ds' : Meta.Ds} (h : insertCheck self ds true = .ok ds') :
    ds'.attrs.Perm self.attrs ∧
      ∀ v ∈ ds.vars, ∃ w ∈ self.vars, w.name = v.name ∧ w.attrs.Perm v.attrs := by
  obtain ⟨⟨added, hadd, _⟩, _⟩ := C48_completed _ _ _ _ h
  simp only [insertCheck, bind, Except.bind] at h
  split at h
  · cases h
  · split at h
    · cases h
    · next d hd =>
      cases hq : d.eq self with
      | false => simp [hq] at h
      | true =>
        have hd' : d = ds' := by simpa [hq, pure, Except.pure] using h
        subst hd'
        have hcfg := of_decide_eq_true hq
        refine ⟨?_, ?_⟩
        · have h2 : sortAttrs d.attrs = sortAttrs self.attrs := by
            show d.getConfig.attrs = self.getConfig.attrs
            rw [hcfg]
          have e1 := Sort.isort_perm (le := fun (a b : Attr) => decide (a.1 ≤ b.1)) d.attrs
          have e2 := Sort.isort_perm (le := fun (a b : Attr) => decide (a.1 ≤ b.1)) self.attrs
          have h3 : Sort.isort (fun (a b : Attr) => decide (a.1 ≤ b.1)) d.attrs =
            Sort.isort (fun (a b : Attr) => decide (a.1 ≤ b.1)) self.attrs := h2
          rw [h3] at e1
          exact e1.symm.trans e2
        · intro v hv
          have hvars : (sortVars d.vars).map Var.getConfig = (sortVars self.vars).map Var.getConfig := by
            show d.getConfig.vars = self.getConfig.vars
            rw [hcfg]
          have hvd : v ∈ d.vars := by
            rw [hadd]
            exact List.mem_append_left _ hv
          have hm : v.getConfig ∈ (sortVars d.vars).map Var.getConfig :=
            List.mem_map_of_mem ((Sort.isort_perm _).mem_iff.2 hvd)
          rw [hvars] at hm
          obtain ⟨w, hw, he⟩ := List.mem_map.1 hm
          obtain ⟨k1, k2⟩ := config_attrs he
          exact ⟨w, (Sort.isort_perm _).mem_iff.1 hw, k1, k2⟩

theorem insert_md (c : At.Coll P) (validate : Bool) (m : Option At.Merge) (pieces : List P)
    (ds : Meta.Ds) : (At.insert c validate m pieces ds).1.md = c.md := by
  unfold At.insert
  split
  · rfl
  · dsimp only
    split <;> rfl

/-- C65: when the insertion validates the dataset, its variables are loaded with the attributes
that they had, in the order of the metadata; in any collection, after any history.  Missing: the
insertions that do not validate, which is the default (`C65_counterexample`). -/
theorem C65_insert_partial (c : At.Coll P) (hc : (c.md.vars.map (·.name)).Nodup)
    (m : Option At.Merge) (pieces : List P) (ds : Meta.Ds) (c' : At.Coll P)
    (h : At.insert c true m pieces ds = (c', .ok ())) (sel : String → Bool) (ps : List P)
    (r : At.Dset) (hr : At.load c' sel ps = .ok (some r)) :
    ∀ v ∈ r.vars, ∀ w ∈ ds.vars, w.name = v.name → v.attrs.Perm w.attrs := by
  have hmd : c'.md = c.md := by
    have := insert_md c true m pieces ds
    rw [h] at this
    exact this
  have hcheck : ∃ ds', insertCheck c.md ds true = .ok ds' := by
    unfold At.insert at h
    split at h
    · cases h
    · next d hd => exact ⟨d, hd⟩
  obtain ⟨ds', hds⟩ := hcheck
  have hval := (validated_attrs hds).2
  intro v hv w hw hn
  obtain ⟨x, hx, hxn, hxa⟩ := hval w hw
  have hfill : ∃ y ∈ c.md.vars, y.name = v.name ∧ v.attrs = y.attrs := by
    simp only [At.load, bind, Except.bind] at hr
    split at hr
    · cases hr
    split at hr
    · cases hr
    split at hr
    · cases hr
    split at hr
    · cases hr
    split at hr
    · cases hr
    · next z hz =>
      cases hr
      simp only [At.fillAttrs, bind, Except.bind] at hz
      split at hz
      · cases hz
      · next vars hvars =>
        cases hz
        obtain ⟨u, _, hu⟩ := mapPy_mem _ _ _ hvars v hv
        unfold At.fillVar at hu
        split at hu
        · cases hu
        · next y hy =>
          cases hu
          rw [hmd] at hy
          exact ⟨y, List.mem_of_find?_eq_some hy, (by simpa using List.find?_some hy), rfl⟩
  obtain ⟨y, hy, hyn, hya⟩ := hfill
  have hxy : x = y := by
    obtain ⟨i, hi, rfl⟩ := List.getElem_of_mem hx
    obtain ⟨j, hj, rfl⟩ := List.getElem_of_mem hy
    have := (List.getElem_inj (h₀ := by simpa using hi) (h₁ := by simpa using hj) hc).1
      (by simpa using (hxn.trans hn).trans hyn.symm)
    subst this
    rfl
  rw [hya, ← hxy]
  exact hxa

/-! ### Closing and opening -/

/-- C65: after the collection is closed and opened again, the attributes are the same, sorted by
name, tuples being lists. -/
theorem C65_reopen (d : Meta.Ds) (h : (d.vars.map (·.name)).Nodup) (v : Meta.Var)
    (hv : v ∈ d.vars) :
    ∃ w ∈ (Meta.Ds.fromConfig d.getConfig).vars, w.name = v.name ∧
      w.attrs = (sortAttrs v.attrs).map fun a => (a.1, a.2.json) := by
  have hperm : (sortVars d.vars).Perm d.vars := Sort.isort_perm _
  have hnodup : (([] ++ (d.getConfig.vars.map Meta.Var.fromConfig)).map Meta.Var.name).Nodup := by
    simp only [List.nil_append, Meta.Ds.getConfig, List.map_map]
    exact (hperm.map Meta.Var.name).nodup_iff.2 h
  refine ⟨Meta.Var.fromConfig v.getConfig, ?_, rfl, rfl⟩
  show _ ∈ Meta.dictOf [] _
  rw [dictOf_nodup [] _ hnodup]
  simp only [List.nil_append, Meta.Ds.getConfig, List.map_map]
  exact List.mem_map.2 ⟨v, hperm.mem_iff.2 hv, rfl⟩

theorem json_json (l : List Attr) :
    (l.map fun a => (a.1, a.2.json)).map (fun a => (a.1, a.2.json)) =
      l.map fun a => (a.1, a.2.json) := by
  rw [List.map_map]
  apply List.map_congr_left
  rintro ⟨k, v⟩ _
  cases v <;> rfl

theorem step_kept {c : At.Coll P} (op : At.Op P) :
    (At.step c op).md.attrs.map (fun a => (a.1, a.2.json)) |>.Perm
      (c.md.attrs.map fun a => (a.1, a.2.json)) := by
  cases op with
  | insert validate m pieces ds =>
    show ((At.insert c validate m pieces ds).1.md.attrs.map _).Perm _
    rw [insert_md]
  | add v =>
    simp only [At.step, At.addVariable]
    split
    · exact .refl _
    split
    · exact .refl _
    split
    · exact .refl _
    · exact .refl _
  | drop name =>
    simp only [At.step, At.dropVariable]
    split
    · exact .refl _
    split
    · exact .refl _
    split
    · exact .refl _
    split
    · exact .refl _
    · exact .refl _
  | dropPartitions l => exact .refl _
  | reopen =>
    show (((sortAttrs c.md.attrs).map fun a => (a.1, a.2.json)).map _).Perm _
    rw [json_json]
    exact (Sort.isort_perm _).map _

theorem step_var {c : At.Coll P} (hc : (c.md.vars.map (·.name)).Nodup) (op : At.Op P)
    (v : Meta.Var) (hv : v ∈ c.md.vars) (hop : ∀ name, op = .drop name → name ≠ v.name) :
    ∃ w ∈ (At.step c op).md.vars, w.name = v.name ∧
      (w.attrs.map fun a => (a.1, a.2.json)).Perm (v.attrs.map fun a => (a.1, a.2.json)) := by
  cases op with
  | insert validate m pieces ds =>
    refine ⟨v, ?_, rfl, .refl _⟩
    show v ∈ (At.insert c validate m pieces ds).1.md.vars
    rw [insert_md]
    exact hv
  | add u =>
    refine ⟨v, ?_, rfl, .refl _⟩
    simp only [At.step, At.addVariable]
    split
    · exact hv
    split
    · exact hv
    split
    · exact hv
    · exact List.mem_append_left _ hv
  | drop name =>
    refine ⟨v, ?_, rfl, .refl _⟩
    simp only [At.step, At.dropVariable]
    split
    · exact hv
    split
    · exact hv
    split
    · exact hv
    split
    · exact hv
    · exact List.mem_filter.2 ⟨hv, decide_eq_true fun he => hop name rfl he.symm⟩
  | dropPartitions l => exact ⟨v, hv, rfl, .refl _⟩
  | reopen =>
    obtain ⟨w, hw, hn, ha⟩ := C65_reopen c.md hc v hv
    refine ⟨w, hw, hn, ?_⟩
    rw [ha, json_json]
    exact (Sort.isort_perm _).map _

/-- C65: the attributes of the metadata are those that the dataset and its variables had when
the collection was created or when the variable was added, whatever is done next, as long as the
variable is not dropped; the order can change, and tuples become lists. -/
theorem C65_kept (c : At.Coll P) (hc : Tidy c) (ops : List (At.Op P))
    (hops : ∀ op ∈ ops, ModestCall op) :
    ((At.run c ops).md.attrs.map fun a => (a.1, a.2.json)).Perm
      (c.md.attrs.map fun a => (a.1, a.2.json)) ∧
    ∀ v ∈ c.md.vars, .drop v.name ∉ ops → ∃ w ∈ (At.run c ops).md.vars, w.name = v.name ∧
      (w.attrs.map fun a => (a.1, a.2.json)).Perm (v.attrs.map fun a => (a.1, a.2.json)) := by
  induction ops generalizing c with
  | nil => exact ⟨.refl _, fun v hv _ => ⟨v, hv, rfl, .refl _⟩⟩
  | cons op t ih =>
    obtain ⟨i1, i2⟩ := ih (At.step c op) (step_tidy hc op (hops op (List.mem_cons_self ..)))
      fun o ho => hops o (List.mem_cons_of_mem _ ho)
    refine ⟨i1.trans (step_kept op), ?_⟩
    intro v hv hd
    obtain ⟨w, hw, hwn, hwa⟩ := step_var hc.distinct op v hv (by
      rintro name rfl rfl
      exact hd (List.mem_cons_self ..))
    obtain ⟨x, hx, hxn, hxa⟩ := i2 w hw (by
      rw [hwn]
      exact fun hc => hd (List.mem_cons_of_mem _ hc))
    exact ⟨x, hx, hxn.trans hwn, hxa.trans hwa⟩

omit [DecidableEq P] in
/-- C65: a variable that was added has the attributes given. -/
theorem C65_added (c : At.Coll P) (v : Meta.Var) (c' : At.Coll P)
    (h : At.addVariable c v = (c', .ok ())) : v ∈ c'.md.vars := by
  unfold At.addVariable at h
  split at h
  · cases h
  split at h
  · cases h
  split at h
  · cases h
  · cases h
    simp

/-! ### Views -/

theorem dictOf_mem (l acc : List Meta.Var) (x : Meta.Var) (hl : (l.map (·.name)).Nodup)
    (ha : (acc.map (·.name)).Nodup) :
    x ∈ Meta.dictOf acc l ↔ x ∈ l ∨ x ∈ acc ∧ x.name ∉ l.map (·.name) := by
  induction l generalizing acc with
  | nil => simp [Meta.dictOf]
  | cons v t ih =>
    obtain ⟨hvt, ht⟩ := List.nodup_cons.1 hl
    unfold Meta.dictOf
    split
    · next hv =>
      have hmap : (acc.map fun w => if w.name = v.name then v else w).map (·.name) =
          acc.map (·.name) := by
        rw [List.map_map]
        apply List.map_congr_left
        intro w _
        simp only [Function.comp]
        split
        · next e => exact e.symm
        · rfl
      rw [ih _ ht (by rw [hmap]; exact ha)]
      constructor
      · rintro (h | ⟨h, hn⟩)
        · exact .inl (List.mem_cons_of_mem _ h)
        · obtain ⟨w, hw, he⟩ := List.mem_map.1 h
          split at he
          · subst he; exact .inl (List.mem_cons_self ..)
          · next hne =>
            subst he
            refine .inr ⟨hw, ?_⟩
            simp only [List.map_cons, List.mem_cons, not_or]
            exact ⟨hne, hn⟩
      · rintro (h | ⟨h, hn⟩)
        · rcases List.mem_cons.1 h with rfl | h
          · obtain ⟨w, hw, he⟩ := List.mem_map.1 hv
            exact .inr ⟨List.mem_map.2 ⟨w, hw, by rw [if_pos he]⟩, hvt⟩
          · exact .inl h
        · simp only [List.map_cons, List.mem_cons, not_or] at hn
          exact .inr ⟨List.mem_map.2 ⟨x, h, by rw [if_neg hn.1]⟩, hn.2⟩
    · next hv =>
      rw [ih _ ht (by
        rw [List.map_append, List.nodup_append]
        refine ⟨ha, by simp, ?_⟩
        intro a h1 b h2
        simp only [List.map_cons, List.map_nil, List.mem_singleton] at h2
        rintro rfl
        exact hv (h2 ▸ h1))]
      simp only [List.mem_append, List.map_cons, List.mem_cons, not_or, List.not_mem_nil,
        or_false]
      constructor
      · rintro (h | ⟨h | rfl, hn⟩)
        · exact .inl (.inr h)
        · exact .inr ⟨h, fun he => hv (he ▸ List.mem_map_of_mem h), hn⟩
        · exact .inl (.inl rfl)
      · rintro ((rfl | h) | ⟨h, _, hn⟩)
        · exact .inr ⟨.inr rfl, hvt⟩
        · exact .inl h
        · exact .inr ⟨.inl h, hn⟩

/-- C65: a load of a view returns the variables of the view with the attributes of the metadata
of the view, the others with those of the reference, and the attributes of the reference for the
dataset. -/
theorem C65_view (reference view : Meta.Ds) (hr : (reference.vars.map (·.name)).Nodup)
    (hv : (view.vars.map (·.name)).Nodup) (arrays : List At.Dset) (hne : arrays ≠ [])
    (hs : ∀ a ∈ arrays, ∀ b ∈ arrays, ∀ n ∈ named a, n ∈ named b)
    (hn : ∀ a ∈ arrays, ∀ n ∈ named a, n ∈ reference.vars.map (·.name) ∨
      n ∈ view.vars.map (·.name)) :
    ∃ r, At.viewLoad reference view arrays = .ok (some r) ∧ r.attrs = reference.attrs ∧
      ∀ x ∈ r.vars, (∃ w ∈ view.vars, w.name = x.name ∧ x.attrs = w.attrs) ∨
        ((∀ w ∈ view.vars, w.name ≠ x.name) ∧
          ∃ w ∈ reference.vars, w.name = x.name ∧ x.attrs = w.attrs) := by
  obtain ⟨ds, d1, d2⟩ := concat_first hne hs
  obtain ⟨r, r1, r2, r3⟩ := fillAttrs_ok (At.viewMeta reference view) ds (by
    intro n hnn
    exact dictOf_name_mem _ _ n (hn ds d2 n hnn))
  refine ⟨r, ?_, r2.1, ?_⟩
  · simp only [At.viewLoad, if_neg hne, bind, Except.bind, d1, r1]
  · intro x hx
    obtain ⟨w, hw, hwn, hwa⟩ := r2.2 x hx
    rcases (dictOf_mem _ _ _ hv hr).1 hw with h | ⟨h, hnv⟩
    · exact .inl ⟨w, h, hwn, hwa⟩
    · refine .inr ⟨?_, w, h, hwn, hwa⟩
      intro u hu he
      exact hnv (hwn ▸ he ▸ List.mem_map_of_mem hu)

/-! ### Cases -/

namespace AttrCase

/-- A variable of the metadata. -/
def var (name : String) (dims : List String) (attrs : List Attr) : Meta.Var :=
  ⟨name, "float64", dims, attrs, none, none, []⟩

def metadata : Meta.Ds :=
  ⟨["num", "x"],
    [var "time" ["num"] [("units", .scalar "s")],
     var "v" ["num"] [("units", .scalar "m"), ("range", .tuple ["0", "9"])],
     var "grid" ["x"] [("units", .scalar "deg")]],
    [("title", .scalar "t")], [], 100⟩

/-- A collection as it is created. -/
def coll : At.Coll Nat :=
  { axis := "num", keys := ["time"], dim := "num", md := metadata, imm := true,
    parts := fun _ => none, immutable := none }

theorem coll_new : New coll := ⟨by decide, fun _ => rfl, rfl⟩

/-- The same dataset with other attributes. -/
def other : Meta.Ds :=
  { metadata with
    vars := [var "time" ["num"] [], var "v" ["num"] [("units", .scalar "km")],
      var "grid" ["x"] [("units", .scalar "deg")]] }

/-- Insertions with a merge, a variable added, the collection closed and opened. -/
def history : List (At.Op Nat) :=
  [.insert false none [1, 2] other, .add (var "w" ["num", "x"] [("units", .scalar "K")]),
   .insert false (some (At.timeSeries [.after])) [2] metadata, .drop "time", .drop "w", .reopen]

theorem history_modest : ∀ op ∈ history, ModestCall op := by
  intro op hop
  simp only [history, List.mem_cons, List.not_mem_nil, or_false] at hop
  rcases hop with rfl | rfl | rfl | rfl | rfl | rfl
  · trivial
  · trivial
  · exact C65_time_series _
  · trivial
  · trivial
  · trivial

theorem run_parts (p : Nat) : (At.run coll history).parts p =
    if p = 1 ∨ p = 2 then some ⟨[], [("time", [("_ARRAY_DIMENSIONS", .list ["num"])]),
      ("v", [("_ARRAY_DIMENSIONS", .list ["num"])])]⟩ else none := by
  match p with
  | 0 => rfl
  | 1 => decide +kernel
  | 2 => decide +kernel
  | p + 3 =>
    rw [if_neg (by omega)]
    rfl

theorem run_immutable : (At.run coll history).immutable =
    some ⟨[], [("grid", [("_ARRAY_DIMENSIONS", .list ["x"])])]⟩ := by
  decide +kernel

/-- The two partitions can be loaded after the history. -/
theorem loadable : Loadable (At.run coll history) [1, 2] := by
  refine ⟨?_, ?_, ?_, ?_⟩
  · intro p hp
    rw [run_parts, if_pos (by simpa using hp)]
    simp
  · intro p hp q hq g h hg hh
    rw [run_parts, if_pos (by simpa using hp)] at hg
    rw [run_parts, if_pos (by simpa using hq)] at hh
    cases hg
    cases hh
    exact fun n hn => hn
  · intro _
    rw [run_immutable]
    simp
  · intro p hp g h _ hg hh
    rw [run_parts, if_pos (by simpa using hp)] at hg
    rw [run_immutable] at hh
    cases hg
    cases hh
    decide

/-- What is loaded after the history: the attributes of the metadata, not those of the dataset
that was inserted first. -/
example : At.load (At.run coll history) (fun _ => true) [1, 2] =
    .ok (some ⟨[("title", .scalar "t")],
      [⟨"time", ["num"], [("units", .scalar "s")]⟩,
       ⟨"v", ["num"], [("range", .list ["0", "9"]), ("units", .scalar "m")]⟩,
       ⟨"grid", ["x"], [("units", .scalar "deg")]⟩]⟩) := by
  decide +kernel

example : ∃ r, At.load (At.run coll history) (fun n => n == "v") [1, 2] = .ok (some r) ∧
    Attributed (At.run coll history).md r :=
  have h := C65_load coll coll_new history history_modest (fun n => n == "v") [1, 2] loadable 1
    (by simp) _ (by rw [run_parts, if_pos (.inl rfl)])
  ⟨h.choose, h.choose_spec.1, h.choose_spec.2.1⟩

example : BareFiles ⟨[], [("time", [("_ARRAY_DIMENSIONS", .list ["num"])]),
    ("v", [("_ARRAY_DIMENSIONS", .list ["num"])])]⟩ :=
  C65_stored coll coll_new history history_modest 2 _ (by rw [run_parts, if_pos (.inr rfl)])

/-- A variable of the metadata keeps its attributes through the history. -/
example : ∃ w ∈ (At.run coll history).md.vars, w.name = "v" ∧
    (w.attrs.map fun a => (a.1, a.2.json)).Perm
      [("units", .scalar "m"), ("range", .list ["0", "9"])] :=
  (C65_kept coll coll_new.tidy history history_modest).2
    (var "v" ["num"] [("units", .scalar "m"), ("range", .tuple ["0", "9"])])
    (by decide) (by simp [history, var])

/-- The callback of `map` after the history. -/
example : At.callbackDataset (At.run coll history) (fun _ => true) 2 =
    .ok ⟨[], [⟨"time", ["num"], []⟩, ⟨"v", ["num"], []⟩, ⟨"grid", ["x"], []⟩]⟩ := by
  decide +kernel

/-- A validated insertion of a dataset that has its attributes in another order. -/
def permuted : Meta.Ds :=
  { metadata with
    vars := [var "v" ["num"] [("range", .tuple ["0", "9"]), ("units", .scalar "m")],
      var "time" ["num"] [("units", .scalar "s")],
      var "grid" ["x"] [("units", .scalar "deg")]] }

example : (At.insert coll true none [1] permuted).2 = .ok () ∧
    At.load (At.insert coll true none [1] permuted).1 (fun n => n == "v") [1] =
      .ok (some ⟨[("title", .scalar "t")],
        [⟨"v", ["num"], [("units", .scalar "m"), ("range", .tuple ["0", "9"])]⟩]⟩) := by
  decide +kernel

example : (At.insert coll true none [1] other).2 = .error .valueError := by decide +kernel

/-- A view that replaces no variable and adds one. -/
example : At.viewLoad metadata ⟨["num"], [var "w" ["num"] [("units", .scalar "K")]],
      [("title", .scalar "view")], [], 100⟩
    [⟨[], [⟨"v", ["num"], []⟩, ⟨"w", ["num"], []⟩]⟩,
     ⟨[], [⟨"v", ["num"], []⟩, ⟨"w", ["num"], []⟩]⟩] =
    .ok (some ⟨[("title", .scalar "t")],
      [⟨"v", ["num"], [("units", .scalar "m"), ("range", .tuple ["0", "9"])]⟩,
       ⟨"w", ["num"], [("units", .scalar "K")]⟩]⟩) := by
  decide +kernel

example : ∃ r, At.viewLoad metadata ⟨["num"], [var "w" ["num"] [("units", .scalar "K")]],
      [], [], 100⟩ [⟨[], [⟨"v", ["num"], []⟩, ⟨"w", ["num"], []⟩]⟩] = .ok (some r) :=
  have h := C65_view metadata ⟨["num"], [var "w" ["num"] [("units", .scalar "K")]], [], [], 100⟩
    (by decide) (by decide) [⟨[], [⟨"v", ["num"], []⟩, ⟨"w", ["num"], []⟩]⟩] (by simp)
    (by
      intro a ha b hb n hn
      simp only [List.mem_singleton] at ha hb
      subst ha
      subst hb
      exact hn)
    (by
      intro a ha n hn
      simp only [List.mem_singleton] at ha
      subst ha
      simp only [named, List.map_cons, List.map_nil, List.mem_cons, List.not_mem_nil,
        or_false] at hn
      rcases hn with rfl | rfl
      · exact .inl (by decide)
      · exact .inr (by decide))
  ⟨h.choose, h.choose_spec.1⟩

end AttrCase

/-- Without validation, which is the default, the attributes of the dataset that is inserted
are dropped: the load gives those of the metadata. -/
theorem C65_counterexample : ¬ C65_full := by
  intro h
  have h1 := h AttrCase.coll AttrCase.coll_new false [1] AttrCase.other
    (At.insert AttrCase.coll false none [1] AttrCase.other).1
    (Prod.ext rfl (by decide +kernel)) (fun n => n == "v") [1]
    ⟨[("title", .scalar "t")],
      [⟨"v", ["num"], [("units", .scalar "m"), ("range", .tuple ["0", "9"])]⟩]⟩
    (by decide +kernel) _ (List.mem_cons_self ..)
    (AttrCase.var "v" ["num"] [("units", .scalar "km")]) (by decide) rfl
  have := h1.length_eq
  simp [AttrCase.var] at this

/-- The callbacks get the variables without their attributes. -/
theorem C65_callback_counterexample : ¬ C65_callback_full := by
  intro h
  have h1 := h AttrCase.coll AttrCase.coll_new AttrCase.history AttrCase.history_modest
    (fun n => n == "v") 2 ⟨[], [⟨"v", ["num"], []⟩]⟩ (by decide +kernel)
  have h2 : (At.run AttrCase.coll AttrCase.history).md.attrs = [("title", .scalar "t")] := by
    decide +kernel
  have h3 := h1.1
  rw [h2] at h3
  cases h3

end Verif
