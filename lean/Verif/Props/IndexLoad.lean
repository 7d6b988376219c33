import Verif.Lemmas.IndexLoad

/-! C66: the records that an index selects, loaded. -/

namespace Verif

open Spec Nd Ds Upd Ix

variable {V : Type}

/-- What a query of an up-to-date index gives. -/
theorem queried (st : State) (t : Table) (columns : List (String × List Int)) (op : String)
    (hop : op ∈ ["and", "and_not", "or", "xor"]) (names : List String) (parts : Store Row V)
    (size : Row → Nat) (attr : Row → Nat → Values) (hq : GoodQuery st t columns none)
    (ht : t.rows = fileRows st) (hup : UpToDate st names parts size attr)
    (hcol : ∀ c ∈ columns, c.1 ∈ names) :
    ∃ out ix, query st columns (some op) none true = .ok out ∧ mapPy natSlice out = .ok ix ∧
      (∀ x ∈ ix, parts x.1 ≠ none ∧ x.2.1 < x.2.2 ∧ x.2.2 ≤ size x.1) ∧
      (∀ p j, (∃ lo hi, (p, (lo, hi)) ∈ ix ∧ lo ≤ j ∧ j < hi) ↔
        parts p ≠ none ∧ j < size p ∧ Meets op columns (attr p j)) ∧
      ix.Pairwise fun s s' => s.1 = s'.1 → s.2.2 < s'.2.1 := by
  have hfile : ∀ r, Matched t none op columns r ↔ r ∈ fileRows st ∧ Matching op columns r := by
    intro r
    constructor
    · rintro ⟨i, h1, _, h2⟩
      exact ⟨ht ▸ List.mem_of_getElem? h1, h2⟩
    · rintro ⟨h1, h2⟩
      obtain ⟨i, hi⟩ := List.getElem?_of_mem (ht ▸ h1)
      exact ⟨i, hi, (fun m hm => by cases hm), h2⟩
  have hrow : ∀ p r, r ∈ fileRows st → InPart p r →
      rowValues r ∈ (computedRows p (fileRows st)).map rowValues := by
    intro p r hr hp
    exact List.mem_map.2 ⟨r, List.mem_filter.2 ⟨hr, decide_eq_true hp⟩, rfl⟩
  have hnest : NotNested st.keys (Matched t none op columns) := by
    intro r r' a b a' b' hr hr' hk h1 h2 h3 h4 hlt
    obtain ⟨p, hp, hpr⟩ := hup.known r ((hfile r).1 hr).1
    refine (hup.described p hp).apart _ (hrow p r ((hfile r).1 hr).1 hpr) _
      (hrow p r' ((hfile r').1 hr').1 ?_) a b a' b' h1 h2 h3 h4 hlt
    intro c hc
    rw [← hk c.1 (hup.keys p hp ▸ List.mem_map_of_mem hc)]
    exact hpr c hc
  obtain ⟨out, h1, h2, h3, h4, h5⟩ := query_eq st columns op hop none true t st.keys hq rfl
    (fun n hn => hq.names n (List.mem_append.2 (.inl hn))) fun _ h => h
  replace h3 := h3 hnest
  replace h4 := h4 rfl
  replace h5 := h5 (by
    intro r hr
    obtain ⟨p, hp, hpr⟩ := hup.known r ((hfile r).1 hr).1
    obtain ⟨a, b, e1, e2, e3, e4, e5⟩ := (hup.described p hp).inside _
      (hrow p r ((hfile r).1 hr).1 hpr)
    exact ⟨a, a, b, e1, e2, by omega, e4⟩)
  -- the records of the slices are those of the rows
  have hsel : ∀ p j, Selected out p j → parts p ≠ none ∧ 0 ≤ j ∧ j < size p ∧
      Meets op columns (attr p j.toNat) := by
    intro p j hs
    obtain ⟨hk, r, hr, hpr, hc⟩ := h2 p j hs
    obtain ⟨q, hq', hqr⟩ := hup.known r ((hfile r).1 hr).1
    have hpq : p = q :=
      inPart_same (hk.trans (hup.keys q hq').symm) hpr hqr
    subst hpq
    have hd := hup.described p hq'
    have hm := hrow p r ((hfile r).1 hr).1 hpr
    obtain ⟨a, b, e1, e2, e3, e4, e5⟩ := hd.inside _ hm
    obtain ⟨a', b', e1', e2', c1, c2⟩ := hc
    rw [show rowValues r "start" = some a' from e1'] at e1
    rw [show rowValues r "stop" = some b' from e2'] at e2
    cases e1
    cases e2
    refine ⟨hq', by omega, by omega, ?_⟩
    refine (meets_congr op columns (rowValues r) _ fun c hc => ?_).1
      ((matching_meets _ _ _).1 ((hfile r).1 hr).2)
    exact hd.values _ hm j.toNat ⟨_, _, e1', e2', by omega, by omega⟩ c.1 (hcol c hc)
  have hsel' : ∀ p (j : Nat), parts p ≠ none → j < size p → Meets op columns (attr p j) →
      Selected out p j := by
    intro p j hp hj hm
    obtain ⟨f, hf, hc⟩ := (hup.described p hp).all j hj
    obtain ⟨r, hr, rfl⟩ := List.mem_map.1 hf
    obtain ⟨hr1, hr2⟩ := List.mem_filter.1 hr
    refine h3 p j (hup.keys p hp) ⟨r, (hfile r).2 ⟨hr1, ?_⟩, of_decide_eq_true hr2, hc⟩
    refine (matching_meets _ _ _).2 ((meets_congr op columns (rowValues r) _ fun c hc' => ?_).2 hm)
    exact (hup.described p hp).values _ hf j hc c.1 (hcol c hc')
  have hin : ∀ x ∈ out, parts x.1 ≠ none ∧ 0 ≤ x.2.1 ∧ x.2.1 < x.2.2 ∧ x.2.2 ≤ size x.1 := by
    intro x hx
    have hlt := h5 x hx
    obtain ⟨k1, k2, _⟩ := hsel x.1 x.2.1 ⟨x.2, hx, by omega, hlt⟩
    obtain ⟨_, _, k3, _⟩ := hsel x.1 (x.2.2 - 1) ⟨x.2, hx, by omega, by omega⟩
    exact ⟨k1, k2, hlt, by omega⟩
  have hmap : mapPy natSlice out = .ok (out.map fun x => (x.1, (x.2.1.toNat, x.2.2.toNat))) := by
    refine mapPy_ok _ _ _ ?_
    intro x hx
    obtain ⟨_, k2, k3, _⟩ := hin x hx
    rw [natSlice, if_neg (by omega)]
  refine ⟨out, _, h1, hmap, ?_, ?_, ?_⟩
  · intro x hx
    obtain ⟨y, hy, rfl⟩ := List.mem_map.1 hx
    obtain ⟨k1, k2, k3, k4⟩ := hin y hy
    exact ⟨k1, by simp only; omega, by simp only; omega⟩
  · intro p j
    constructor
    · rintro ⟨lo, hi, hm, hlo, hhi⟩
      obtain ⟨y, hy, e⟩ := List.mem_map.1 hm
      simp only [Prod.mk.injEq] at e
      obtain ⟨rfl, rfl, rfl⟩ := e
      obtain ⟨k1, k2, k3, k4⟩ := hin y hy
      obtain ⟨g1, _, g2, g3⟩ := hsel y.1 j ⟨y.2, hy, by omega, by omega⟩
      exact ⟨g1, by omega, by simpa using g3⟩
    · rintro ⟨hp, hj, hm⟩
      obtain ⟨s, hs, g1, g2⟩ := hsel' p j hp hj hm
      obtain ⟨_, k2, _⟩ := hin _ hs
      simp only at k2
      exact ⟨_, _, List.mem_map.2 ⟨_, hs, rfl⟩, by simp only; omega, by simp only; omega⟩
  · rw [List.pairwise_map]
    refine h4.imp_of_mem ?_
    intro x y hx hy hxy he
    obtain ⟨_, k2, k3, _⟩ := hin x hx
    obtain ⟨_, k2', _⟩ := hin y hy
    have := hxy he
    simp only
    omega

/-- C66: with an index that describes the records of the collection, the load of what a query
selects returns the records that satisfy the conditions, each one once, by partition and in
order. -/
theorem C66_query_load (o : Ld.Opts V) (st : State) (t : Table)
    (columns : List (String × List Int)) (op : String)
    (hop : op ∈ ["and", "and_not", "or", "xor"]) (names : List String) (parts : Store Row V)
    (filters : Row → Bool) (size : Row → Nat) (other : String → Nat) (attr : Row → Nat → Values)
    (hu : Uniform o.dim size other parts)
    (hax : ∀ p vars, parts p = some vars → ∃ v ∈ vars, Chosen o.sel v.name ∧ o.dim ∈ v.dims)
    (himm : ∀ iv, o.imm = some iv → GoodImm o.dim other parts iv)
    (hq : GoodQuery st t columns none) (ht : t.rows = fileRows st)
    (hup : UpToDate st names parts size attr) (hcol : ∀ c ∈ columns, c.1 ∈ names)
    (hsome : ∃ p j, parts p ≠ none ∧ filters p = true ∧ j < size p ∧
      Meets op columns (attr p j)) :
    ∃ segs zds, queryLoad o st columns (some op) none parts filters = .ok (some zds) ∧
      Retrieves (fun p j => parts p ≠ none ∧ filters p = true ∧ j < size p ∧
        Meets op columns (attr p j)) segs ∧
      HoldsSegments o.dim o.sel parts segs zds ∧ HoldsImm o.sel (o.imm.getD []) zds ∧
      ∀ s ∈ segs, OnlyFrom o.sel parts (o.imm.getD []) s.1 zds := by
  obtain ⟨out, ix, h1, h2, h3, h4, h5⟩ := queried st t columns op hop names parts size attr hq ht
    hup hcol
  obtain ⟨p, j, hp, hf, hj, hm⟩ := hsome
  obtain ⟨lo, hi, hmem, _⟩ := (h4 p j).2 ⟨hp, hj, hm⟩
  obtain ⟨keys, zds, g1, g2, g3, g4, g5, g6, g7⟩ := C51_indexed_partial o keyLe keyLe_trans
    keyLe_total parts filters ix size other hu
    (by
      intro x hx _
      cases hv : parts x.1 with
      | none => exact absurd hv (h3 x hx).1
      | some vars => exact ⟨vars, rfl, hax _ _ hv⟩)
    (fun x hx => ⟨by have := (h3 x hx).2.1; omega, (h3 x hx).2.2⟩) himm ⟨_, hmem, hf⟩
  have hkp : ∀ q ∈ keys, parts q ≠ none := by
    intro q hq'
    obtain ⟨x, hx, rfl⟩ := List.mem_map.1 ((g4 q).1 hq').1
    exact (h3 x hx).1
  have hsegm : ∀ s, s ∈ (keys.flatMap fun p => ix.filter fun x => decide (x.1 = p)) ↔
      s ∈ ix ∧ filters s.1 = true := by
    intro s
    simp only [List.mem_flatMap, List.mem_filter, decide_eq_true_eq]
    constructor
    · rintro ⟨q, hq', hs, rfl⟩
      exact ⟨hs, ((g4 _).1 hq').2⟩
    · rintro ⟨hs, hfs⟩
      exact ⟨s.1, (g4 _).2 ⟨List.mem_map_of_mem hs, hfs⟩, hs, rfl⟩
  refine ⟨_, zds, ?_, ⟨?_, ?_, ?_⟩, g5, g6, ?_⟩
  · simp only [queryLoad, bind, Except.bind, h1, h2, g1]
  · intro s hs
    exact (h3 s ((hsegm s).1 hs).1).2.1
  · clear g1 g4 g5 g7 hsegm
    induction keys with
    | nil => simp
    | cons q keys ih =>
      rw [List.flatMap_cons, List.pairwise_append]
      obtain ⟨n1, n2⟩ := List.nodup_cons.1 g3
      obtain ⟨l1, l2⟩ := List.pairwise_cons.1 g2
      refine ⟨?_, ih l2 n2 fun q' hq' => hkp q' (by simp [hq']), ?_⟩
      · refine (h5.filter _).imp_of_mem ?_
        intro x y hx hy hxy
        have e1 : x.1 = q := by simpa using (List.mem_filter.1 hx).2
        have e2 : y.1 = q := by simpa using (List.mem_filter.1 hy).2
        exact .inl ⟨e1.trans e2.symm, hxy (e1.trans e2.symm)⟩
      · intro x hx y hy
        have e1 : x.1 = q := by simpa using (List.mem_filter.1 hx).2
        obtain ⟨q', hq', hy'⟩ := List.mem_flatMap.1 hy
        have e2 : y.1 = q' := by simpa using (List.mem_filter.1 hy').2
        refine .inr ?_
        rw [e1, e2]
        refine keyLe_before q q' ?_ (fun e => n1 (e ▸ hq')) (l1 q' hq')
        rw [hup.keys q (hkp q (by simp)), hup.keys q' (hkp q' (by simp [hq']))]
  · intro q k
    constructor
    · rintro ⟨lo, hi, hs, hr⟩
      obtain ⟨hs1, hs2⟩ := (hsegm _).1 hs
      obtain ⟨e1, e2, e3⟩ := (h4 q k).1 ⟨lo, hi, hs1, hr⟩
      exact ⟨e1, hs2, e2, e3⟩
    · rintro ⟨e1, e2, e3, e4⟩
      obtain ⟨lo, hi, hs, hr⟩ := (h4 q k).2 ⟨e1, e3, e4⟩
      exact ⟨lo, hi, (hsegm _).2 ⟨hs, e2⟩, hr⟩
  · intro s hs
    obtain ⟨q, hq', hs'⟩ := List.mem_flatMap.1 hs
    have e : s.1 = q := by simpa using (List.mem_filter.1 hs').2
    rw [e]
    exact g7 q hq'

/-- C66: when no record satisfies the conditions the load answers None. -/
theorem C66_nothing (o : Ld.Opts V) (st : State) (t : Table)
    (columns : List (String × List Int)) (op : String)
    (hop : op ∈ ["and", "and_not", "or", "xor"]) (names : List String) (parts : Store Row V)
    (filters : Row → Bool) (size : Row → Nat) (attr : Row → Nat → Values)
    (hq : GoodQuery st t columns none) (ht : t.rows = fileRows st)
    (hup : UpToDate st names parts size attr) (hcol : ∀ c ∈ columns, c.1 ∈ names)
    (hnone : ¬ ∃ p j, parts p ≠ none ∧ filters p = true ∧ j < size p ∧
      Meets op columns (attr p j)) :
    queryLoad o st columns (some op) none parts filters = .ok none := by
  obtain ⟨out, ix, h1, h2, h3, h4, _⟩ := queried st t columns op hop names parts size attr hq ht
    hup hcol
  simp only [queryLoad, bind, Except.bind, h1, h2]
  refine C51_none o keyLe parts filters ix ?_
  intro x hx
  cases hf : filters x.1 with
  | false => rfl
  | true =>
    exfalso
    obtain ⟨e1, e2, e3⟩ := (h4 x.1 x.2.1).1 ⟨x.2.1, x.2.2, hx, Nat.le_refl _, (h3 x hx).2.1⟩
    exact hnone ⟨x.1, x.2.1, e1, hf, e2, e3⟩

/-- C66 is violated when a query selects a row of a partition that is not in the collection: the
load raises. -/
theorem C66_dropped (o : Ld.Opts V) (st : State) (t : Table) (columns : List (String × List Int))
    (op : String) (hop : op ∈ ["and", "and_not", "or", "xor"]) (mask : Option (List Bool))
    (parts : Store Row V) (filters : Row → Bool) (hq : GoodQuery st t columns mask)
    (hn : NotNested st.keys (Matched t mask op columns)) (r : Row)
    (hr : Matched t mask op columns r) (hc : ∃ j, RowCovers r j) (p : Row)
    (hk : p.map (·.1) = st.keys) (hp : InPart p r) (hnone : parts p = none)
    (hf : filters p = true) :
    ∃ e, queryLoad o st columns (some op) mask parts filters = .error e := by
  obtain ⟨out, h1, h2, _⟩ := C42_query_partial st columns op hop mask t hq hn
  obtain ⟨j, hj⟩ := hc
  obtain ⟨s, hs, _⟩ := (h2 p j).2 ⟨hk, r, hr, hp, hj⟩
  simp only [queryLoad, bind, Except.bind, h1]
  cases hm : mapPy natSlice out with
  | error e => exact ⟨e, rfl⟩
  | ok ix =>
    obtain ⟨i, hi⟩ := List.getElem?_of_mem hs
    obtain ⟨y, hy, he⟩ := (mapPy_spec _ _ _ hm).2 i _ hi
    unfold natSlice at he
    split at he
    · cases he
    · cases he
      exact C51_absent_raises o keyLe keyLe_trans keyLe_total parts filters ix _
        (List.mem_of_getElem? hy) hf hnone

/-! ### The update of the index -/

theorem setName_mem (ks fs : List String) :
    ∀ n ∈ ks ++ fs, n ∈ ks.foldl setName fs := by
  have h1 : ∀ (fs : List String) (k : String), k ∈ setName fs k ∧ ∀ n ∈ fs, n ∈ setName fs k := by
    intro fs k
    induction fs with
    | nil => simp [setName]
    | cons f t ih =>
      simp only [setName]
      by_cases h : f = k
      · simp [h]
      · simp only [if_neg h, List.mem_cons]
        refine ⟨.inr ih.1, ?_⟩
        rintro n (rfl | hn)
        · exact .inl rfl
        · exact .inr (ih.2 n hn)
  induction ks generalizing fs with
  | nil => intro n hn; exact hn
  | cons k t ih =>
    intro n hn
    rw [List.foldl_cons]
    refine ih _ n ?_
    rw [List.cons_append, List.mem_cons, List.mem_append] at hn
    rcases hn with rfl | hn | hn
    · exact List.mem_append.2 (.inr (h1 fs n).1)
    · exact List.mem_append.2 (.inl hn)
    · exact List.mem_append.2 (.inr ((h1 fs k).2 n hn))

/-- What the map over the partitions gives to the update. -/
theorem indexed_results (func : Callback V Data) (c : Cfg Row V) (parts : Store Row V)
    (fields names : List String) (size : Row → Nat) (attr : Row → Nat → Values)
    (hi : Indexes func c parts fields names size attr) :
    ∃ l, mapParts c (fun p => .ok p) func parts = .ok l ∧ l.map (·.1) = c.parts ∧
      ∀ x ∈ l, x.2.fields = fields ∧ (∀ v ∈ x.2.rows, v.length = fields.length) ∧
        RowsDescribe names (attr x.1) (size x.1) (x.2.rows.map (dataValues x.1 fields)) := by
  have hone : ∀ p ∈ c.parts, ∃ d, (do
      let zds ← loadDataset c parts p
      let k ← (.ok p : Py Row)
      let r ← func zds none
      .ok (k, r) : Py (Row × Data)) = .ok (p, d) ∧ d.fields = fields ∧
      (∀ v ∈ d.rows, v.length = fields.length) ∧
      RowsDescribe names (attr p) (size p) (d.rows.map (dataValues p fields)) := by
    intro p hp
    obtain ⟨zds, d, h1, h2, h3⟩ := hi.result p hp
    exact ⟨d, by simp only [bind, Except.bind, h1, h2], h3⟩
  obtain ⟨l, hl⟩ := mapPy_exists _ _ fun p hp => let ⟨d, h, _⟩ := hone p hp; ⟨(p, d), h⟩
  refine ⟨l, hl, ?_, ?_⟩
  · obtain ⟨h1, h2⟩ := mapPy_spec _ _ _ hl
    apply List.ext_getElem?
    intro i
    rw [List.getElem?_map]
    cases hp : c.parts[i]? with
    | none =>
      rw [List.getElem?_eq_none_iff] at hp
      rw [List.getElem?_eq_none (by omega)]
      rfl
    | some p =>
      obtain ⟨y, hy, hf⟩ := h2 i p hp
      obtain ⟨d, hd, _⟩ := hone p (List.mem_of_getElem? hp)
      rw [hy]
      have := hf.symm.trans hd
      cases this
      rfl
  · intro x hx
    obtain ⟨p, hp, hf⟩ := mapPy_mem _ _ _ hl x hx
    obtain ⟨d, hd, h⟩ := hone p hp
    have := hf.symm.trans hd
    cases this
    exact h

/-- C66: after the update of an index on a collection, the index describes the records of the
collection.  Partial: the rows of the index before the update are about partitions that still
exist. -/
theorem C66_update_partial (st : State) (fields names : List String) (hg : GoodIndex st fields)
    (c : Cfg Row V) (func : Callback V Data) (parts : Store Row V) (size : Row → Nat)
    (attr : Row → Nat → Values) (hnd : c.parts.Nodup) (hlist : ∀ p, p ∈ c.parts ↔ parts p ≠ none)
    (hkeys : ∀ p, parts p ≠ none → p.map (·.1) = st.keys)
    (hpos : ∀ p, parts p ≠ none → 0 < size p) (hne : ∃ p, parts p ≠ none)
    (hi : Indexes func c parts fields names size attr)
    (hold : ∀ r ∈ fileRows st, ∃ p, parts p ≠ none ∧ InPart p r) :
    ∃ st' t, updateAll st c func parts = (st', .ok ()) ∧ UpToDate st' names parts size attr ∧
      Ix.read st' = .ok t ∧ t.rows = fileRows st' ∧ t.names = st.keys.foldl setName fields ∧
      GoodIndex st' fields ∧ st'.keys = st.keys ∧ st'.types = st.types := by
  obtain ⟨l, hl, hfst, hres⟩ := indexed_results func c parts fields names size attr hi
  have hmemp : ∀ x ∈ l, parts x.1 ≠ none := fun x hx =>
    (hlist _).1 (hfst ▸ List.mem_map_of_mem hx)
  have hgr : GoodResults st fields l :=
    ⟨hfst ▸ hnd, fun x hx => hkeys _ (hmemp x hx), fun x hx => (hres x hx).1,
      fun x hx => (hres x hx).2.1⟩
  have hrows : ∀ x ∈ l, x.2.rows ≠ [] := by
    intro x hx he
    obtain ⟨f, hf, _⟩ := (hres x hx).2.2.all 0 (hpos _ (hmemp x hx))
    rw [he] at hf
    cases hf
  have hex : ∀ p, parts p ≠ none → ∃ x ∈ l, x.1 = p := by
    intro p hp
    have := (hlist p).2 hp
    rw [← hfst] at this
    obtain ⟨x, hx, e⟩ := List.mem_map.1 this
    exact ⟨x, hx, e⟩
  obtain ⟨p0, hp0⟩ := hne
  obtain ⟨x0, hx0, _⟩ := hex p0 hp0
  obtain ⟨t, hu, htn, _⟩ := update_ok st fields hg l hgr ⟨x0, hx0, hrows x0 hx0⟩
  obtain ⟨st', hu', g1, _, g3, _, g5, _⟩ := C41_update_partial st fields hg l hgr
  rw [hu] at hu'
  cases hu'
  refine ⟨{ st with file := some t, table := some t }, t, (by rw [updateAll, hl]; exact hu), ⟨hkeys, ?_, ?_⟩, rfl, rfl, htn, g5, rfl, rfl⟩
  · intro r hr
    rcases g3 r hr with h | ⟨x, hx, hp⟩
    · exact hold r h
    · exact ⟨x.1, hmemp x hx, hp⟩
  · intro p hp
    obtain ⟨x, hx, rfl⟩ := hex p hp
    have hcmp := g1 x hx (hrows x hx)
    have he : (computedRows x.1 (fileRows { st with file := some t, table := some t })).map
        rowValues = x.2.rows.map (dataValues x.1 fields) := by
      apply List.ext_getElem?
      intro i
      rw [List.getElem?_map, List.getElem?_map]
      cases hv : x.2.rows[i]? with
      | none =>
        rw [List.getElem?_eq_none_iff] at hv
        rw [List.getElem?_eq_none (by rw [hcmp.count]; exact hv)]
        rfl
      | some v =>
        have hil := (List.getElem?_eq_some_iff.1 hv).1
        have hr := List.getElem?_eq_getElem (l := computedRows x.1
          (fileRows { st with file := some t, table := some t })) (i := i)
          (by rw [hcmp.count]; exact hil)
        rw [hr]
        simp only [Option.map_some, Option.some.injEq]
        funext n
        rw [show rowValues _ n = List.lookup n _ from rfl, hcmp.values i v _ hv hr n,
          (hres x hx).1]
        rfl
    rw [he]
    exact (hres x hx).2.2

/-- C66, full statement: after the update of an index on a collection, the load of what a query
selects returns the records that satisfy the conditions. -/
def C66_full : Prop :=
  ∀ (V : Type) (o : Ld.Opts V) (st : State) (fields names : List String) (c : Cfg Row V)
    (func : Callback V Data) (parts : Store Row V) (size : Row → Nat) (other : String → Nat)
    (attr : Row → Nat → Values), GoodIndex st fields →
    (∀ n ∈ "start" :: "stop" :: names, n ∈ st.keys ++ fields) → c.parts.Nodup →
    (∀ p, p ∈ c.parts ↔ parts p ≠ none) → (∀ p, parts p ≠ none → p.map (·.1) = st.keys) →
    (∀ p, parts p ≠ none → 0 < size p) → (∃ p, parts p ≠ none) →
    Indexes func c parts fields names size attr → Uniform o.dim size other parts →
    (∀ p vars, parts p = some vars → ∃ v ∈ vars, Chosen o.sel v.name ∧ o.dim ∈ v.dims) →
    (∀ iv, o.imm = some iv → GoodImm o.dim other parts iv) →
    ∃ st', updateAll st c func parts = (st', .ok ()) ∧
      ∀ (columns : List (String × List Int)) (op : String) (filters : Row → Bool),
        op ∈ ["and", "and_not", "or", "xor"] → (∀ x ∈ columns, x.1 ∈ names) →
        (∃ p j, parts p ≠ none ∧ filters p = true ∧ j < size p ∧ Meets op columns (attr p j)) →
        ∃ segs zds, queryLoad o st' columns (some op) none parts filters = .ok (some zds) ∧
          Retrieves (fun p j => parts p ≠ none ∧ filters p = true ∧ j < size p ∧
            Meets op columns (attr p j)) segs ∧
          HoldsSegments o.dim o.sel parts segs zds

/-- C66: after the update of an index on a collection, the load of what a query selects returns
the records that satisfy the conditions.  Partial: the rows of the index before the update are
about partitions that still exist. -/
theorem C66_indexed_partial (o : Ld.Opts V) (st : State) (fields names : List String)
    (c : Cfg Row V) (func : Callback V Data) (parts : Store Row V) (size : Row → Nat)
    (other : String → Nat) (attr : Row → Nat → Values) (hg : GoodIndex st fields)
    (hnames : ∀ n ∈ "start" :: "stop" :: names, n ∈ st.keys ++ fields) (hnd : c.parts.Nodup)
    (hlist : ∀ p, p ∈ c.parts ↔ parts p ≠ none)
    (hkeys : ∀ p, parts p ≠ none → p.map (·.1) = st.keys)
    (hpos : ∀ p, parts p ≠ none → 0 < size p) (hne : ∃ p, parts p ≠ none)
    (hi : Indexes func c parts fields names size attr) (hu : Uniform o.dim size other parts)
    (hax : ∀ p vars, parts p = some vars → ∃ v ∈ vars, Chosen o.sel v.name ∧ o.dim ∈ v.dims)
    (himm : ∀ iv, o.imm = some iv → GoodImm o.dim other parts iv)
    (hold : ∀ r ∈ fileRows st, ∃ p, parts p ≠ none ∧ InPart p r) :
    ∃ st', updateAll st c func parts = (st', .ok ()) ∧
      ∀ (columns : List (String × List Int)) (op : String) (filters : Row → Bool),
        op ∈ ["and", "and_not", "or", "xor"] → (∀ x ∈ columns, x.1 ∈ names) →
        ((∃ p j, parts p ≠ none ∧ filters p = true ∧ j < size p ∧ Meets op columns (attr p j)) →
          ∃ segs zds, queryLoad o st' columns (some op) none parts filters = .ok (some zds) ∧
            Retrieves (fun p j => parts p ≠ none ∧ filters p = true ∧ j < size p ∧
              Meets op columns (attr p j)) segs ∧
            HoldsSegments o.dim o.sel parts segs zds ∧ HoldsImm o.sel (o.imm.getD []) zds ∧
            ∀ s ∈ segs, OnlyFrom o.sel parts (o.imm.getD []) s.1 zds) ∧
        ((¬ ∃ p j, parts p ≠ none ∧ filters p = true ∧ j < size p ∧ Meets op columns (attr p j)) →
          queryLoad o st' columns (some op) none parts filters = .ok none) := by
  obtain ⟨st', t, h1, h2, h3, h4, h5, h6, h7, h8⟩ := C66_update_partial st fields names hg c func
    parts size attr hnd hlist hkeys hpos hne hi hold
  refine ⟨st', h1, ?_⟩
  intro columns op filters hop hcol
  have hq : GoodQuery st' t columns none := by
    refine ⟨h6.keys, h3, ?_, ?_, ?_, (fun m hm => by cases hm)⟩
    · intro n hn
      rw [h5]
      refine setName_mem _ _ n ?_
      rw [h7, List.mem_append] at hn
      rcases hn with hn | hn
      · exact List.mem_append.2 (.inl hn)
      · refine hnames n ?_
        simp only [List.mem_cons, List.not_mem_nil, or_false] at hn ⊢
        rcases hn with rfl | rfl <;> simp
    · intro r hr n hn
      have hfile : ∃ t', st'.file = some t' ∧ r ∈ t'.rows := by
        rw [h4] at hr
        unfold fileRows at hr
        split at hr
        · cases hr
        · next t' ht' => exact ⟨t', ht', hr⟩
      obtain ⟨t', e1, e2⟩ := hfile
      obtain ⟨e3, e4⟩ := h6.file t' e1
      have := e4 r e2
      rw [e3, h7, ← h5] at this
      intro hl
      rw [List.lookup_eq_none_iff] at hl
      rw [← this] at hn
      obtain ⟨x, hx, rfl⟩ := List.mem_map.1 hn
      have := hl x hx
      simp at this
    · intro x hx
      have := hnames x.1 (List.mem_cons_of_mem _ (List.mem_cons_of_mem _ (hcol x hx)))
      refine ⟨h5 ▸ setName_mem _ _ _ this, h6.types _ (h7.symm ▸ this)⟩
  refine ⟨fun hsome => ?_, fun hnone => ?_⟩
  · exact C66_query_load o st' t columns op hop names parts filters size other attr hu hax himm hq
      h4 h2 hcol hsome
  · exact C66_nothing o st' t columns op hop names parts filters size attr hq h4 h2 hcol hnone

end Verif
