import Verif.Spec.Index
import Verif.Lemmas.Dataset

/-! C41: updates of an index. -/

namespace Verif

open Spec Ix
open Ds (mapPy)

/-! ### Columns -/

theorem row_lookup (x : String × Int) (t : Row) (n : String) :
    List.lookup n (x :: t) = if n = x.1 then some x.2 else t.lookup n := by
  obtain ⟨m, v⟩ := x
  rw [List.lookup_cons]
  by_cases h : n = m
  · simp [h]
  · have : (n == m) = false := by simp [h]
    simp [h, this]

theorem lookup_setCol (r : Row) (x : String × Int) (n : String) :
    (setCol r x).lookup n = if n = x.1 then some x.2 else r.lookup n := by
  induction r with
  | nil => simp only [setCol, row_lookup]
  | cons y t ih =>
    simp only [setCol]
    by_cases h : y.1 = x.1
    · rw [if_pos h]
      simp only [row_lookup, h]
      split <;> rfl
    · rw [if_neg h]
      simp only [row_lookup, ih]
      by_cases h2 : n = y.1
      · subst h2
        simp [h]
      · simp [h2]

theorem lookup_foldl_setCol (item : List (String × Int)) (hn : (item.map (·.1)).Nodup) (r : Row)
    (n : String) : (item.foldl setCol r).lookup n =
      if n ∈ item.map (·.1) then item.lookup n else r.lookup n := by
  induction item generalizing r with
  | nil => simp
  | cons x t ih =>
    rw [List.map_cons, List.nodup_cons] at hn
    rw [List.foldl_cons, ih hn.2, lookup_setCol]
    simp only [List.map_cons, List.mem_cons, row_lookup]
    by_cases h : n = x.1
    · subst h
      simp [hn.1]
    · by_cases h2 : n ∈ t.map (·.1)
      · rw [if_pos h2, if_pos (.inr h2), if_neg h]
      · rw [if_neg h2, if_neg h, if_neg (not_or.2 ⟨h, h2⟩)]

theorem setCol_names (r : Row) (x : String × Int) :
    (setCol r x).map (·.1) = setName (r.map (·.1)) x.1 := by
  induction r with
  | nil => rfl
  | cons y t ih =>
    simp only [setCol, setName, List.map_cons]
    by_cases h : y.1 = x.1
    · simp [h]
    · simp [h, ih]

theorem foldl_setCol_names (item : List (String × Int)) (r : Row) :
    (item.foldl setCol r).map (·.1) = (item.map (·.1)).foldl setName (r.map (·.1)) := by
  induction item generalizing r with
  | nil => rfl
  | cons x t ih => rw [List.foldl_cons, ih, setCol_names]; rfl

theorem zip_names (fields : List String) (v : List Int) (h : v.length = fields.length) :
    (fields.zip v).map (·.1) = fields := by
  rw [List.map_fst_zip]
  omega

theorem inItem_iff (r : Row) (item : List (String × Int)) : inItem r item = true ↔ InPart item r := by
  simp [inItem, InPart]

/-- Two partitions with the same keys and a row in common. -/
theorem part_unique (a b : List (String × Int)) (hk : a.map (·.1) = b.map (·.1))
    (h : ∀ n, n ∈ a.map (·.1) → a.lookup n = b.lookup n) (hn : (a.map (·.1)).Nodup) : a = b := by
  induction a generalizing b with
  | nil =>
    cases b with
    | nil => rfl
    | cons y t => simp at hk
  | cons x t ih =>
    cases b with
    | nil => simp at hk
    | cons y s =>
      obtain ⟨n, v⟩ := x
      obtain ⟨m, w⟩ := y
      simp only [List.map_cons, List.cons.injEq] at hk
      obtain ⟨rfl, hk⟩ := hk
      have h0 := h n (by simp)
      simp only [List.lookup_cons, BEq.rfl, Option.some.injEq] at h0
      subst h0
      rw [List.map_cons, List.nodup_cons] at hn
      rw [ih s hk ?_ hn.2]
      intro k hk'
      have := h k (by simp [hk'])
      have hne : (k == n) = false := by
        simp only [beq_eq_false_iff_ne, ne_eq]
        rintro rfl
        exact hn.1 hk'
      simpa only [List.lookup_cons, hne] using this

theorem lookup_of_mem_nodup (a : List (String × Int)) (hn : (a.map (·.1)).Nodup) (c : String × Int)
    (hc : c ∈ a) : a.lookup c.1 = some c.2 := by
  induction a with
  | nil => cases hc
  | cons x t ih =>
    rw [List.map_cons, List.nodup_cons] at hn
    rw [row_lookup]
    rcases List.mem_cons.1 hc with rfl | hc
    · simp
    · rw [if_neg]
      · exact ih hn.2 hc
      · intro h
        exact hn.1 (h ▸ List.mem_map_of_mem hc)

theorem inPart_unique {a b : List (String × Int)} {r : Row} (hk : a.map (·.1) = b.map (·.1))
    (hn : (a.map (·.1)).Nodup) (ha : InPart a r) (hb : InPart b r) : a = b := by
  refine part_unique a b hk (fun n hm => ?_) hn
  have hnb : (b.map (·.1)).Nodup := hk ▸ hn
  obtain ⟨c, hc, rfl⟩ := List.mem_map.1 hm
  obtain ⟨d, hd, hdn⟩ := List.mem_map.1 (hk ▸ hm)
  rw [lookup_of_mem_nodup a hn c hc]
  have h1 := ha c hc
  have h2 := hb d hd
  rw [hdn, h1] at h2
  rw [← hdn, lookup_of_mem_nodup b hnb d hd, ← h2]

/-! ### The update -/

/-- The rows of the table of one partition. -/
def newRows (x : List (String × Int) × Data) : List Row :=
  x.2.rows.map fun r => x.1.foldl setCol (x.2.fields.zip r)

theorem newRows_computed (x : List (String × Int) × Data) (hn : (x.1.map (·.1)).Nodup) :
    Computed x.1 x.2 (newRows x) := by
  constructor
  · simp [newRows]
  · intro i v r hv hr n
    simp only [newRows, List.getElem?_map, hv, Option.map_some, Option.some.injEq] at hr
    subst hr
    exact lookup_foldl_setCol x.1 hn _ n

theorem newRows_inPart (x : List (String × Int) × Data) (hn : (x.1.map (·.1)).Nodup) (r : Row)
    (hr : r ∈ newRows x) : InPart x.1 r := by
  obtain ⟨v, _, rfl⟩ := List.mem_map.1 hr
  intro c hc
  rw [lookup_foldl_setCol x.1 hn, if_pos (List.mem_map_of_mem hc)]
  exact lookup_of_mem_nodup _ hn _ hc

theorem tables_ok (st : State) (fields : List String) (hg : GoodIndex st fields)
    (l : List (List (String × Int) × Data)) (hl : GoodResults st fields l) :
    mapPy (tableOf st.types) l = .ok (l.map fun x =>
      { names := st.keys.foldl setName fields, rows := newRows x }) := by
  apply mapPy_ok
  intro x hx
  unfold tableOf
  rw [hl.fields x hx, hl.keys x hx]
  rw [if_neg, if_neg]
  · simp only [newRows, hl.fields x hx]
  · simp only [List.any_eq_true, decide_eq_true_eq, not_exists, not_and, Classical.not_not]
    intro c hc
    exact hg.types _ (List.mem_append_left _ (hl.keys x hx ▸ List.mem_map_of_mem hc))
  · simp only [List.any_eq_true, decide_eq_true_eq, not_exists, not_and, Classical.not_not]
    intro c hc
    exact hg.types _ (List.mem_append_right _ hc)

theorem concatTables_same (names : List String) (t : Table) (rest : List Table)
    (h : ∀ u ∈ t :: rest, u.names = names) :
    concatTables (t :: rest) = .ok { names := names, rows := (t :: rest).flatMap (·.rows) } := by
  simp only [concatTables]
  rw [if_neg, h t (by simp)]
  · rfl
  · simp only [List.any_eq_true, decide_eq_true_eq, not_exists, not_and, Classical.not_not]
    intro u hu
    rw [h u (by simp [hu]), h t (by simp)]

/-- What an update that computed rows writes. -/
theorem update_ok (st : State) (fields : List String) (hg : GoodIndex st fields)
    (l : List (List (String × Int) × Data)) (hl : GoodResults st fields l)
    (hne : ∃ x ∈ l, x.2.rows ≠ []) :
    ∃ t, Ix.update st (.ok l) = ({ st with file := some t, table := some t }, .ok ()) ∧
      t.names = st.keys.foldl setName fields ∧
      t.rows = (fileRows st).filter (fun r => !((l.filter fun x =>
        decide (x.2.rows.length ≠ 0)).map (·.1)).any (inItem r)) ++
        (l.filter fun x => decide (x.2.rows.length ≠ 0)).flatMap newRows := by
  have hl' : GoodResults st fields (l.filter fun x => decide (x.2.rows.length ≠ 0)) := by
    refine ⟨?_, ?_, ?_, ?_⟩
    · exact (List.Sublist.map _ List.filter_sublist).nodup hl.parts
    · exact fun x hx => hl.keys x (List.mem_filter.1 hx).1
    · exact fun x hx => hl.fields x (List.mem_filter.1 hx).1
    · exact fun x hx => hl.rows x (List.mem_filter.1 hx).1
  have hne' : (l.filter fun x => decide (x.2.rows.length ≠ 0)) ≠ [] := by
    obtain ⟨x, hx, hr⟩ := hne
    refine List.ne_nil_of_mem (List.mem_filter.2 ⟨hx, ?_⟩)
    simpa using hr
  simp only [Ix.update]
  generalize (l.filter fun x => decide (x.2.rows.length ≠ 0)) = m at *
  rw [tables_ok st fields hg m hl']
  simp only [if_neg hne']
  cases hf : st.file with
  | none =>
    simp only
    obtain ⟨y, s, rfl⟩ := List.exists_cons_of_ne_nil hne'
    rw [List.map_cons, concatTables_same (st.keys.foldl setName fields)]
    · refine ⟨_, rfl, rfl, ?_⟩
      simp only [fileRows, hf, List.filter_nil, List.nil_append, List.flatMap_cons]
      rw [List.flatMap_map]
    · intro u hu
      rcases List.mem_cons.1 hu with rfl | hu
      · rfl
      · obtain ⟨z, _, rfl⟩ := List.mem_map.1 hu
        rfl
  | some t =>
    simp only
    obtain ⟨ht1, ht2⟩ := hg.file t hf
    have hw : withoutItems t (m.map (·.1)) = .ok { t with rows := t.rows.filter fun r =>
        !((m.map (·.1)).any (inItem r)) } := by
      unfold withoutItems
      rw [if_neg, if_neg]
      · simp only [List.any_eq_true, decide_eq_true_eq, not_exists, not_and, Classical.not_not]
        intro item hi c hc
        obtain ⟨x, hx, rfl⟩ := List.mem_map.1 hi
        rw [ht1]
        have hcm : c.1 ∈ st.keys := hl'.keys x hx ▸ List.mem_map_of_mem hc
        clear ht1 ht2 hf
        generalize st.keys = ks at hcm
        generalize fields = fs
        have aux : ∀ (ks fs : List String), (∀ n ∈ fs, n ∈ ks.foldl setName fs) ∧
            ∀ n ∈ ks, n ∈ ks.foldl setName fs := by
          have h1 : ∀ (fs : List String) (k : String), k ∈ setName fs k ∧ ∀ n ∈ fs, n ∈ setName fs k := by
            intro fs k
            induction fs with
            | nil => simp [setName]
            | cons f t ih =>
              simp only [setName]
              by_cases h : f = k
              · simp [h]
              · simp only [if_neg h, List.mem_cons]
                refine ⟨.inr ih.1, ?_⟩
                rintro n (rfl | hn)
                · exact .inl rfl
                · exact .inr (ih.2 n hn)
          intro ks
          induction ks with
          | nil => intro fs; simp
          | cons k t ih =>
            intro fs
            rw [List.foldl_cons]
            refine ⟨fun n hn => (ih _).1 n ((h1 fs k).2 n hn), fun n hn => ?_⟩
            rcases List.mem_cons.1 hn with rfl | hn
            · exact (ih _).1 _ (h1 fs n).1
            · exact (ih _).2 n hn
        exact (aux ks fs).2 _ hcm
      · simp only [List.any_eq_true, decide_eq_true_eq, not_exists, not_and]
        intro item hi h0
        obtain ⟨x, hx, rfl⟩ := List.mem_map.1 hi
        have := hl'.keys x hx
        rw [h0] at this
        exact hg.keys this.symm
    rw [hw]
    simp only
    rw [concatTables_same (st.keys.foldl setName fields)]
    · refine ⟨_, rfl, rfl, ?_⟩
      simp only [fileRows, hf, List.flatMap_cons]
      rw [List.flatMap_map]
    · intro u hu
      rcases List.mem_cons.1 hu with rfl | hu
      · exact ht1
      · obtain ⟨z, _, rfl⟩ := List.mem_map.1 hu
        rfl

theorem filter_any_inItem (rows : List Row) (items : List (List (String × Int)))
    (part : List (String × Int)) (h : part ∈ items) :
    computedRows part (rows.filter fun r => !(items.any (inItem r))) = [] := by
  unfold computedRows
  rw [List.filter_eq_nil_iff]
  intro r hr
  obtain ⟨_, h2⟩ := List.mem_filter.1 hr
  simp only [Bool.not_eq_true', List.any_eq_false] at h2
  simp only [decide_eq_true_eq]
  intro hp
  exact h2 part h ((inItem_iff r part).2 hp)

theorem filter_other_items (rows : List Row) (items : List (List (String × Int)))
    (part : List (String × Int)) (hk : ∀ i ∈ items, part.map (·.1) = i.map (·.1))
    (hn : (part.map (·.1)).Nodup) (h : part ∉ items) :
    computedRows part (rows.filter fun r => !(items.any (inItem r))) = computedRows part rows := by
  unfold computedRows
  rw [List.filter_filter]
  apply List.filter_congr
  intro r _
  by_cases hp : InPart part r
  · have : items.any (inItem r) = false := by
      rw [List.any_eq_false]
      intro i hi hc
      have := inPart_unique (hk i hi) hn hp ((inItem_iff r i).1 hc)
      exact h (this ▸ hi)
    simp [hp, this]
  · simp [hp]

theorem rowsOf_newRows (x : List (String × Int) × Data) (part : List (String × Int))
    (hk : part.map (·.1) = x.1.map (·.1)) (hn : (part.map (·.1)).Nodup) :
    computedRows part (newRows x) = if part = x.1 then newRows x else [] := by
  unfold computedRows
  by_cases h : part = x.1
  · rw [if_pos h, List.filter_eq_self]
    intro r hr
    subst h
    exact decide_eq_true (newRows_inPart x hn r hr)
  · rw [if_neg h, List.filter_eq_nil_iff]
    intro r hr hc
    simp only [decide_eq_true_eq] at hc
    exact h (inPart_unique hk hn hc (newRows_inPart x (hk ▸ hn) r hr))

theorem rowsOf_flatMap_none (l : List (List (String × Int) × Data)) (part : List (String × Int))
    (hk : ∀ x ∈ l, part.map (·.1) = x.1.map (·.1)) (hn : (part.map (·.1)).Nodup)
    (h : part ∉ l.map (·.1)) : computedRows part (l.flatMap newRows) = [] := by
  induction l with
  | nil => rfl
  | cons y t ih =>
    have hy : computedRows part (newRows y) = [] := by
      rw [rowsOf_newRows y part (hk y (by simp)) hn, if_neg]
      rintro rfl
      exact h (by simp)
    have ht := ih (fun x hx => hk x (by simp [hx])) (fun hc => h (by
      rw [List.map_cons]
      exact List.mem_cons_of_mem _ hc))
    unfold computedRows at *
    rw [List.flatMap_cons, List.filter_append, hy, ht]
    rfl

theorem rowsOf_flatMap_mem (l : List (List (String × Int) × Data))
    (hnd : (l.map (·.1)).Nodup) (x : List (String × Int) × Data) (hx : x ∈ l)
    (hk : ∀ y ∈ l, x.1.map (·.1) = y.1.map (·.1)) (hn : (x.1.map (·.1)).Nodup) :
    computedRows x.1 (l.flatMap newRows) = newRows x := by
  induction l with
  | nil => cases hx
  | cons y t ih =>
    rw [List.map_cons, List.nodup_cons] at hnd
    have hsplit : computedRows x.1 ((y :: t).flatMap newRows) =
        computedRows x.1 (newRows y) ++ computedRows x.1 (t.flatMap newRows) := by
      unfold computedRows
      rw [List.flatMap_cons, List.filter_append]
    rw [hsplit, rowsOf_newRows y x.1 (hk y (by simp)) hn]
    rcases List.mem_cons.1 hx with rfl | hx
    · rw [if_pos rfl, rowsOf_flatMap_none t x.1 (fun z hz => hk z (by simp [hz])) hn hnd.1,
        List.append_nil]
    · rw [if_neg, ih hnd.2 hx fun z hz => hk z (by simp [hz])]
      · rfl
      · intro h
        exact hnd.1 (h ▸ List.mem_map_of_mem hx)

/-- C41: after an update the index has, for each partition with recomputed rows, exactly these
rows; for the other partitions its rows are unchanged; a query sees the result.  Missing: a
partition for which the function now returns no row keeps its old rows (`C41_stale`). -/
theorem C41_update_partial (st : State) (fields : List String) (hg : GoodIndex st fields)
    (l : List (List (String × Int) × Data)) (hl : GoodResults st fields l) :
    ∃ st', Ix.update st (.ok l) = (st', .ok ()) ∧
      (∀ x ∈ l, x.2.rows ≠ [] → Computed x.1 x.2 (computedRows x.1 (fileRows st'))) ∧
      (∀ part : List (String × Int), part.map (·.1) = st.keys →
        (∀ x ∈ l, x.1 = part → x.2.rows = []) →
        computedRows part (fileRows st') = computedRows part (fileRows st)) ∧
      (∀ r ∈ fileRows st', r ∈ fileRows st ∨ ∃ x ∈ l, InPart x.1 r) ∧
      (∀ x ∈ l, x.2.rows ≠ [] → ∃ t, Ix.read st' = .ok t ∧ t.rows = fileRows st') ∧
      GoodIndex st' fields ∧ st'.keys = st.keys := by
  by_cases hne : ∃ x ∈ l, x.2.rows ≠ []
  · obtain ⟨t, h1, h2, h3⟩ := update_ok st fields hg l hl hne
    refine ⟨_, h1, ?_, ?_, ?_, ?_, ?_, rfl⟩
    · intro x hx hr
      show Computed x.1 x.2 (computedRows x.1 t.rows)
      have hxm : x ∈ l.filter fun x => decide (x.2.rows.length ≠ 0) :=
        List.mem_filter.2 ⟨hx, by simpa using hr⟩
      have hn : (x.1.map (·.1)).Nodup := by rw [hl.keys x hx]; exact hg.nodup
      rw [h3]
      unfold computedRows
      rw [List.filter_append]
      have e1 := filter_any_inItem (fileRows st)
        ((l.filter fun x => decide (x.2.rows.length ≠ 0)).map (·.1)) x.1 (List.mem_map_of_mem hxm)
      have e2 := rowsOf_flatMap_mem (l.filter fun x => decide (x.2.rows.length ≠ 0))
        ((List.Sublist.map _ List.filter_sublist).nodup hl.parts) x hxm
        (fun y hy => by rw [hl.keys x hx, hl.keys y (List.mem_filter.1 hy).1]) hn
      unfold computedRows at e1 e2
      rw [e1, e2, List.nil_append]
      exact newRows_computed x hn
    · intro part hk hp
      show computedRows part t.rows = _
      have hn : (part.map (·.1)).Nodup := by rw [hk]; exact hg.nodup
      have hnm : part ∉ (l.filter fun x => decide (x.2.rows.length ≠ 0)).map (·.1) := by
        intro hc
        obtain ⟨x, hx, rfl⟩ := List.mem_map.1 hc
        obtain ⟨a, b⟩ := List.mem_filter.1 hx
        have := hp x a rfl
        simp [this] at b
      rw [h3]
      have e1 := filter_other_items (fileRows st)
        ((l.filter fun x => decide (x.2.rows.length ≠ 0)).map (·.1)) part (by
          intro i hi
          obtain ⟨x, hx, rfl⟩ := List.mem_map.1 hi
          rw [hk, hl.keys x (List.mem_filter.1 hx).1]) hn hnm
      have e2 := rowsOf_flatMap_none (l.filter fun x => decide (x.2.rows.length ≠ 0)) part (by
          intro x hx
          rw [hk, hl.keys x (List.mem_filter.1 hx).1]) hn hnm
      unfold computedRows at *
      rw [List.filter_append, e1, e2, List.append_nil]
    · intro r hr
      have hr : r ∈ t.rows := hr
      rw [h3] at hr
      rcases List.mem_append.1 hr with hr | hr
      · exact .inl (List.mem_filter.1 hr).1
      · obtain ⟨x, hx, hr⟩ := List.mem_flatMap.1 hr
        have hxl := (List.mem_filter.1 hx).1
        exact .inr ⟨x, hxl, newRows_inPart x (by rw [hl.keys x hxl]; exact hg.nodup) r hr⟩
    · intro _ _ _
      exact ⟨t, rfl, rfl⟩
    · refine ⟨hg.keys, hg.nodup, hg.types, ?_⟩
      intro t' ht'
      cases ht'
      refine ⟨h2, ?_⟩
      intro r hr
      rw [h3] at hr
      rw [h2]
      rcases List.mem_append.1 hr with hr | hr
      · have hr := (List.mem_filter.1 hr).1
        unfold fileRows at hr
        split at hr
        · cases hr
        · next t0 ht0 =>
          rw [(hg.file t0 ht0).2 r hr, (hg.file t0 ht0).1]
      · obtain ⟨x, hx, hr⟩ := List.mem_flatMap.1 hr
        have hxl := (List.mem_filter.1 hx).1
        obtain ⟨v, hv, rfl⟩ := List.mem_map.1 hr
        rw [foldl_setCol_names, hl.keys x hxl, hl.fields x hxl,
          zip_names fields v (hl.rows x hxl v hv)]
  · have hall : ∀ x ∈ l, x.2.rows = [] := fun x hx =>
      Classical.byContradiction fun hc => hne ⟨x, hx, hc⟩
    have hnil : (l.filter fun x => decide (x.2.rows.length ≠ 0)) = [] := by
      rw [List.filter_eq_nil_iff]
      intro x hx
      simp [hall x hx]
    refine ⟨st, ?_, ?_, ?_, fun r hr => .inl hr, ?_, hg, rfl⟩
    · simp only [Ix.update, hnil, mapPy, if_true]
    · intro x hx hr
      exact absurd (hall x hx) hr
    · intro _ _ _
      rfl
    · intro x hx hr
      exact absurd (hall x hx) hr

/-- C41: an update that fails leaves the index unchanged. -/
theorem C41_failure (st st' : State) (results : Py (List (List (String × Int) × Data))) (e : PyErr)
    (h : Ix.update st results = (st', .error e)) : st' = st := by
  unfold Ix.update at h
  split at h
  · cases h; rfl
  · simp only at h
    split at h
    · cases h; rfl
    · split at h
      · cases h
      · split at h
        · cases h; rfl
        · split at h
          · cases h; rfl
          · cases h

/-- C41 is violated: the function returns no row for a partition that has rows in the index, and
these rows stay (indexing/abc.py:278-279). -/
theorem C41_stale (st : State) (fields : List String) (hg : GoodIndex st fields)
    (l : List (List (String × Int) × Data)) (hl : GoodResults st fields l)
    (x : List (String × Int) × Data) (hx : x ∈ l) (hr : x.2.rows = []) :
    ∃ st', Ix.update st (.ok l) = (st', .ok ()) ∧
      computedRows x.1 (fileRows st') = computedRows x.1 (fileRows st) := by
  obtain ⟨st', h1, _, h3, _⟩ := C41_update_partial st fields hg l hl
  refine ⟨st', h1, h3 x.1 (hl.keys x hx) ?_⟩
  intro y hy hyx
  obtain ⟨i, hi⟩ := List.getElem?_of_mem hx
  obtain ⟨j, hj⟩ := List.getElem?_of_mem hy
  have hij : i = j := by
    have h1 : (l.map (·.1))[i]? = some x.1 := by rw [List.getElem?_map, hi]; rfl
    have h2 : (l.map (·.1))[j]? = some x.1 := by rw [List.getElem?_map, hj, ← hyx]; rfl
    obtain ⟨hi', e1⟩ := List.getElem?_eq_some_iff.1 h1
    obtain ⟨hj', e2⟩ := List.getElem?_eq_some_iff.1 h2
    exact (List.getElem_inj hl.parts).1 (e1.trans e2.symm)
  subst hij
  rw [hi] at hj
  cases hj
  exact hr

/-- C41, after any history of updates: the rows of a partition are those of the last update that
computed rows for it, and its original rows when there is none. -/
theorem C41_history_partial (st : State) (fields : List String) (hg : GoodIndex st fields)
    (us : List (List (List (String × Int) × Data))) (hl : ∀ l ∈ us, GoodResults st fields l)
    (part : List (String × Int)) (hk : part.map (·.1) = st.keys) :
    (∀ l ∈ us, ∀ x ∈ l, x.1 = part → x.2.rows = []) ∧
      computedRows part (fileRows (us.foldl (fun s l => (Ix.update s (.ok l)).1) st)) =
        computedRows part (fileRows st) ∨
    ∃ before l after, us = before ++ l :: after ∧ (∃ x ∈ l, x.1 = part ∧ x.2.rows ≠ [] ∧
      Computed part x.2 (computedRows part
        (fileRows (us.foldl (fun s l => (Ix.update s (.ok l)).1) st)))) ∧
      ∀ l' ∈ after, ∀ x ∈ l', x.1 = part → x.2.rows = [] := by
  induction us generalizing st with
  | nil => exact .inl ⟨by simp, rfl⟩
  | cons l t ih =>
    obtain ⟨st', h1, h2, h3, _, _, h4, h5⟩ := C41_update_partial st fields hg l (hl l (by simp))
    have hl' : ∀ l ∈ t, GoodResults st' fields l := by
      intro m hm
      have := hl m (by simp [hm])
      exact ⟨this.parts, fun x hx => h5 ▸ this.keys x hx, this.fields, this.rows⟩
    have hst : (Ix.update st (.ok l)).1 = st' := by rw [h1]
    simp only [List.foldl_cons, hst]
    rcases ih st' h4 hl' (hk.trans h5.symm) with ⟨a1, a2⟩ | ⟨before, m, after, b1, b2, b3⟩
    · by_cases hc : ∃ x ∈ l, x.1 = part ∧ x.2.rows ≠ []
      · obtain ⟨x, hx, hxp, hr⟩ := hc
        refine .inr ⟨[], l, t, rfl, ⟨x, hx, hxp, hr, ?_⟩, a1⟩
        rw [a2, ← hxp]
        exact h2 x hx hr
      · have hn : ∀ x ∈ l, x.1 = part → x.2.rows = [] := fun x hx hxp =>
          Classical.byContradiction fun hr => hc ⟨x, hx, hxp, hr⟩
        refine .inl ⟨?_, ?_⟩
        · intro m hm
          rcases List.mem_cons.1 hm with rfl | hm
          · exact hn
          · exact a1 m hm
        · rw [a2]
          exact h3 part hk hn
    · exact .inr ⟨l :: before, m, after, by rw [b1]; rfl, b2, b3⟩

/-- C41 as stated. -/
def C41_full : Prop :=
  ∀ (st : State) (fields : List String) (l : List (List (String × Int) × Data)),
    GoodIndex st fields → GoodResults st fields l →
    ∃ st', Ix.update st (.ok l) = (st', .ok ()) ∧
      (∀ x ∈ l, Computed x.1 x.2 (computedRows x.1 (fileRows st'))) ∧
      ∀ part : List (String × Int), part.map (·.1) = st.keys → part ∉ l.map (·.1) →
        computedRows part (fileRows st') = computedRows part (fileRows st)

/-- An index with one key: two partitions, the first one with two rows. -/
def smallIndex : State where
  keys := ["cycle"]
  types := ["start", "stop", "pass", "cycle"]
  file := some { names := ["start", "stop", "pass", "cycle"]
                 rows := [[("start", 0), ("stop", 10), ("pass", 1), ("cycle", 1)],
                          [("start", 10), ("stop", 15), ("pass", 2), ("cycle", 1)],
                          [("start", 0), ("stop", 7), ("pass", 1), ("cycle", 2)]] }
  table := none

theorem smallIndex_good : GoodIndex smallIndex ["start", "stop", "pass"] := by
  refine ⟨by decide, by decide, by decide, ?_⟩
  intro t ht
  cases ht
  exact ⟨by decide, by decide⟩

theorem C41_counterexample : ¬ C41_full := by
  intro h
  have hl : GoodResults smallIndex ["start", "stop", "pass"]
      [([("cycle", 1)], ⟨["start", "stop", "pass"], []⟩)] := by
    refine ⟨by decide, by decide, by decide, ?_⟩
    intro x hx
    simp only [List.mem_singleton] at hx
    subst hx
    intro v hv
    cases hv
  obtain ⟨st', h1, h2, _⟩ := h smallIndex _ _ smallIndex_good hl
  obtain ⟨st'', h3, h4⟩ := C41_stale smallIndex _ smallIndex_good _ hl _ (List.mem_singleton.2 rfl) rfl
  rw [h1] at h3
  cases h3
  have := (h2 _ (List.mem_singleton.2 rfl)).count
  rw [h4] at this
  revert this
  decide

/-- The hypotheses of `C41_update_partial` are met: one partition is recomputed, one is added. -/
example : ∃ st', Ix.update smallIndex (.ok
      [([("cycle", 1)], ⟨["start", "stop", "pass"], [[0, 20, 1]]⟩),
       ([("cycle", 3)], ⟨["start", "stop", "pass"], [[0, 4, 1], [4, 9, 2]]⟩)]) = (st', .ok ()) ∧
    (computedRows [("cycle", 1)] (fileRows st')).length = 1 ∧
    (computedRows [("cycle", 3)] (fileRows st')).length = 2 ∧
    computedRows [("cycle", 2)] (fileRows st') = computedRows [("cycle", 2)] (fileRows smallIndex) := by
  have hl : GoodResults smallIndex ["start", "stop", "pass"]
      [([("cycle", 1)], ⟨["start", "stop", "pass"], [[0, 20, 1]]⟩),
       ([("cycle", 3)], ⟨["start", "stop", "pass"], [[0, 4, 1], [4, 9, 2]]⟩)] := by
    refine ⟨by decide, by decide, by decide, by decide⟩
  obtain ⟨st', h1, h2, h3, _⟩ := C41_update_partial smallIndex _ smallIndex_good _ hl
  exact ⟨st', h1, (h2 _ (List.mem_cons_self ..) (by simp)).count,
    (h2 _ (List.mem_cons_of_mem _ (List.mem_cons_self ..)) (by simp)).count, h3 _ rfl (by simp)⟩

end Verif
