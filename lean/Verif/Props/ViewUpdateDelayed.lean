import Verif.Props.ViewUpdateLoad

/-! C57: when an update of a view with delayed datasets succeeds. -/

namespace Verif

open Spec Nd Ds Upd Vw

variable {D P V H : Type} [DecidableEq D] [DecidableEq P]

/-- Files that differ from those of `st` by values of the view only. -/
structure OnlyValues (e : Env D V H) (st : State D P V H) (fs : Files D P V H) : Prop where
  ref : ∀ p, fs e.refDir p = st.files e.refDir p
  same : ∀ p, ∃ names, SamePart names (st.files e.base p) (fs e.base p)
  arrays : ∀ p part, fs e.base p = some part → ∀ w ∈ part.vars, ArrOk w.array ∨
    ∃ old, st.files e.base p = some old ∧ ∃ v ∈ old.vars, v.name = w.name ∧ v.array = w.array
  shapes : ∀ q m, shapeIn e fs q m = shapeIn e st.files q m

omit [DecidableEq D] [DecidableEq P] in
theorem OnlyValues.start (e : Env D V H) (st : State D P V H) : OnlyValues e st st.files :=
  ⟨fun _ => rfl, fun _ => ⟨[], samePart_refl _ _⟩,
    fun _ part hp w hw => .inr ⟨part, hp, w, hw, rfl, rfl⟩, fun _ _ => rfl⟩

theorem OnlyValues.one {e : Env D V H} {st : State D P V H} {fs fs' : Files D P V H} {p : P}
    {n : String} {a : Arr V} (h : OnlyValues e st fs) (hd : e.base ≠ e.refDir) (ha : ArrOk a)
    (hs : shapeIn e fs p n = some a.shape)
    (hw : writeOne e fs p (n, .ok a) = .ok fs') : OnlyValues e st fs' := by
  obtain ⟨fs1, w1, w2⟩ := writeOne_accepts hs
  rw [hw] at w1
  cases w1
  obtain ⟨part, vars, h1, h2, rfl⟩ := writeOne_spec hw
  obtain ⟨s1, _⟩ := writeVar_spec h2
  refine ⟨fun q => ?_, fun q => ?_, fun q part' hq w hwm => ?_, fun q m => (w2 q m).trans (h.shapes q m)⟩
  · simp only [put, Ne.symm hd, false_and, if_false]
    exact h.ref q
  · simp only [put, true_and]
    split
    · next hpq =>
      subst hpq
      obtain ⟨names, hn⟩ := h.same q
      rw [h1] at hn
      exact ⟨_, samePart_grow hn s1⟩
    · exact h.same q
  · simp only [put, true_and] at hq
    split at hq
    · next hpq =>
      subst hpq
      cases hq
      unfold writeVar at h2
      split at h2
      · cases h2
      · split at h2
        · cases h2
        · cases h2
          rcases setVar_mem _ _ _ hwm with rfl | hm
          · exact .inl ha
          · exact h.arrays q part h1 w hm
    · exact h.arrays q part' hq w hwm

theorem OnlyValues.items {e : Env D V H} {st : State D P V H} {p : P} (hd : e.base ≠ e.refDir)
    (l : List (String × Arr V)) {fs : Files D P V H} (h : OnlyValues e st fs)
    (hl : ∀ x ∈ l, ArrOk x.2 ∧ shapeIn e st.files p x.1 = some x.2.shape) :
    ∃ fs', writeItems e fs p (l.map fun x => (x.1, .ok x.2)) = (fs', .ok ()) ∧
      OnlyValues e st fs' := by
  induction l generalizing fs with
  | nil => exact ⟨fs, rfl, h⟩
  | cons x t ih =>
    obtain ⟨a1, a2⟩ := hl x (List.mem_cons_self ..)
    rw [← h.shapes] at a2
    obtain ⟨fs1, w1, _⟩ := writeOne_accepts a2
    obtain ⟨fs2, i1, i2⟩ := ih (h.one hd a1 a2 w1) fun y hy => hl y (List.mem_cons_of_mem _ hy)
    exact ⟨fs2, by simp only [List.map_cons, writeItems, w1, i1], i2⟩

/-- C57: when an update succeeds without overlap, also for delayed datasets if the callback
returns arrays or at most one dask array: the callback accepts the dataset of each selected
partition and returns, for variables of the view only, arrays with the shape that they have in
this partition. -/
theorem C57_accepted_delayed [DecidableEq H] (e : Env D V H) (how : How) (listing : List P)
    (filters : P → Bool)
    (sel : Option (List String)) (f : Callback V (Dict V)) (st : State D P V H)
    (size : P → Nat) (other : String → Nat) (hd : e.base ≠ e.refDir) (hl : listing.Nodup)
    (hmetas : st.metas ≠ [])
    (href : ∀ p ∈ listing, st.files e.refDir p ≠ none) (hg : GoodView e st size other)
    (hc : DimsCovered e st sel) (hz : how.depth = 0)
    (hm : how.delayed = false ∨ how.isLazy = false ∨
      ∀ zds ind d, f zds ind = .ok d → d.length ≤ 1)
    (hw : 0 < how.workers)
    (hf : ∀ p ∈ selected e listing filters st, ∀ zds ind, Shows e st size sel [p] zds →
      ∃ d, f zds ind = .ok d ∧ ∀ x ∈ d, (∃ m ∈ st.metas, m.name = x.1) ∧ ArrOk x.2 ∧
        ∃ a, viewValues e st p x.1 = some a ∧ x.2.shape = a.shape) :
    ∃ st', Vw.update e how listing filters sel f st = (st', .ok ()) := by
  have hsel := partitions_selected e listing filters st href
  have hnp := nodup_partitions e listing hl filters st.files
  have hsteady : Steady how f := by
    rcases hm with hm | hm
    · exact .inl hm
    · exact .inr ⟨hz, hm⟩
  obtain ⟨dsl, d1, d2, d3⟩ := loadList_ok hg (.inl hc) how.delayed listing filters href
  have hshape : ∀ p n a, viewValues e st p n = some a → shapeIn e st.files p n = some a.shape := by
    intro p n a h
    unfold viewValues at h
    unfold shapeIn
    cases hp : st.files e.base p with
    | none => rw [hp] at h; cases h
    | some part =>
      rw [hp] at h
      simp only [Option.map_eq_some_iff] at h
      obtain ⟨v, h1, rfl⟩ := h
      simp only [Option.bind_some, getVar, h1, Option.map_some]
  -- the datasets can be loaded at any moment
  have hload : ∀ fs : Files D P V H, OnlyValues e st fs → ∀ err,
      loadList e true sel st.metas (partitions e listing filters st.files) fs ≠ .error err := by
    intro fs h err
    have hg' : GoodView e { st with files := fs } size other :=
      goodView_same hg rfl h.ref h.same h.arrays
    have hc' := covered_same (st := st) (st' := { st with files := fs }) (e := e) (sel := sel) rfl
      h.ref h.same (.inl hc)
    obtain ⟨dsl', g1, _⟩ := loadList_ok hg' hc' true listing filters
      (fun p hp => by
        show fs e.refDir p ≠ none
        rw [h.ref]
        exact href p hp)
    have hps : partitions e listing filters fs = partitions e listing filters st.files := by
      unfold partitions
      apply List.filter_congr
      intro p _
      obtain ⟨names, hn⟩ := h.same p
      generalize st.files e.base p = a at hn
      generalize fs e.base p = b at hn
      cases hn <;> rfl
    rw [← hps]
    intro hcon
    have := g1.symm.trans hcon
    cases this
  generalize hnow : (fun fs => if how.delayed = true then loadList e true sel st.metas
      (partitions e listing filters st.files) fs else .ok dsl) = now
  have hone : ∀ p ∈ selected e listing filters st, ∀ fs : Files D P V H, OnlyValues e st fs →
      (∀ d, fs d p = st.files d p) →
      ∃ fs', updateOne e how f now fs p = (fs', .ok ()) ∧ OnlyValues e st fs' := by
    intro p hp fs hfs hun
    obtain ⟨x, hx, hxp⟩ := List.mem_map.1 (d2 ▸ hp)
    cases hfind : dsl.find? (fun x => decide (x.2 = p)) with
    | none =>
      have := List.find?_eq_none.1 hfind x hx
      simp [hxp] at this
    | some y =>
      have hym := List.mem_of_find?_eq_some hfind
      have hyp : y.2 = p := by simpa using List.find?_some hfind
      obtain ⟨d, f1, f2⟩ := hf p hp y.1 none (hyp ▸ opened_alone hg (d3 y hym).1)
      have hcall : callItems e how f dsl p = .ok (d.map fun x => (x.1, .ok x.2)) := by
        simp only [callItems, hz, if_true, hfind, bind, Except.bind, f1]
      have hcases := updateOne_writes (g := fs) hsteady hnp d1 (hsel ▸ hp) hun
      rw [hnow] at hcases
      rcases hcases with ⟨err, _, ⟨_, hno⟩ | hno⟩ | ⟨l, hl1, hl2⟩
      · exact absurd hno (hload fs hfs err)
      · rw [hcall] at hno; cases hno
      · rw [hcall] at hl1
        cases hl1
        rw [hl2]
        refine hfs.items hd d fun x hx => ?_
        obtain ⟨_, ha, a, a1, a2⟩ := f2 x hx
        exact ⟨ha, by rw [hshape p _ a a1, a2]⟩
  have hbatch : ∀ (b : List P), b.Nodup → (∀ p ∈ b, p ∈ selected e listing filters st) →
      ∀ fs : Files D P V H, OnlyValues e st fs → (∀ p ∈ b, ∀ d, fs d p = st.files d p) →
      ∃ fs', updateBatch e how f now fs b = (fs', .ok ()) ∧ OnlyValues e st fs' := by
    intro b
    induction b with
    | nil => intro _ _ fs h _; exact ⟨fs, rfl, h⟩
    | cons p t ih =>
      intro hbn hb fs h hun
      rw [List.nodup_cons] at hbn
      obtain ⟨fs1, u1, u2⟩ := hone p (hb p (List.mem_cons_self ..)) fs h
        (hun p (List.mem_cons_self ..))
      have h4 := updateOne_frame e how f now fs p
      rw [u1] at h4
      obtain ⟨fs2, v1, v2⟩ := ih hbn.2 (fun q hq => hb q (List.mem_cons_of_mem _ hq)) fs1 u2
        fun q hq d => by
          rw [← hun q (List.mem_cons_of_mem _ hq) d]
          refine h4 d q fun hc => hbn.1 ?_
          rw [← hc.2]; exact hq
      exact ⟨fs2, by simp only [updateBatch, u1]; exact v1, v2⟩
  have hbatches : ∀ (bs : List (List P)), bs.flatten.Nodup →
      (∀ b ∈ bs, ∀ p ∈ b, p ∈ selected e listing filters st) →
      ∀ fs : Files D P V H, OnlyValues e st fs → (∀ p ∈ bs.flatten, ∀ d, fs d p = st.files d p) →
      ∃ fs', updateBatches e how f now fs bs = (fs', .ok ()) := by
    intro bs
    induction bs with
    | nil => intro _ _ fs h _; exact ⟨fs, rfl⟩
    | cons b t ih =>
      intro hbn hb fs h hun
      rw [List.flatten_cons, List.nodup_append] at hbn
      obtain ⟨fs1, u1, u2⟩ := hbatch b hbn.1 (hb b (List.mem_cons_self ..)) fs h fun p hp =>
        hun p (by rw [List.flatten_cons]; exact List.mem_append_left _ hp)
      have h4 := updateBatch_frame e how f now b fs
      rw [u1] at h4
      obtain ⟨fs2, v1⟩ := ih hbn.2.1 (fun c hc => hb c (List.mem_cons_of_mem _ hc)) fs1 u2
        fun p hp d => by
          rw [← hun p (by rw [List.flatten_cons]; exact List.mem_append_right _ hp) d]
          exact h4 d p fun hc => hbn.2.2 p hc.2 p hp rfl
      exact ⟨fs2, by simp only [updateBatches, u1]; exact v1⟩
  unfold Vw.update
  rw [if_neg hmetas]
  simp only [d1]
  cases hdsl : dsl with
  | nil => exact ⟨st, rfl⟩
  | cons x rest =>
    have hx := d3 x (by rw [hdsl]; exact List.mem_cons_self ..)
    have hxs : x.2 ∈ selected e listing filters st := by rw [← d2, hdsl]; simp
    obtain ⟨d, f1, f2⟩ := hf x.2 hxs x.1 (some (0, size x.2)) (opened_alone hg hx.1)
    have hh : ∃ us, mapPy (fun y => handled e st.metas y.1) d = .ok us := by
      refine mapPy_exists _ d fun y hy => ?_
      obtain ⟨⟨m, m1, m2⟩, _⟩ := f2 y hy
      refine ⟨(), ?_⟩
      unfold handled
      rw [if_neg, if_neg]
      · intro hc
        exact hc (List.mem_map.2 ⟨m, m1, m2⟩)
      · intro hc
        obtain ⟨t, t1, t2⟩ := List.mem_map.1 hc
        exact hg.apart m m1 t t1 (m2.trans t2.symm)
    obtain ⟨us, hus⟩ := hh
    have hpne : partitions e listing filters st.files ≠ [] := by
      rw [hsel]
      exact List.ne_nil_of_mem hxs
    obtain ⟨bs, b1, b2, _⟩ := C19_split_sequence (partitions e listing filters st.files)
      (some how.workers) hpne (by simp [hw])
    obtain ⟨fs', hfs⟩ := hbatches bs (by rw [b2]; exact hnp) (fun b hb p hp => by
      rw [← hsel, ← b2]; exact List.mem_flatten.2 ⟨b, hb, hp⟩) st.files (OnlyValues.start _ _)
      fun _ _ _ => rfl
    rw [← hnow, hdsl] at hfs
    simp only [hx.2 hc, f1, hus, checkDepth, hz, if_true, b1]
    exact ⟨_, by rw [hfs]⟩

/-- The hypotheses of `C57_accepted_delayed` are met in the default mode. -/
example : ∃ st', Vw.update (smallEnv (· == ·)) lazyMode [false, true] (fun _ => true) none fillX
    twoView = (st', .ok ()) := by
  refine C57_accepted_delayed _ _ _ _ _ _ _ viewSize (fun _ => 0) (by decide) (by decide)
    (by simp [twoView]) twoView_parts twoView_good twoView_covered rfl
    (.inr (.inr fun zds ind d h => ?_)) (by decide) ?_
  · simp only [fillX, bind, Except.bind] at h
    split at h
    · cases h
    · split at h
      · cases h
      · cases h; simp
  intro p hp zds ind hz
  obtain ⟨w, w1, w2⟩ := hz.holds.present p (by simp) _ (twoView_store p)
    (if p then xVar [30, 40, 50] else xVar [10, 20]) (by cases p <;> simp) (fun l hl => by cases hl)
  have w2 : w.name = "x" := by rw [w2]; cases p <;> rfl
  have hx : ∃ x, arrayOf zds "x" = .ok x := by
    unfold arrayOf getVarE
    cases hv : getVar zds.vars "x" with
    | none =>
      have := List.find?_eq_none.1 hv w w1
      simp [w2] at this
    | some v => exact ⟨v.array, rfl⟩
  obtain ⟨x, hx⟩ := hx
  obtain ⟨v, v1, v2, v3⟩ := arrayOf_var hx
  obtain ⟨_, k2, _⟩ := hz.holds.values v v1 0 p _
    (if p then xVar [30, 40, 50] else xVar [10, 20]) rfl (twoView_store p) (by cases p <;> simp)
    (by rw [v2]; cases p <;> rfl)
  have h0 : x.shape[0]? = some (viewSize p) := by
    rw [← v3]
    simpa using (k2 0 (by cases p <;> rfl)).1
  refine ⟨[("x", full [viewSize p] (viewSize p))], by simp [fillX, bind, Except.bind, hx, h0], ?_⟩
  intro y hy
  rw [List.mem_singleton.1 hy]
  refine ⟨⟨xMeta, by simp [twoView], rfl⟩, full_arrOk _ _, ?_⟩
  cases p
  · exact ⟨vec [10, 20], rfl, rfl⟩
  · exact ⟨vec [30, 40, 50], rfl, rfl⟩

end Verif
