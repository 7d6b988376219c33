import Verif.Spec.ViewUpdateLoad
import Verif.Lemmas.UpdateLoad
import Verif.Props.ViewUpdate
import Verif.Props.ViewLoad

/-! C85: a load of a view after an update. -/

namespace Verif

open Spec Nd Ds Upd Vw

/-- C85, full statement: after a successful update of a view, a load of any selection of
partitions and variables succeeds, and returns the values computed by the callback where it
returned some, and elsewhere the values held before. -/
def C85_full : Prop :=
  ∀ (D P V H : Type) [DecidableEq D] [DecidableEq P] [DecidableEq H] (e : Env D V H) (how : How)
    (le : P → P → Bool) (listing : List P) (updFilters filters : P → Bool)
    (updSel sel : Option (List String)) (delayed : Bool) (f : Callback V (Dict V))
    (st st' : State D P V H) (size : P → Nat) (other : String → Nat),
    e.base ≠ e.refDir → listing.Nodup → (∀ p ∈ listing, st.files e.refDir p ≠ none) →
    GoodView e st size other → DimsCovered e st updSel → DimsCovered e st sel →
    MapsArrays f → Keys f → (∃ p ∈ listing, filters p = true ∧ viewStore e st p ≠ none) →
    Vw.update e how listing updFilters updSel f st = (st', .ok ()) →
    ∃ zds, load e le listing delayed filters none sel st' = .ok (some zds) ∧
      ViewReadBack e how size sel updSel (selected e listing updFilters st) f st
        (selected e listing filters st) zds

variable {D P V H : Type}

theorem sameVars_keep {names : List String} {a b : List (Var V)} (h : SameVars names a b)
    (keep : String → Bool) :
    SameVars names (a.filter fun v => keep v.name) (b.filter fun v => keep v.name) := by
  induction a generalizing b with
  | nil => cases b with
    | nil => exact trivial
    | cons _ _ => exact h.elim
  | cons v t ih =>
    cases b with
    | nil => exact h.elim
    | cons w u =>
      obtain ⟨h1, h2⟩ := h
      simp only [List.filter_cons, ← h1.1]
      split
      · exact ⟨h1, ih h2⟩
      · exact ih h2

variable [DecidableEq D] [DecidableEq P]

/-- What a view shows after an update: the same partitions, the same variables of the same
shapes. -/
theorem viewStore_updated {e : Env D V H} {how : How} {listing : List P} {filters : P → Bool}
    {sel : Option (List String)} {f : Callback V (Dict V)} {st st' : State D P V H} {r : Py Unit}
    (hd : e.base ≠ e.refDir)
    (h : Vw.update e how listing filters sel f st = (st', r)) :
    st'.metas = st.metas ∧ (∀ p, st'.files e.refDir p = st.files e.refDir p) ∧
    (∀ p, ∃ names, SamePart names (st.files e.base p) (st'.files e.base p)) ∧
    ∀ p, p ∉ partitions e listing filters st.files → st'.files e.base p = st.files e.base p := by
  have hst : st' = (Vw.update e how listing filters sel f st).1 := by rw [h]
  subst hst
  exact ⟨(Vw.update_metas e how listing filters sel f st).1,
    fun p => update_other e how listing filters sel f st _ (Ne.symm hd) p,
    fun p => update_shape e how listing filters sel f st p,
    fun p hp => update_unselected e how listing filters sel f st p hp⟩

omit [DecidableEq D] [DecidableEq P] in
theorem viewStore_split {e : Env D V H} {st : State D P V H} {p : P} {vars : List (Var V)}
    (h : viewStore e st p = some vars) : ∃ r w, st.files e.refDir p = some r ∧
      st.files e.base p = some w ∧
      vars = r.vars ++ w.vars.filter fun v => decide (v.name ∈ st.metas.map (·.name)) := by
  unfold viewStore at h
  split at h
  · next r w hr hw => cases h; exact ⟨r, w, hr, hw, rfl⟩
  · cases h

omit [DecidableEq D] [DecidableEq P] in
theorem samePart_some {names : List String} {a : Option (Part V H)} {b : Part V H}
    (h : SamePart names a (some b)) : ∃ a', a = some a' ∧ SameVars names a'.vars b.vars := by
  cases h with
  | present a b _ h2 => exact ⟨a, rfl, h2⟩

omit [DecidableEq D] [DecidableEq P] in
theorem samePart_of {names : List String} {a : Part V H} {b : Option (Part V H)}
    (h : SamePart names (some a) b) : ∃ b', b = some b' ∧ SameVars names a.vars b'.vars := by
  cases h with
  | present a b _ h2 => exact ⟨b, rfl, h2⟩

omit [DecidableEq D] [DecidableEq P] in
/-- The conditions on a view are kept when the values of its variables change. -/
theorem goodView_same {e : Env D V H} {st st' : State D P V H} {size : P → Nat}
    {other : String → Nat} (hg : GoodView e st size other) (hm : st'.metas = st.metas)
    (hr : ∀ p, st'.files e.refDir p = st.files e.refDir p)
    (hs : ∀ p, ∃ names, SamePart names (st.files e.base p) (st'.files e.base p))
    (ha : ∀ p part, st'.files e.base p = some part → ∀ w ∈ part.vars, ArrOk w.array ∨
      ∃ old, st.files e.base p = some old ∧ ∃ v ∈ old.vars, v.name = w.name ∧
        v.array = w.array) :
    GoodView e st' size other := by
  have hsame : ∀ p, ∃ names, match viewStore e st p, viewStore e st' p with
      | none, none => True
      | some vs, some ws => SameVars names vs ws
      | _, _ => False := by
    intro p
    obtain ⟨names, hp⟩ := hs p
    refine ⟨names, ?_⟩
    unfold viewStore
    rw [hr p, hm]
    cases st.files e.refDir p with
    | none => trivial
    | some r =>
      generalize st.files e.base p = a at hp
      generalize st'.files e.base p = b at hp
      cases hp with
      | absent => trivial
      | present a b _ h2 =>
        exact sameVars_append (SameVars.refl _ _)
          (sameVars_keep h2 fun n => decide (n ∈ st.metas.map (·.name)))
  refine ⟨uniform_same hg.uniform hsame ?_, ?_, ?_, ?_, hm ▸ hg.metas, hm ▸ hg.apart⟩
  · intro p ws hws w hw
    obtain ⟨r, b, hr', hb, rfl⟩ := viewStore_split hws
    rw [hr p] at hr'
    obtain ⟨names, hp⟩ := hs p
    rw [hb] at hp
    obtain ⟨a, hpa, h2⟩ := samePart_some hp
    have hst : viewStore e st p = some (r.vars ++ a.vars.filter fun v =>
        decide (v.name ∈ st.metas.map (·.name))) := by
      unfold viewStore
      rw [hr', hpa]
    have hgood := (hg.uniform.good.1 p _ hst).2
    rcases List.mem_append.1 hw with hw | hw
    · exact (hgood w (List.mem_append_left _ hw)).1
    · obtain ⟨hw1, hw2⟩ := List.mem_filter.1 hw
      rcases ha p b hb w hw1 with h | ⟨old, ho, v, hvo, hvn, hva⟩
      · exact h
      · rw [hpa] at ho
        cases ho
        rw [hm] at hw2
        rw [← hva]
        exact (hgood v (List.mem_append_right _ (List.mem_filter.2 ⟨hvo, by
          rw [hvn]; exact hw2⟩))).1
  · intro p r hpr
    rw [hr p] at hpr
    exact hg.refs p r hpr
  · intro p b hb
    obtain ⟨names, hp⟩ := hs p
    rw [hb] at hp
    obtain ⟨a, hpa, h2⟩ := samePart_some hp
    rw [sameVars_names h2]
    exact hg.names p a hpa
  · intro p b hb m hmm
    obtain ⟨names, hp⟩ := hs p
    rw [hb] at hp
    obtain ⟨a, hpa, h2⟩ := samePart_some hp
    rw [hm] at hmm
    obtain ⟨v, hv, hvn⟩ := hg.complete p a hpa m hmm
    obtain ⟨w, hw, hsw⟩ := sameVars_image h2 v hv
    exact ⟨w, hw, by rw [← hsw.1, hvn]⟩

omit [DecidableEq D] [DecidableEq P] in
theorem covered_same {e : Env D V H} {st st' : State D P V H} {sel : Option (List String)}
    (hm : st'.metas = st.metas) (hr : ∀ p, st'.files e.refDir p = st.files e.refDir p)
    (hs : ∀ p, ∃ names, SamePart names (st.files e.base p) (st'.files e.base p))
    (hc : DimsCovered e st sel ∨ ViewOnly e st sel) :
    DimsCovered e st' sel ∨ ViewOnly e st' sel := by
  rcases hc with hc | hc
  · left
    intro p r b hpr hb
    rw [hr p] at hpr
    obtain ⟨names, hp⟩ := hs p
    rw [hb] at hp
    obtain ⟨a, hpa, h2⟩ := samePart_some hp
    obtain ⟨c1, c2⟩ := hc p r a hpr hpa
    refine ⟨c1, fun w hw hch hme d hdw => ?_⟩
    obtain ⟨v, hv, hvw⟩ := sameVars_origin h2 w hw
    rw [hm] at hme
    exact c2 v hv (by rw [hvw.1]; exact hch) (by rw [hvw.1]; exact hme) d (by rw [hvw.2.2.1]; exact hdw)
  · right
    unfold ViewOnly
    rw [hm]
    exact hc

/-- The conditions on a view are kept by an update that succeeds in a steady mode. -/
theorem goodView_updated (e : Env D V H) (how : How) (listing : List P) (filters : P → Bool)
    (sel : Option (List String)) (f : Callback V (Dict V)) (st st' : State D P V H)
    (size : P → Nat) (other : String → Nat) (hd : e.base ≠ e.refDir) (hl : listing.Nodup)
    (href : ∀ p ∈ listing, st.files e.refDir p ≠ none) (hg : GoodView e st size other)
    (hc : DimsCovered e st sel ∨ ViewOnly e st sel ∧ how.depth = 0)
    (hf : MapsArrays f) (hk : Keys f)
    (hm : how.delayed = false ∨
      how.depth = 0 ∧ (how.isLazy = false ∨ ∀ zds ind d, f zds ind = .ok d → d.length ≤ 1))
    (h : Vw.update e how listing filters sel f st = (st', .ok ())) :
    GoodView e st' size other := by
  obtain ⟨hmeta, hr, hs, hun⟩ := viewStore_updated hd h
  refine goodView_same hg hmeta hr hs ?_
  intro p part hp w hw
  by_cases hpm : p ∈ partitions e listing filters st.files
  · rw [partitions_selected e listing filters st href] at hpm
    obtain ⟨i, hi⟩ := List.getElem?_of_mem hpm
    obtain ⟨zds, d, _, _, h3, h4⟩ := update_values e how listing filters sel f st st' size other hl
      href hg hc hf hk hm h i p hi
    obtain ⟨names, hsp⟩ := hs p
    rw [hp] at hsp
    obtain ⟨old, ho, hsv⟩ := samePart_some hsp
    have hnd : (part.vars.map (·.name)).Nodup := by
      rw [sameVars_names hsv]; exact hg.names p old ho
    have hv : viewValues e st' p w.name = some w.array := by
      unfold viewValues
      rw [hp]
      exact congrArg (Option.map (·.array)) (getVar_of_mem _ hnd w hw)
    by_cases hn : w.name ∈ d.map (·.1)
    · obtain ⟨x, hx, hxn⟩ := List.mem_map.1 hn
      obtain ⟨a, a1, a2, _⟩ := h3 x hx
      rw [hxn, hv] at a1
      rw [Option.some.inj a1]
      exact .inl a2
    · right
      rw [h4 w.name hn] at hv
      unfold viewValues at hv
      rw [ho] at hv
      simp only at hv
      cases hf' : old.vars.find? fun v => decide (v.name = w.name) with
      | none => rw [hf'] at hv; cases hv
      | some v =>
        rw [hf'] at hv
        simp only [Option.map_some, Option.some.injEq] at hv
        exact ⟨old, ho, v, List.mem_of_find?_eq_some hf', by simpa using List.find?_some hf', hv⟩
  · right
    rw [hun p hpm] at hp
    exact ⟨part, hp, w, hw, rfl, rfl⟩

/-- C85: this holds when the datasets are not delayed, and without overlap also when they are,
if the callback returns arrays or at most one dask array.  Missing: delayed datasets with an
overlap (`C57_counterexample_overlap`) or with several dask arrays (`C85_counterexample`). -/
theorem C85_read_partial [DecidableEq H] (e : Env D V H) (how : How) (le : P → P → Bool)
    (listing : List P) (updFilters filters : P → Bool) (updSel sel : Option (List String))
    (delayed : Bool) (f : Callback V (Dict V)) (st st' : State D P V H) (size : P → Nat)
    (other : String → Nat) (hd : e.base ≠ e.refDir) (hl : listing.Nodup)
    (href : ∀ p ∈ listing, st.files e.refDir p ≠ none) (hg : GoodView e st size other)
    (hc : DimsCovered e st updSel ∨ ViewOnly e st updSel ∧ how.depth = 0)
    (hc' : DimsCovered e st sel ∨ ViewOnly e st sel) (hf : MapsArrays f) (hk : Keys f)
    (hm : how.delayed = false ∨
      how.depth = 0 ∧ (how.isLazy = false ∨ ∀ zds ind d, f zds ind = .ok d → d.length ≤ 1))
    (hsel : ∃ p ∈ listing, filters p = true ∧ viewStore e st p ≠ none)
    (h : Vw.update e how listing updFilters updSel f st = (st', .ok ())) :
    ∃ zds, load e le listing delayed filters none sel st' = .ok (some zds) ∧
      ViewReadBack e how size sel updSel (selected e listing updFilters st) f st
        (selected e listing filters st) zds := by
  have hvals := C57_values_partial e how listing updFilters updSel f st st' size other hl href hg
    hc hf hk hm h
  obtain ⟨hmeta, hr, hs, hun⟩ := viewStore_updated hd h
  have hg' := goodView_updated e how listing updFilters updSel f st st' size other hd hl href hg hc
    hf hk hm h
  have hsome : ∀ p, (viewStore e st' p).isSome = (viewStore e st p).isSome := by
    intro p
    unfold viewStore
    rw [hr p]
    obtain ⟨names, hp⟩ := hs p
    generalize st.files e.base p = a at hp
    generalize st'.files e.base p = b at hp
    cases st.files e.refDir p with
    | none => rfl
    | some r => cases hp <;> rfl
  have hmne : st'.metas ≠ [] := by
    rw [hmeta]
    intro h0
    unfold Vw.update at h
    rw [if_pos h0] at h
    cases h
  rcases C40_filters_partial e le listing delayed filters sel st' size other hmne
    (fun p hp => by rw [hr p]; exact href p hp) hg' (covered_same hmeta hr hs hc') with
    ⟨_, ps, zds, h1, hps, hwin, _⟩ | ⟨hnone, _⟩
  · have hps' : ps = selected e listing filters st := by
      rw [hps]
      unfold selected
      simp only [hsome]
    subst hps'
    refine ⟨zds, h1, ?_⟩
    have hread : ∀ (k : Nat) q ws w, (selected e listing filters st)[k]? = some q →
        viewStore e st' q = some ws → w ∈ ws → Chosen sel w.name →
        ReadsAs e.dim size (selected e listing filters st) zds k q w.name w.dims w.array := by
      intro k q ws w hkq hws hwm hch
      obtain ⟨v', hv', hn⟩ := hwin.present q (List.mem_of_getElem? hkq) ws hws w hwm hch
      obtain ⟨e1, e2, e3⟩ := hwin.values v' hv' k q ws w hkq hws hwm hn.symm
      exact ⟨v', hv', hn, e1, e2, e3⟩
    intro k q vars hkq hvars
    obtain ⟨r, w, hrq, hwq, rfl⟩ := viewStore_split hvars
    obtain ⟨names, hp⟩ := hs q
    rw [hwq] at hp
    obtain ⟨w', hw', h2⟩ := samePart_of hp
    have hvars' : viewStore e st' q = some (r.vars ++ w'.vars.filter fun v =>
        decide (v.name ∈ st.metas.map (·.name))) := by
      unfold viewStore
      rw [hr q, hrq, hw', hmeta]
    have hnd : (w.vars.map (·.name)).Nodup := hg.names q w hwq
    have hnd' : (w'.vars.map (·.name)).Nodup := by rw [sameVars_names h2]; exact hnd
    have hfind : ∀ (st : State D P V H) (b : Part V H), st.files e.base q = some b →
        (b.vars.map (·.name)).Nodup → ∀ v ∈ b.vars, viewValues e st q v.name = some v.array := by
      intro st b hb hn v hv
      unfold viewValues
      rw [hb]
      exact congrArg (Option.map (·.array)) (getVar_of_mem _ hn v hv)
    -- a variable whose values did not change
    have hold : ∀ v ∈ w.vars, v.name ∈ st.metas.map (·.name) → Chosen sel v.name →
        ∀ a, viewValues e st' q v.name = some a →
        ReadsAs e.dim size (selected e listing filters st) zds k q v.name v.dims a := by
      intro v hv hvm hch a hva
      obtain ⟨u, hu, hsu⟩ := sameVars_image h2 v hv
      have := hread k q _ u hkq hvars' (List.mem_append_right _ (List.mem_filter.2 ⟨hu, by
        rw [← hsu.1]; simpa using hvm⟩)) (by rw [← hsu.1]; exact hch)
      rw [← hsu.1, ← hsu.2.2.1] at this
      have h3 := hfind st' w' hw' hnd' u hu
      rw [← hsu.1, hva] at h3
      rw [Option.some.inj h3]
      exact this
    have href' : ∀ v ∈ r.vars, Chosen sel v.name →
        ReadsAs e.dim size (selected e listing filters st) zds k q v.name v.dims v.array :=
      fun v hv hch => hread k q _ v hkq hvars' (List.mem_append_left _ hv) hch
    constructor
    · intro hq v hv hch
      rcases List.mem_append.1 hv with hv | hv
      · exact href' v hv hch
      · obtain ⟨hv1, hv2⟩ := List.mem_filter.1 hv
        refine hold v hv1 (by simpa using hv2) hch _ ?_
        have hkept : st'.files e.base q = st.files e.base q := by
          refine hun q ?_
          rw [partitions_selected e listing updFilters st href]
          exact hq
        rw [hfind st' w (hkept.trans hwq) hnd v hv1]
    · intro i hi
      obtain ⟨given, d, g1, g2, g3, g4⟩ := hvals i q hi
      refine ⟨given, d, g1, g2, fun v hv hch => ⟨fun hme b hb => ?_, fun hor => ?_⟩⟩
      · obtain ⟨a, ha1, ha2⟩ := g3 (v.name, b) hb
        refine ⟨a, ha2, ?_⟩
        rcases List.mem_append.1 hv with hv | hv
        · obtain ⟨m, hm1, hm2⟩ := hme
          obtain ⟨t, ht1, ht2⟩ := hg.refs q r hrq v hv
          exact absurd (hm2.trans ht2.symm) (hg.apart m hm1 t ht1)
        · obtain ⟨hv1, hv2⟩ := List.mem_filter.1 hv
          exact hold v hv1 (by simpa using hv2) hch a ha1
      · rcases List.mem_append.1 hv with hv | hv
        · exact href' v hv hch
        · obtain ⟨hv1, hv2⟩ := List.mem_filter.1 hv
          have hvm : v.name ∈ st.metas.map (·.name) := by simpa using hv2
          rcases hor with hor | hor
          · refine hold v hv1 hvm hch _ ?_
            rw [g4 v.name hor, hfind st w hwq hnd v hv1]
          · obtain ⟨m, hm1, hm2⟩ := List.mem_map.1 hvm
            exact absurd hm2 (hor m hm1)
  · obtain ⟨p, hp1, hp2, hp3⟩ := hsel
    have := hsome p
    rw [hnone p hp1 hp2] at this
    cases hx : viewStore e st p with
    | none => exact absurd hx hp3
    | some vs => rw [hx] at this; cases this

/-- C85 is violated in the default mode when the callback returns several dask arrays: after two
variables were swapped, the load returns the same values for both. -/
theorem C85_counterexample : ¬ C85_full := by
  intro h
  let r := Vw.update (smallEnv (· == ·)) lazyMode [()] (fun _ => true) none swapVec xyView
  obtain ⟨zds, hz, hb⟩ := h Bool Unit Nat (List Nat) (smallEnv (· == ·)) lazyMode
    (fun _ _ => true) [()] (fun _ => true) (fun _ => true) none none false swapVec xyView r.1
    (fun _ => 1) (fun _ => 0) (by decide) (by decide) (by intro p _ hc; cases hc) xyView_good
    xyView_covered xyView_covered
    (by
      intro zds ind d _ h y hy
      obtain ⟨_, _, a, b, _, _, _, _, rfl⟩ := swapVec_spec h
      simp only [List.mem_cons, List.not_mem_nil, or_false] at hy
      rcases hy with rfl | rfl <;> exact vec_arrOk _)
    (by
      intro zds ind d h
      obtain ⟨_, _, a, b, _, _, _, _, rfl⟩ := swapVec_spec h
      simp)
    ⟨(), by simp, rfl, by rw [xyView_store]; simp⟩ (Prod.ext rfl rfl)
  obtain ⟨given, d, h1, h2, h3⟩ := (hb 0 () _ rfl (xyView_store ())).2 0 rfl
  obtain ⟨x, y, a, b, b1, b2, b3, b4, rfl⟩ := swapVec_spec h2
  obtain ⟨w, w1, w2, w3⟩ := arrayOf_var b1
  obtain ⟨_, k1, _⟩ := h1.holds.values w w1 0 () _ (xVar [1]) rfl (xyView_store ())
    (by simp) w2.symm
  have k3 : w.array.get [0] = some 1 := (k1 0 rfl).2 [0] 0 rfl (by decide)
  rw [w3, b3] at k3
  cases k3
  obtain ⟨c, c1, v', hv', hn, _, c2, _⟩ := (h3 { xVar [2] with name := "y" } (by simp)
    (fun _ hl => by cases hl)).1 ⟨⟨"y", ["time"], some 9, 0⟩, List.mem_cons_of_mem _ (List.mem_singleton.2 rfl), rfl⟩ (vec [1])
    (List.mem_cons_of_mem _ (List.mem_singleton.2 rfl))
  have c1 : c = vec [1] := c1
  have c3 : v'.array.get [0] = c.get [0] := (c2 0 rfl).2 [0] 0 rfl (by decide)
  rw [c1] at c3
  have h4 : (load (smallEnv (· == ·)) (fun _ _ => true) [()] false (fun _ => true) none none
      r.1).map (fun z => z.map fun z => z.vars.map fun v => (v.name, v.array.get [0])) =
      .ok (some [("time", some 1), ("x", some 2), ("y", some 2)]) := by rfl
  rw [hz] at h4
  simp only [Except.map, Option.map_some, Except.ok.injEq, Option.some.injEq] at h4
  have h5 : (v'.name, v'.array.get [0]) ∈ zds.vars.map fun v => (v.name, v.array.get [0]) :=
    List.mem_map.2 ⟨v', hv', rfl⟩
  rw [h4, c3, hn] at h5
  revert h5
  decide

/-- The hypotheses of `C85_read_partial` are met by an update of the second of two partitions, in
the default mode, and a load of both. -/
example : ∃ zds, load (smallEnv (· == ·)) (fun _ _ => true) [false, true] true (fun _ => true)
      none none (Vw.update (smallEnv (· == ·)) lazyMode [false, true] id none bumpX twoView).1 =
        .ok (some zds) ∧
    ViewReadBack (smallEnv (· == ·)) lazyMode viewSize none none [true] bumpX twoView
      [false, true] zds := by
  have := C85_read_partial (smallEnv (· == ·)) lazyMode (fun _ _ => true) [false, true] id
    (fun _ => true) none none true bumpX twoView _ viewSize (fun _ => 0) (by decide) (by decide)
    twoView_parts twoView_good (.inl twoView_covered) (.inl twoView_covered) bumpX_good bumpX_keys
    (.inr ⟨rfl, .inr fun zds ind d h => by
      obtain ⟨_, _, _, _, rfl⟩ := bumpX_spec h
      simp⟩)
    ⟨true, by simp, rfl, by rw [twoView_store]; simp⟩ (Prod.ext rfl rfl)
  rw [twoView_selected, twoView_selected] at this
  exact this

end Verif
