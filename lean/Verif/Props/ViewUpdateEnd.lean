import Verif.Props.ViewHistory
import Verif.Props.ViewUpdateLoad
import Verif.Props.UpdateEnd

/-! C86 for views: a load after an update of a view that may have failed. -/

namespace Verif

open Spec Nd Ds Upd Vw

variable {D P V H : Type} [DecidableEq D] [DecidableEq P]

omit [DecidableEq D] [DecidableEq P] in
/-- The variables after a write: the old ones and the one that was written. -/
theorem writeVar_mem {vars vars' : List (Var V)} {n : String} {a : Arr V}
    (h : writeVar vars n a = .ok vars') :
    ∀ w ∈ vars', w ∈ vars ∨ w.name = n ∧ w.array = a := by
  unfold writeVar at h
  split at h
  · cases h
  · next v hg =>
    split at h
    · cases h
    · cases h
      intro w hw
      rcases setVar_mem _ _ _ hw with rfl | hm
      · exact .inr ⟨(getVar_some _ _ _ hg).2, rfl⟩
      · exact .inl hm

/-- The variables in the files after a write. -/
theorem writeOne_mem {e : Env D V H} {fs fs' : Files D P V H} {p : P} {n : String} {a : Arr V}
    (h : writeOne e fs p (n, .ok a) = .ok fs') (d : D) (q : P) (part : Part V H)
    (hq : fs' d q = some part) : ∀ w ∈ part.vars, (∃ old, fs d q = some old ∧ w ∈ old.vars) ∨
      d = e.base ∧ q = p ∧ w.name = n ∧ w.array = a := by
  intro w hw
  obtain ⟨old, vars, h1, h2, rfl⟩ := writeOne_spec h
  simp only [put] at hq
  split at hq
  · next hdq =>
    cases hq
    rcases writeVar_mem h2 w hw with h | h
    · exact .inl ⟨old, by rw [hdq.1, hdq.2]; exact h1, h⟩
    · exact .inr ⟨hdq.1, hdq.2, h⟩
  · exact .inl ⟨part, hq, hw⟩

/-- The arrays of the files stay well formed. -/
theorem update_filesOk (e : Env D V H) (how : How) (listing : List P) (filters : P → Bool)
    (sel : Option (List String)) (f : Callback V (Dict V)) (st : State D P V H)
    (hf : MapsArrays f) (ha : FilesOk e st.files) :
    FilesOk e (Vw.update e how listing filters sel f st).1.files := by
  have hk1 : KeptOk e f fun fs : Files D P V H => FilesOk e fs := by
    refine ⟨hf, fun fs h => h, fun fs p n a fs' hq hok hw q part hp w hwm => ?_⟩
    have hor : ∃ d, (d = e.refDir ∨ d = e.base) ∧ fs' d q = some part := by
      rcases hp with hp | hp
      · exact ⟨_, .inl rfl, hp⟩
      · exact ⟨_, .inr rfl, hp⟩
    obtain ⟨d, hd, hdq⟩ := hor
    rcases writeOne_mem hw d q part hdq w hwm with ⟨old, ho, hm⟩ | ⟨_, _, _, he⟩
    · refine hq q old ?_ w hm
      rcases hd with rfl | rfl
      · exact .inl ho
      · exact .inr ho
    · rw [he]; exact hok
  exact hk1.update ha

/-- Each variable of the view has the values it has in `st` or values that `W` allows. -/
def ViewMixed (e : Env D V H) (st : State D P V H) (W : P → String → Arr V → Prop)
    (fs : Files D P V H) : Prop :=
  ∀ p part, fs e.base p = some part → ∀ w ∈ part.vars,
    (∃ old, st.files e.base p = some old ∧ ∃ v ∈ old.vars, v.name = w.name ∧
      v.array = w.array) ∨ W p w.name w.array

omit [DecidableEq D] [DecidableEq P] in
theorem ViewMixed.start (e : Env D V H) (st : State D P V H) (W : P → String → Arr V → Prop) :
    ViewMixed e st W st.files :=
  fun _ part hp w hw => .inl ⟨part, hp, w, hw, rfl, rfl⟩

theorem ViewMixed.one {e : Env D V H} {st : State D P V H} {W : P → String → Arr V → Prop}
    {fs fs' : Files D P V H} {p : P} {n : String} {a : Arr V} (h : ViewMixed e st W fs)
    (hW : W p n a) (hw : writeOne e fs p (n, .ok a) = .ok fs') : ViewMixed e st W fs' := by
  intro q part hp w hwm
  rcases writeOne_mem hw _ q part hp w hwm with ⟨old, ho, hm⟩ | ⟨_, hq, hn, he⟩
  · exact h q old ho w hm
  · rw [hq, hn, he]; exact .inr hW

/-- In any mode, the new values are those of variables that the callback returns. -/
theorem update_mixed (e : Env D V H) (how : How) (listing : List P) (filters : P → Bool)
    (sel : Option (List String)) (f : Callback V (Dict V)) (st : State D P V H) :
    ViewMixed e st (fun p n _ => p ∈ partitions e listing filters st.files ∧
      ∃ zds ind d, f zds ind = .ok d ∧ n ∈ d.map (·.1))
      (Vw.update e how listing filters sel f st).1.files := by
  have hk2 : Kept e f (partitions e listing filters st.files) (ViewMixed e st (fun p n _ =>
      p ∈ partitions e listing filters st.files ∧
      ∃ zds ind d, f zds ind = .ok d ∧ n ∈ d.map (·.1))) := by
    refine ⟨fun fs p n a fs' hq hp hc hw => hq.one ⟨hp, ?_⟩ hw⟩
    obtain ⟨zds, ind, d, x, h1, h2, h3, _⟩ := hc
    exact ⟨zds, ind, d, h1, List.mem_map.2 ⟨x, h2, h3⟩⟩
  exact hk2.update (how := how) (sel := sel) (ViewMixed.start _ _ _)

/-- In a steady mode, the new values are computed from the datasets loaded at the beginning. -/
theorem update_mixed_steady (e : Env D V H) (how : How) (listing : List P) (filters : P → Bool)
    (sel : Option (List String)) (f : Callback V (Dict V)) (st : State D P V H)
    (hn : listing.Nodup) (dsl : List (Dataset V × P))
    (hdsl : loadList e how.delayed sel st.metas (partitions e listing filters st.files)
      st.files = .ok dsl) (hm : Steady how f) :
    ViewMixed e st (fun p n a => p ∈ partitions e listing filters st.files ∧ 0 ≤ how.depth ∧
      ∃ l, callItems e how f dsl p = .ok l ∧ (n, .ok a) ∈ l)
      (Vw.update e how listing filters sel f st).1.files := by
  rcases update_split e how listing filters sel f st with ⟨err, h⟩ | ⟨h, _⟩ |
    ⟨dsl', bs, h1, _, h2, h3, h⟩
  · rw [h]; exact ViewMixed.start _ _ _
  · rw [h]; exact ViewMixed.start _ _ _
  · rw [hdsl] at h1
    cases h1
    rw [h]
    have hnp := nodup_partitions e listing hn filters st.files
    generalize hnow : (fun fs => if how.delayed = true then loadList e true sel st.metas
      (partitions e listing filters st.files) fs else .ok dsl) = now
    generalize hW : (fun p n a => p ∈ partitions e listing filters st.files ∧ 0 ≤ how.depth ∧
      ∃ l, callItems e how f dsl p = .ok l ∧ (n, .ok a) ∈ l) = W
    have hitems : ∀ p (l : List (String × Py (Arr V))), (∀ n a, (n, .ok a) ∈ l → W p n a) →
        ∀ fs, ViewMixed e st W fs → ViewMixed e st W (writeItems e fs p l).1 := by
      intro p l
      induction l with
      | nil => exact fun _ _ hq => hq
      | cons x t ih =>
        intro hl fs hq
        simp only [writeItems]
        split
        · exact hq
        · next fs' hw =>
          refine ih (fun n a hm => hl n a (List.mem_cons_of_mem _ hm)) fs' ?_
          obtain ⟨n, r⟩ := x
          cases r with
          | error err => simp only [writeOne, bind, Except.bind] at hw; cases hw
          | ok a => exact hq.one (hl n a (List.mem_cons_self ..)) hw
    have hone : ∀ p ∈ partitions e listing filters st.files, ∀ fs,
        (∀ d, fs d p = st.files d p) → ViewMixed e st W fs →
        ViewMixed e st W (updateOne e how f now fs p).1 := by
      intro p hp fs hfs hq
      have hcases := updateOne_writes (g := fs) hm hnp hdsl hp hfs
      rw [hnow] at hcases
      rcases hcases with ⟨err, h, _⟩ | ⟨l, hl, h⟩
      · rw [h]; exact hq
      · rw [h]
        refine hitems p l (fun n a hm => ?_) fs hq
        rw [← hW]
        exact ⟨hp, h3, l, hl, hm⟩
    have hbatch : ∀ (b : List P), b.Nodup → (∀ p ∈ b, p ∈ partitions e listing filters st.files) →
        ∀ fs, (∀ p ∈ b, ∀ d, fs d p = st.files d p) → ViewMixed e st W fs →
        ViewMixed e st W (updateBatch e how f now fs b).1 := by
      intro b
      induction b with
      | nil => exact fun _ _ _ _ hq => hq
      | cons p t ih =>
        intro hbn hb fs hfs hq
        have h1 := hone p (hb p (List.mem_cons_self ..)) fs (hfs p (List.mem_cons_self ..)) hq
        have h4 := updateOne_frame e how f now fs p
        rw [List.nodup_cons] at hbn
        simp only [updateBatch]
        split
        · next h => rw [h] at h1; exact h1
        · next h =>
          rw [h] at h1 h4
          refine ih hbn.2 (fun q hq => hb q (List.mem_cons_of_mem _ hq)) _ (fun q hq d => ?_) h1
          rw [← hfs q (List.mem_cons_of_mem _ hq) d]
          refine h4 d q fun hc => hbn.1 ?_
          rw [← hc.2]; exact hq
    have hall : ∀ (bs : List (List P)), bs.flatten.Nodup →
        (∀ b ∈ bs, ∀ p ∈ b, p ∈ partitions e listing filters st.files) →
        ∀ fs, (∀ p ∈ bs.flatten, ∀ d, fs d p = st.files d p) → ViewMixed e st W fs →
        ViewMixed e st W (updateBatches e how f now fs bs).1 := by
      intro bs
      induction bs with
      | nil => exact fun _ _ _ _ hq => hq
      | cons b t ih =>
        intro hbn hb fs hfs hq
        rw [List.flatten_cons, List.nodup_append] at hbn
        have hfs1 : ∀ p ∈ b, ∀ d, fs d p = st.files d p := fun p hp => hfs p (by
          rw [List.flatten_cons]; exact List.mem_append_left _ hp)
        have h1 := hbatch b hbn.1 (hb b (List.mem_cons_self ..)) fs hfs1 hq
        have h4 := updateBatch_frame e how f now b fs
        have h5 : ∀ p ∈ t.flatten, ∀ d, (updateBatch e how f now fs b).1 d p = st.files d p := by
          intro p hp d
          rw [← hfs p (by rw [List.flatten_cons]; exact List.mem_append_right _ hp) d]
          exact h4 d p fun hc => hbn.2.2 p hc.2 p hp rfl
        simp only [updateBatches]
        split <;> (next h =>
          rw [h] at h1 h5
          exact ih hbn.2.1 (fun c hc => hb c (List.mem_cons_of_mem _ hc)) _ h5 h1)
    refine hall bs (by rw [h2]; exact hnp) (fun b hb p hp => ?_) _ (fun _ _ _ => rfl)
      (ViewMixed.start _ _ _)
    rw [← h2]
    exact List.mem_flatten.2 ⟨b, hb, hp⟩

omit [DecidableEq D] in
/-- What the callback is given, and what is stored of its results. -/
theorem callItems_computed {e : Env D V H} {how : How} {listing : List P} {filters : P → Bool}
    {sel : Option (List String)} {f : Callback V (Dict V)} {st : State D P V H}
    {size : P → Nat} {other : String → Nat} (hl : listing.Nodup)
    (href : ∀ p ∈ listing, st.files e.refDir p ≠ none) (hg : GoodView e st size other)
    (hc : DimsCovered e st sel ∨ ViewOnly e st sel ∧ how.depth = 0) (hf : MapsArrays f)
    {del : Bool} {dsl : List (Dataset V × P)}
    (d2 : dsl.map (·.2) = selected e listing filters st)
    (d3 : ∀ x ∈ dsl, Opened e st sel del x.2 x.1 ∧
      (DimsCovered e st sel → x.1.dims.lookup e.dim = some (size x.2)))
    {i : Nat} {p : P} (hp : (selected e listing filters st)[i]? = some p)
    {l : List (String × Py (Arr V))} (l1 : callItems e how f dsl p = .ok l) :
    ∃ zds d, Shows e st size sel (shownTo (selected e listing filters st) how.depth i p) zds ∧
      f zds (info size (selected e listing filters st) how.depth i p) = .ok d ∧
      ∀ n a, (n, .ok a) ∈ l → ∃ b, (n, b) ∈ d ∧
        StoredFrom how e.dim zds (info size (selected e listing filters st) how.depth i p)
          n b a := by
  have hnd : (dsl.map (·.2)).Nodup := by
    rw [d2, ← partitions_selected e listing filters st href]
    exact nodup_partitions e listing hl filters st.files
  unfold callItems at l1
  split at l1
  · next hz =>
    split at l1
    · cases l1
    · next x hx =>
      simp only [bind, Except.bind] at l1
      split at l1
      · cases l1
      · next d hd =>
        cases l1
        have hxm := List.mem_of_find?_eq_some hx
        have hxp : x.2 = p := by simpa using List.find?_some hx
        refine ⟨x.1, d, ?_, ?_, ?_⟩
        · rw [shownTo, if_pos hz, ← hxp]
          exact opened_alone hg (d3 x hxm).1
        · rw [info, if_pos hz]
          exact hd
        · intro n a hna
          obtain ⟨y, hy, hye⟩ := List.mem_map.1 hna
          cases hye
          refine ⟨y.2, hy, ?_⟩
          rw [info, if_pos hz]
          exact rfl
  · next hz =>
    have hcov : DimsCovered e st sel := by
      rcases hc with hc | ⟨_, hc⟩
      · exact hc
      · exact absurd hc hz
    have hpd : (dsl.map (·.2))[i]? = some p := by rw [d2]; exact hp
    simp only [bind, Except.bind] at l1
    split at l1
    · cases l1
    · next zi hzi =>
      have hlen : 2 ≤ (neighbours (dsl.map (·.2)) how.depth.toNat i).length := by
        have h1 : (neighbours (dsl.map (·.2)) how.depth.toNat i).length ≠ 1 := by
          intro h1
          rw [selectOverlap_alone e _ dsl hnd i p hpd h1] at hzi
          cases hzi
        have hi := (List.getElem?_eq_some_iff.1 hpd).1
        rw [neighbours_length] at h1 ⊢
        omega
      obtain ⟨zds, s1, _, s2⟩ := selectOverlap_ok hg hnd (fun x hx => (d3 x hx).1)
        (fun x hx => (d3 x hx).2 hcov) how.depth.toNat i p hpd hlen
      have harr := selectOverlap_arrays hg hnd (fun x hx => (d3 x hx).1) hpd s1
      rw [s1] at hzi
      cases hzi
      simp only at l1
      split at l1
      · cases l1
      · next d hd =>
        cases l1
        rw [d2] at s2 hd
        refine ⟨zds, d, ?_, ?_, ?_⟩
        · rw [shownTo, if_neg hz]
          exact s2
        · rw [info, if_neg hz]
          exact hd
        · intro n a hna
          obtain ⟨y, hy, hye⟩ := List.mem_map.1 hna
          simp only [Prod.mk.injEq] at hye
          obtain ⟨rfl, a1⟩ := hye
          refine ⟨y.2, hy, ?_⟩
          rw [info, if_neg hz]
          simp only [StoredFrom]
          have hb := hf _ _ _ harr hd y hy
          rw [d2] at a1
          split at a1
          · next ht =>
            rw [if_pos ht]
            exact (trim_cut hb (by simp [place]) a1).2
          · next ht =>
            rw [if_neg ht]
            cases a1
            rfl

/-- A view with the values of `st` or values that `W` allows can be loaded. -/
theorem view_mixed_loads [DecidableEq H] {e : Env D V H} {how : How} {le : P → P → Bool}
    {listing : List P} {updFilters filters : P → Bool} {updSel sel : Option (List String)}
    {delayed : Bool} {f : Callback V (Dict V)} {st st' : State D P V H} {r : Py Unit}
    {size : P → Nat} {other : String → Nat} {W : P → String → Arr V → Prop}
    (hd : e.base ≠ e.refDir) (hm : st.metas ≠ [])
    (href : ∀ p ∈ listing, st.files e.refDir p ≠ none) (hg : GoodView e st size other)
    (hc : DimsCovered e st sel ∨ ViewOnly e st sel) (hok : FilesOk e st'.files)
    (hmix : ViewMixed e st W st'.files)
    (hsel : ∃ p ∈ listing, filters p = true ∧ viewStore e st p ≠ none)
    (h : Vw.update e how listing updFilters updSel f st = (st', r)) :
    ∃ zds, load e le listing delayed filters none sel st' = .ok (some zds) ∧
      (∀ (k : Nat) (q : P) (vars : List (Var V)),
        (selected e listing filters st)[k]? = some q → viewStore e st q = some vars →
        ∀ v ∈ vars, Chosen sel v.name → ∃ a,
          ReadsAs e.dim size (selected e listing filters st) zds k q v.name v.dims a ∧
          a.shape = v.array.shape ∧
          (a = v.array ∨ W q v.name a ∧ ∃ m ∈ st.metas, m.name = v.name)) ∧
      ∀ (k : Nat) (q : P) (part : Part V H), (selected e listing filters st)[k]? = some q →
        st.files e.refDir q = some part → ∀ v ∈ part.vars, Chosen sel v.name →
        ReadsAs e.dim size (selected e listing filters st) zds k q v.name v.dims v.array := by
  obtain ⟨hmeta, hr, hs, hun⟩ := viewStore_updated hd h
  have hg' : GoodView e st' size other :=
    goodView_same hg hmeta hr hs fun p part hp w hw => .inl (hok p part (.inr hp) w hw)
  have hsome : ∀ p, (viewStore e st' p).isSome = (viewStore e st p).isSome := by
    intro p
    unfold viewStore
    rw [hr p]
    obtain ⟨names, hp⟩ := hs p
    generalize st.files e.base p = a at hp
    generalize st'.files e.base p = b at hp
    cases st.files e.refDir p with
    | none => rfl
    | some r => cases hp <;> rfl
  rcases C40_filters_partial e le listing delayed filters sel st' size other
    (by rw [hmeta]; exact hm)
    (fun p hp => by rw [hr p]; exact href p hp) hg' (covered_same hmeta hr hs hc) with
    ⟨_, ps, zds, h1, hps, hwin, _⟩ | ⟨hnone, _⟩
  · have hps' : ps = selected e listing filters st := by
      rw [hps]
      unfold selected
      simp only [hsome]
    subst hps'
    have hread : ∀ (k : Nat) q ws w, (selected e listing filters st)[k]? = some q →
        viewStore e st' q = some ws → w ∈ ws → Chosen sel w.name →
        ReadsAs e.dim size (selected e listing filters st) zds k q w.name w.dims w.array := by
      intro k q ws w hkq hws hwm hch
      obtain ⟨v', hv', hn⟩ := hwin.present q (List.mem_of_getElem? hkq) ws hws w hwm hch
      obtain ⟨e1, e2, e3⟩ := hwin.values v' hv' k q ws w hkq hws hwm hn.symm
      exact ⟨v', hv', hn, e1, e2, e3⟩
    have hafter : ∀ q (ref old : Part V H), st.files e.refDir q = some ref →
        st.files e.base q = some old → ∃ new names, st'.files e.base q = some new ∧
        SameVars names old.vars new.vars ∧
        viewStore e st' q = some (ref.vars ++ new.vars.filter fun v =>
          decide (v.name ∈ st.metas.map (·.name))) := by
      intro q ref old hrq hoq
      obtain ⟨names, hp⟩ := hs q
      rw [hoq] at hp
      obtain ⟨new, hnew, h2⟩ := samePart_of hp
      refine ⟨new, names, hnew, h2, ?_⟩
      unfold viewStore
      rw [hr q, hrq, hnew, hmeta]
    refine ⟨zds, h1, ?_, ?_⟩
    · intro k q vars hkq hvars v hv hch
      obtain ⟨ref, old, hrq, hoq, rfl⟩ := viewStore_split hvars
      obtain ⟨new, names, hnew, h2, hvars'⟩ := hafter q ref old hrq hoq
      rcases List.mem_append.1 hv with hv | hv
      · exact ⟨v.array, hread k q _ v hkq hvars' (List.mem_append_left _ hv) hch, rfl, .inl rfl⟩
      · obtain ⟨hv1, hv2⟩ := List.mem_filter.1 hv
        obtain ⟨u, hu, hsu⟩ := sameVars_image h2 v hv1
        have hru := hread k q _ u hkq hvars' (List.mem_append_right _ (List.mem_filter.2 ⟨hu, by
          rw [← hsu.1]; exact hv2⟩)) (by rw [← hsu.1]; exact hch)
        rw [← hsu.1, ← hsu.2.2.1] at hru
        refine ⟨u.array, hru, hsu.2.2.2.2.2.1.symm, ?_⟩
        have hnd : (old.vars.map (·.name)).Nodup := hg.names q old hoq
        rcases hmix q new hnew u hu with ⟨old', ho', x, hx, hxn, hxa⟩ | hw
        · rw [hoq] at ho'
          cases ho'
          have g1 := getVar_of_mem _ hnd x hx
          have g2 := getVar_of_mem _ hnd v hv1
          rw [hxn, ← hsu.1, g2] at g1
          left
          rw [← hxa, ← Option.some.inj g1]
        · right
          rw [← hsu.1] at hw
          refine ⟨hw, ?_⟩
          have hvm : v.name ∈ st.metas.map (·.name) := by simpa using hv2
          obtain ⟨m, hm1, hm2⟩ := List.mem_map.1 hvm
          exact ⟨m, hm1, hm2⟩
    · intro k q part hkq hpart v hv hch
      have hin := List.mem_of_getElem? hkq
      unfold selected at hin
      obtain ⟨_, hin⟩ := List.mem_filter.1 hin
      simp only [Bool.and_eq_true, Option.isSome_iff_exists] at hin
      obtain ⟨_, vars, hvars⟩ := hin
      obtain ⟨ref, old, hrq, hoq, _⟩ := viewStore_split hvars
      rw [hpart] at hrq
      cases hrq
      obtain ⟨new, names, _, _, hvars'⟩ := hafter q part old hpart hoq
      exact hread k q _ v hkq hvars' (List.mem_append_left _ hv) hch
  · obtain ⟨p, hp1, hp2, hp3⟩ := hsel
    have := hsome p
    rw [hnone p hp1 hp2] at this
    cases hx : viewStore e st p with
    | none => exact absurd hx hp3
    | some vs => rw [hx] at this; cases this

/-- C86 for views: whatever the result `r` of an update of a view, in any mode and with any
overlap, a load of any selection succeeds; each variable has its shape, and the values shown
before if it is a variable of the reference, if its partition was not selected or if the
callback never returns it. -/
theorem C86_view [DecidableEq H] (e : Env D V H) (how : How) (le : P → P → Bool)
    (listing : List P) (updFilters filters : P → Bool) (updSel sel : Option (List String))
    (delayed : Bool) (f : Callback V (Dict V)) (st st' : State D P V H) (r : Py Unit)
    (size : P → Nat) (other : String → Nat) (hd : e.base ≠ e.refDir) (hm : st.metas ≠ [])
    (href : ∀ p ∈ listing, st.files e.refDir p ≠ none) (hg : GoodView e st size other)
    (hc : DimsCovered e st sel ∨ ViewOnly e st sel) (hf : MapsArrays f)
    (ha : ∀ p part, st.files e.refDir p = some part ∨ st.files e.base p = some part →
      ∀ v ∈ part.vars, ArrOk v.array)
    (hsel : ∃ p ∈ listing, filters p = true ∧ viewStore e st p ≠ none)
    (h : Vw.update e how listing updFilters updSel f st = (st', r)) :
    ∃ zds, load e le listing delayed filters none sel st' = .ok (some zds) ∧
      StillReads e.dim size sel (selected e listing updFilters st) f (viewStore e st)
        (selected e listing filters st) zds ∧
      ∀ (k : Nat) (q : P) (part : Part V H), (selected e listing filters st)[k]? = some q →
        st.files e.refDir q = some part → ∀ v ∈ part.vars, Chosen sel v.name →
        ReadsAs e.dim size (selected e listing filters st) zds k q v.name v.dims v.array := by
  have hok := update_filesOk e how listing updFilters updSel f st hf ha
  have hmix := update_mixed e how listing updFilters updSel f st
  rw [h] at hok hmix
  obtain ⟨zds, h1, h2, h3⟩ := view_mixed_loads (le := le) (delayed := delayed) hd hm href hg hc hok
    hmix hsel h
  refine ⟨zds, h1, ?_, h3⟩
  intro k q vars hkq hvars v hv hch
  obtain ⟨a, a1, a2, a3⟩ := h2 k q vars hkq hvars v hv hch
  refine ⟨a, a1, a2, fun hno => ?_⟩
  rcases a3 with a3 | ⟨⟨hq, z, i, d, hfd, hn⟩, _⟩
  · exact a3
  · rcases hno with hno | hno
    · rw [partitions_selected e listing updFilters st href] at hq
      exact absurd hq hno
    · exact absurd hn (hno z i d hfd)

/-- C86 for views: when the datasets of the update are not delayed, with or without overlap, and
without overlap also when they are, if the callback returns arrays or at most one dask array, each
variable has the values shown before or those computed from what the view showed before.  For the
other modes see `C57_counterexample_overlap` and `C57_counterexample_lazy`. -/
theorem C86_view_values [DecidableEq H] (e : Env D V H) (how : How) (le : P → P → Bool)
    (listing : List P) (updFilters filters : P → Bool) (updSel sel : Option (List String))
    (delayed : Bool) (f : Callback V (Dict V)) (st st' : State D P V H) (r : Py Unit)
    (size : P → Nat) (other : String → Nat) (hd : e.base ≠ e.refDir) (hm : st.metas ≠ [])
    (hl : listing.Nodup)
    (href : ∀ p ∈ listing, st.files e.refDir p ≠ none) (hg : GoodView e st size other)
    (hu : DimsCovered e st updSel ∨ ViewOnly e st updSel ∧ how.depth = 0)
    (hc : DimsCovered e st sel ∨ ViewOnly e st sel) (hf : MapsArrays f)
    (hs : how.delayed = false ∨
      how.depth = 0 ∧ (how.isLazy = false ∨ ∀ zds ind d, f zds ind = .ok d → d.length ≤ 1))
    (ha : ∀ p part, st.files e.refDir p = some part ∨ st.files e.base p = some part →
      ∀ v ∈ part.vars, ArrOk v.array)
    (hsel : ∃ p ∈ listing, filters p = true ∧ viewStore e st p ≠ none)
    (h : Vw.update e how listing updFilters updSel f st = (st', r)) :
    ∃ zds, load e le listing delayed filters none sel st' = .ok (some zds) ∧
      ViewOldOrNew e how size sel updSel (selected e listing updFilters st) f st
        (selected e listing filters st) zds := by
  obtain ⟨dsl, d1, d2, d3⟩ := loadList_ok hg (hu.imp id And.left) how.delayed listing updFilters
    href
  have hok := update_filesOk e how listing updFilters updSel f st hf ha
  have hmix := update_mixed_steady e how listing updFilters updSel f st hl dsl d1 hs
  rw [h] at hok hmix
  obtain ⟨zds, h1, h2, _⟩ := view_mixed_loads (le := le) (delayed := delayed) hd hm href hg hc hok
    hmix hsel h
  refine ⟨zds, h1, ?_⟩
  intro k q vars hkq hvars v hv hch
  obtain ⟨a, a1, _, a3⟩ := h2 k q vars hkq hvars v hv hch
  rcases a3 with rfl | ⟨⟨hq, _, l, hl1, hl2⟩, hme⟩
  · exact .inl a1
  · right
    rw [partitions_selected e listing updFilters st href] at hq
    obtain ⟨i, hi⟩ := List.getElem?_of_mem hq
    obtain ⟨given, d, g1, g2, g3⟩ := callItems_computed hl href hg hu hf d2 d3 hi hl1
    obtain ⟨b, b1, b2⟩ := g3 _ _ hl2
    exact ⟨i, given, d, b, a, hi, g1, g2, b1, hme, b2, a1⟩

namespace ViewUpdateEndCase

/-- A callback that changes `x`, and raises for a partition of three records. -/
def notThree : Callback Nat (Dict Nat) := fun zds _ => do
  let x ← arrayOf zds "x"
  if x.shape = [3] then .error .runtimeError else .ok [("x", full x.shape 7)]

theorem notThree_maps : MapsArrays notThree := by
  intro zds ind d _ h y hy
  simp only [notThree, bind, Except.bind] at h
  split at h
  · cases h
  · split at h
    · cases h
    · cases h
      rw [List.mem_singleton.1 hy]
      exact full_arrOk _ _

theorem twoView_arrays : ∀ p part, twoView.files (smallEnv (· == ·)).refDir p = some part ∨
    twoView.files (smallEnv (· == ·)).base p = some part → ∀ v ∈ part.vars, ArrOk v.array := by
  intro p part hp v hv
  rcases hp with hp | hp <;> cases p <;> cases hp <;>
  · rw [List.mem_singleton.1 hv]
    exact vec_arrOk _

/-- The files after an update that fails at the second partition. -/
def failedView : State Bool Bool Nat (List Nat) :=
  (Vw.update (smallEnv (· == ·)) lazyMode [false, true] (fun _ => true) none notThree twoView).1

/-- The hypotheses of `C86_view` are met by an update that fails at the second partition: the
first one has its new values, the second one its old values, and the reference is unchanged. -/
example : (Vw.update (smallEnv (· == ·)) lazyMode [false, true] (fun _ => true) none notThree
      twoView).2 = .error .runtimeError ∧
    (load (smallEnv (· == ·)) (fun _ _ => true) [false, true] true (fun _ => true) none none
      failedView).map (fun z => z.map fun z => z.vars.map fun v => (v.name,
        (List.range 5).map fun j => v.array.get [j])) =
      .ok (some [("time", [some 1, some 2, some 3, some 4, some 5]),
        ("x", [some 7, some 7, some 30, some 40, some 50])]) ∧
    ∃ zds, load (smallEnv (· == ·)) (fun _ _ => true) [false, true] true (fun _ => true) none
        none failedView = .ok (some zds) ∧
      StillReads "time" viewSize none [false, true] notThree
        (viewStore (smallEnv (· == ·)) twoView) [false, true] zds := by
  refine ⟨by rfl, by rfl, ?_⟩
  obtain ⟨zds, h1, h2, _⟩ := C86_view (smallEnv (· == ·)) lazyMode (fun _ _ => true)
    [false, true] (fun _ => true) (fun _ => true) none none true notThree twoView failedView
    (Vw.update (smallEnv (· == ·)) lazyMode [false, true] (fun _ => true) none notThree
      twoView).2 viewSize (fun _ => 0) (by decide) (by intro h; cases h)
    twoView_parts twoView_good (.inl twoView_covered) notThree_maps twoView_arrays
    ⟨true, by simp, rfl, by rw [twoView_store]; simp⟩ rfl
  rw [twoView_selected] at h2
  exact ⟨zds, h1, h2⟩

/-- The partitions one after the other, with their neighbours. -/
def nearMode : How := { delayed := false, isLazy := false, depth := 1, trim := true, workers := 1 }

/-- A callback that adds one to `x`, and raises for the records of the second partition. -/
def notSecond : Callback Nat (Dict Nat) := fun zds ind =>
  if ind = some (2, 5) then .error .runtimeError else mapVar "x" (· + 1) zds ind

theorem notSecond_maps : MapsArrays notSecond := by
  intro zds ind d ha h
  simp only [notSecond] at h
  split at h
  · cases h
  · exact mapVar_maps _ _ zds ind d ha h

/-- The files after an update with overlap that fails at the second partition. -/
def failedNear : State Bool Bool Nat (List Nat) :=
  (Vw.update (smallEnv (· == ·)) nearMode [false, true] (fun _ => true) none notSecond twoView).1

/-- The hypotheses of `C86_view_values` are met by an update with overlap that fails at the second
partition: the first one has the values computed from those shown before. -/
example : (Vw.update (smallEnv (· == ·)) nearMode [false, true] (fun _ => true) none notSecond
      twoView).2 = .error .runtimeError ∧
    (load (smallEnv (· == ·)) (fun _ _ => true) [false, true] true (fun _ => true) none none
      failedNear).map (fun z => z.map fun z => z.vars.map fun v => (v.name,
        (List.range 5).map fun j => v.array.get [j])) =
      .ok (some [("time", [some 1, some 2, some 3, some 4, some 5]),
        ("x", [some 11, some 21, some 30, some 40, some 50])]) ∧
    ∃ zds, load (smallEnv (· == ·)) (fun _ _ => true) [false, true] true (fun _ => true) none
        none failedNear = .ok (some zds) ∧
      ViewOldOrNew (smallEnv (· == ·)) nearMode viewSize none none [false, true] notSecond twoView
        [false, true] zds := by
  refine ⟨by rfl, by rfl, ?_⟩
  obtain ⟨zds, h1, h2⟩ := C86_view_values (smallEnv (· == ·)) nearMode (fun _ _ => true)
    [false, true] (fun _ => true) (fun _ => true) none none true notSecond twoView failedNear
    (Vw.update (smallEnv (· == ·)) nearMode [false, true] (fun _ => true) none notSecond
      twoView).2 viewSize (fun _ => 0) (by decide) (by intro h; cases h) (by decide)
    twoView_parts twoView_good (.inl twoView_covered) (.inl twoView_covered) notSecond_maps
    (.inl rfl) twoView_arrays ⟨true, by simp, rfl, by rw [twoView_store]; simp⟩ rfl
  rw [twoView_selected] at h2
  exact ⟨zds, h1, h2⟩

/-- Also in the default mode, with a callback that returns one dask array. -/
example : ∃ zds, load (smallEnv (· == ·)) (fun _ _ => true) [false, true] true (fun _ => true) none
      none failedView = .ok (some zds) ∧
    ViewOldOrNew (smallEnv (· == ·)) lazyMode viewSize none none [false, true] notThree twoView
      [false, true] zds := by
  obtain ⟨zds, h1, h2⟩ := C86_view_values (smallEnv (· == ·)) lazyMode (fun _ _ => true)
    [false, true] (fun _ => true) (fun _ => true) none none true notThree twoView failedView
    (Vw.update (smallEnv (· == ·)) lazyMode [false, true] (fun _ => true) none notThree
      twoView).2 viewSize (fun _ => 0) (by decide) (by intro h; cases h) (by decide)
    twoView_parts twoView_good (.inl twoView_covered) (.inl twoView_covered) notThree_maps
    (.inr ⟨rfl, .inr fun zds ind d h => by
      simp only [notThree, bind, Except.bind] at h
      split at h
      · cases h
      · split at h
        · cases h
        · cases h; simp⟩)
    twoView_arrays ⟨true, by simp, rfl, by rw [twoView_store]; simp⟩ rfl
  rw [twoView_selected] at h2
  exact ⟨zds, h1, h2⟩

end ViewUpdateEndCase

end Verif
