import Verif.Lemmas.View

/-! Lemmas about the synchronisation of views. -/

namespace Verif.Vw

open Nd Ds Upd Spec

variable {D P V H : Type} [DecidableEq D] [DecidableEq P] [DecidableEq H]

omit [DecidableEq D] [DecidableEq P] [DecidableEq H] in
theorem hasAxis_some {e : Env D V H} {ref : Option (Part V H)} {l : List V} {d : String}
    (h : HasAxis e ref l d) : ∃ r, ref = some r := by
  obtain ⟨r, hr, _⟩ := h
  exact ⟨r, hr⟩

omit [DecidableEq D] [DecidableEq P] [DecidableEq H] in
/-- A created variable has the length of the axis of the reference. -/
theorem created_long {e : Env D V H} {g : Part V H} (hg : SoundRef e g) {l : List V}
    {dim : String} (ha : HasAxis e (some g) l dim) {m : VarMeta V} {v : Var V}
    (hc : Created e g.vars m v) (ax : Nat) (hx : v.dims.idxOf? dim = some ax) :
    v.array.shape[ax]? = some l.length := by
  obtain ⟨_, h2, _, _, tm, htm, hd, t, ht, harr⟩ := hc
  have htd := hg.dims tm htm t ht
  have := hg.long l dim ha t (getVar_some _ _ _ ht).1 ax (by rw [htd, hd, ← h2]; exact hx)
  rw [harr]
  exact this

omit [DecidableEq D] [DecidableEq P] [DecidableEq H] in
theorem created_vars {e : Env D V H} {g part : Part V H} {metas : List (VarMeta V)}
    (h5 : (part.vars.map (·.name)).Nodup)
    (h6 : ∀ n, n ∉ metas.map (·.name) → getVar part.vars n = none)
    (h7 : ∀ m ∈ metas, ∃ v, getVar part.vars m.name = some v ∧ Created e g.vars m v)
    (v : Var V) (hv : v ∈ part.vars) : ∃ m ∈ metas, Created e g.vars m v := by
  have hg := getVar_of_mem _ h5 v hv
  by_cases hm : v.name ∈ metas.map (·.name)
  · obtain ⟨m, hmm, hname⟩ := List.mem_map.mp hm
    obtain ⟨w, hw, hc⟩ := h7 m hmm
    have hname : m.name = v.name := hname
    rw [hname, hg] at hw
    cases hw
    exact ⟨m, hmm, hc⟩
  · rw [h6 _ hm] at hg
    cases hg

omit [DecidableEq D] [DecidableEq P] [DecidableEq H] in
theorem startsWith_length {e : Env D V H} {a b : List V} (h : startsWith e a b = true) :
    a.length < b.length := by
  unfold startsWith at h
  simp only [Bool.and_eq_true, decide_eq_true_eq] at h
  exact h.1

omit [DecidableEq D] [DecidableEq P] [DecidableEq H] in
/-- The variables of an extended partition. -/
theorem extended_vars {e : Env D V H} {part part' : Part V H} {c : AxisRef V H} {l : List V}
    {dim : String} (hs : Sound e part) (hc : part.check = some c) (hd : c.dim = dim)
    (hst : startsWith e c.values l = true)
    (h : mapPy (extendVar e ⟨l, dim, e.hash l⟩) part.vars = .ok part'.vars) :
    part'.vars.length = part.vars.length ∧
    ∀ (i : Nat) (v : Var V), part.vars[i]? = some v → ∃ v', part'.vars[i]? = some v' ∧
      Extended dim l.length v v' ∧ ArrOk v'.array := by
  obtain ⟨h1, h2⟩ := mapPy_spec _ _ _ h
  refine ⟨h1, fun i v hv => ?_⟩
  obtain ⟨v', hv', hx⟩ := h2 i v hv
  have hm := List.mem_of_getElem? hv
  obtain ⟨a1, a2⟩ := extendVar_spec e ⟨l, dim, e.hash l⟩ v v' c.values.length (hs.arrays v hm)
    (fun ax hax => hs.long c hc v hm ax (by rw [hd]; exact hax))
    (Nat.le_of_lt (startsWith_length hst)) hx
  exact ⟨v', hv', a1, a2⟩

omit [DecidableEq D] [DecidableEq P] [DecidableEq H] in
theorem extended_sound {e : Env D V H} {part part' : Part V H} {c : AxisRef V H} {l : List V}
    {dim : String} (hs : Sound e part) (hc : part.check = some c) (hd : c.dim = dim)
    (hst : startsWith e c.values l = true)
    (hc' : part'.check = some ⟨l, dim, e.hash l⟩)
    (h : mapPy (extendVar e ⟨l, dim, e.hash l⟩) part.vars = .ok part'.vars) : Sound e part' := by
  obtain ⟨h1, h2⟩ := extended_vars hs hc hd hst h
  have back : ∀ v' ∈ part'.vars, ∃ v ∈ part.vars, Extended dim l.length v v' ∧ ArrOk v'.array := by
    intro v' hv'
    obtain ⟨i, hi⟩ := List.getElem?_of_mem hv'
    have hlt := (List.getElem?_eq_some_iff.mp hi).1
    obtain ⟨w, hw, hx⟩ := h2 i part.vars[i] (by simp [← h1, hlt])
    rw [hi] at hw
    cases hw
    exact ⟨_, List.getElem_mem _, hx⟩
  refine ⟨fun c hcc => ?_, fun c hcc v' hv' ax hax => ?_, ?_, fun v' hv' => ?_⟩
  · rw [hc'] at hcc; cases hcc; rfl
  · rw [hc'] at hcc; cases hcc
    obtain ⟨v, hv, hx, _⟩ := back v' hv'
    have hax' : v.dims.idxOf? dim = some ax := by rw [← hx.same.2.1]; exact hax
    have hlen := hs.long c hc v hv ax (by rw [hd]; exact hax')
    rw [hx.shape ax hax', List.getElem?_set]
    simp [(List.getElem?_eq_some_iff.mp hlen).1]
  · have : part'.vars.map (·.name) = part.vars.map (·.name) := by
      apply List.ext_getElem?
      intro i
      rw [List.getElem?_map, List.getElem?_map]
      cases hi : part.vars[i]? with
      | none =>
        rw [List.getElem?_eq_none (by rw [h1]; exact List.getElem?_eq_none_iff.mp hi)]
      | some v =>
        obtain ⟨v', hv', hx, _⟩ := h2 i v hi
        rw [hv']
        simp [hx.same.1]
    rw [this]
    exact hs.names
  · obtain ⟨_, _, _, h⟩ := back v' hv'
    exact h

omit [DecidableEq D] [DecidableEq P] [DecidableEq H] in
/-- After a synchronisation, the partition is in step with its reference. -/
theorem outcome_inStep {e : Env D V H} {metas : List (VarMeta V)} {ref cur c' : Option (Part V H)}
    {b : Bool} (hs : ∀ part, cur = some part → Sound e part)
    (hr : ∀ g, ref = some g → SoundRef e g)
    (hdim : ∀ part c l d, cur = some part → part.check = some c → HasAxis e ref l d → c.dim = d)
    (hn : ∀ part c l d, cur = some part → part.check = some c → HasAxis e ref l d →
      e.hash c.values = e.hash l → c.values = l)
    (h : Outcome e metas ref cur c' b) :
    InStep e ref c' ∧ (∀ part, c' = some part → Sound e part) ∧
    (∀ part c l d, c' = some part → part.check = some c → HasAxis e ref l d → c.dim = d) := by
  cases h with
  | same part c l dim h1 h2 h3 h4 =>
    have hsp := hs part h1
    have hcs := hsp.sum c h2
    have hv := hn part c l dim h1 h2 h3 (hcs.symm.trans h4)
    refine ⟨⟨part, c, l, dim, h1, h2, h3, hv, h4, ?_⟩, hs, hdim⟩
    have := hsp.long c h2
    rw [hdim part c l dim h1 h2 h3, hv] at this
    exact this
  | reset g part' l dim h1 h2 h3 h4 h5 h6 h7 =>
    subst h2
    have hl : Long dim l.length part'.vars := by
      intro v hv ax hax
      obtain ⟨m, hm, hc⟩ := created_vars h5 h6 h7 v hv
      exact created_long (hr g rfl) h3 hc ax hax
    refine ⟨⟨part', _, l, dim, rfl, h4, h3, rfl, rfl, hl⟩, ?_, ?_⟩
    · intro part hp
      cases hp
      refine ⟨fun c hc => ?_, fun c hc => ?_, h5, fun v hv => ?_⟩
      · rw [h4] at hc; cases hc; rfl
      · rw [h4] at hc; cases hc; exact hl
      · obtain ⟨m, hm, _, _, _, _, _, _, _, t, _, ha⟩ := created_vars h5 h6 h7 v hv
        rw [ha]; exact tabulate_arrOk _ _
    · intro part c l' d hp hc ha
      cases hp
      rw [h4] at hc; cases hc
      exact (hasAxis_unique h3 ha).2
  | extend part part' c l dim h1 h2 h3 h4 h5 h6 h7 =>
    have hsp := hs part h1
    have hd := hdim part c l dim h1 h2 h3
    have hx := extended_sound hsp h2 hd h5 h6 h7
    refine ⟨⟨part', _, l, dim, rfl, h6, h3, rfl, rfl, hx.long _ h6⟩, ?_, ?_⟩
    · intro p hp; cases hp; exact hx
    · intro p c' l' d hp hc ha
      cases hp
      rw [h6] at hc; cases hc
      exact (hasAxis_unique h3 ha).2

/-! ### The whole view -/

omit [DecidableEq H] in
/-- The partitions added by `_init_partitions`. -/
theorem initPartitions_files (e : Env D V H) (hd : e.base ≠ e.refDir) (listing : List P)
    (hn : listing.Nodup) (filters : P → Bool) (fs fs' : Files D P V H) (r : Py Unit)
    (h : initPartitions e listing filters fs = (fs', r)) :
    (∀ p, fs' e.refDir p = fs e.refDir p) ∧
    (∀ p, fs' e.base p = fs e.base p ∨ (fs e.base p = none ∧ p ∈ listing ∧ filters p = true ∧
      ∃ l dim, HasAxis e (fs e.refDir p) l dim ∧
        fs' e.base p = some ⟨[], some ⟨l, dim, e.hash l⟩⟩)) ∧
    (r = .ok () → ∀ p ∈ listing, filters p = true → fs' e.base p ≠ none) := by
  have hnd : ((listing.filter filters).filter fun p => (fs e.base p).isNone).Nodup :=
    List.Nodup.sublist (List.filter_sublist.trans List.filter_sublist) hn
  have hf := runTasks_files e (writeChecksum e) _ hnd fs
  have hfs : fs' = (runTasks e (writeChecksum e) fs
      ((listing.filter filters).filter fun p => (fs e.base p).isNone)).1 := by
    unfold initPartitions at h
    split at h
    · next hr => cases h; rw [hr]
    · next hr => cases h; rw [hr]
  refine ⟨fun p => ?_, fun p => ?_, fun hr p hp hfp => ?_⟩
  · rw [hfs, hf, if_neg]
    exact fun h => hd h.1.symm
  · by_cases hp : p ∈ (listing.filter filters).filter fun p => (fs e.base p).isNone
    · have hmem := hp
      simp only [List.mem_filter, Option.isNone_iff_eq_none] at hmem
      rw [hfs, hf, if_pos ⟨rfl, hp⟩]
      unfold writeChecksum
      split
      · exact .inl rfl
      · next a ha =>
        obtain ⟨a1, a2⟩ := axisRef_spec e _ a ha
        refine .inr ⟨hmem.2, hmem.1.1, hmem.1.2, a.values, a.dim, a1, ?_⟩
        rw [← a2]
    · rw [hfs, hf, if_neg (fun h => hp h.2)]
      exact .inl rfl
  · subst hr
    have hok : ∃ l, (runTasks e (writeChecksum e) fs
      ((listing.filter filters).filter fun p => (fs e.base p).isNone)).2 = .ok l := by
      unfold initPartitions at h
      split at h
      · next hr => rw [hr]; exact ⟨_, rfl⟩
      · cases h
    obtain ⟨l, hl⟩ := hok
    by_cases hnone : fs e.base p = none
    · have hmem : p ∈ (listing.filter filters).filter fun p => (fs e.base p).isNone := by
        simp [hp, hfp, hnone]
      obtain ⟨x, _, hx⟩ := runTasks_ok e (writeChecksum e) _ hnd fs l hl p hmem
      rw [hfs, hf, if_pos ⟨rfl, hmem⟩]
      unfold writeChecksum at hx ⊢
      split at hx
      · cases hx
      · simp
    · rw [hfs, hf, if_neg]
      · exact hnone
      · simp [hnone]

omit [DecidableEq H] in
/-- The initialisation keeps the view sound. -/
theorem initPartitions_sound (e : Env D V H) (hd : e.base ≠ e.refDir) (listing : List P)
    (hn : listing.Nodup) (filters : P → Bool) (fs fs' : Files D P V H) (r : Py Unit)
    (h : initPartitions e listing filters fs = (fs', r)) (hs : SoundView e fs)
    (hc : NoCollision e fs) : SoundView e fs' ∧ NoCollision e fs' := by
  obtain ⟨h1, h2, -⟩ := initPartitions_files e hd listing hn filters fs fs' r h
  refine ⟨⟨fun p part hp => ?_, fun p r hp => ?_, fun p part c hp hcc => ?_, fun p l d ha => ?_⟩,
    fun p part c l d hp hcc ha heq => ?_⟩
  · rcases h2 p with h | ⟨_, _, _, l, dim, ha, h⟩
    · exact hs.view p part (h ▸ hp)
    · rw [h] at hp
      cases hp
      refine ⟨fun c hc => ?_, fun c hc v hv => ?_, ?_, fun v hv => ?_⟩
      · cases hc; rfl
      · simp at hv
      · simp
      · simp at hv
  · exact hs.ref p r (by rw [← h1]; exact hp)
  · rcases h2 p with h | ⟨_, _, _, l, dim, ha, h⟩
    · exact hs.dim p part c (h ▸ hp) hcc
    · rw [h] at hp
      cases hp
      cases hcc
      exact hs.refDim p l dim ha
  · exact hs.refDim p l d (by rw [← h1]; exact ha)
  · rw [h1] at ha
    rcases h2 p with h | ⟨_, _, _, l', dim, ha', h⟩
    · exact hc p part c l d (h ▸ hp) hcc ha heq
    · rw [h] at hp
      cases hp
      cases hcc
      exact (hasAxis_unique ha' ha).1

/-- The state before the synchronisation proper. -/
theorem sync_split (e : Env D V H) (listing : List P) (filters : Option (P → Bool))
    (st st' : State D P V H) (done : List P) (h : sync e listing filters st = (st', .ok done)) :
    ∃ st1 l, st1.metas = st.metas ∧
      (match filters with
        | none => st1 = st
        | some f => initPartitions e listing f st.files = (st1.files, .ok ()) ∧
            st1.saved = st.metas) ∧
      listing ≠ [] ∧
      runTasks e (syncOne e false st.metas) st1.files listing = (st'.files, .ok l) ∧
      st' = { st1 with files := st'.files } ∧ done = (l.filter (·.2)).map (·.1) := by
  have key : ∀ st1 : State D P V H, st1.metas = st.metas →
      (if listing = [] then (st1, Except.error PyErr.typeError)
       else
        match runTasks e (syncOne e false st1.metas) st1.files listing with
        | (fs, .error err) => ({ st1 with files := fs }, .error err)
        | (fs, .ok l) => ({ st1 with files := fs }, .ok ((l.filter (·.2)).map (·.1)))) =
        (st', .ok done) →
      ∃ l, listing ≠ [] ∧
        runTasks e (syncOne e false st.metas) st1.files listing = (st'.files, .ok l) ∧
        st' = { st1 with files := st'.files } ∧ done = (l.filter (·.2)).map (·.1) := by
    intro st1 hm hst
    split at hst
    · cases hst
    · next hl =>
      split at hst
      · cases hst
      · next fs l hr =>
        cases hst
        rw [hm] at hr
        exact ⟨l, hl, hr, rfl, rfl⟩
  cases filters with
  | none =>
    simp only [sync] at h
    obtain ⟨l, h2⟩ := key st rfl h
    exact ⟨st, l, rfl, rfl, h2⟩
  | some f =>
    simp only [sync] at h
    cases hi : initPartitions e listing f st.files with
    | mk fs r =>
      rw [hi] at h
      cases r with
      | error err => cases h
      | ok u =>
        obtain ⟨l, h2⟩ := key { files := fs, metas := st.metas, saved := st.metas } rfl h
        exact ⟨{ files := fs, metas := st.metas, saved := st.metas }, l, rfl, ⟨hi, rfl⟩, h2⟩

end Verif.Vw
