import Verif.Spec.ViewFile
import Verif.Props.ViewSchema

/-! What is kept through the histories of a view whose operations may fail. -/

namespace Verif

open Spec Nd Ds Upd Vw

variable {D P V H : Type} [DecidableEq D] [DecidableEq P] [DecidableEq H]

/-- An array for the variable in the directory, if it exists. -/
def InPart (m : VarMeta V) (cur : Option (Part V H)) : Prop :=
  ∀ part, cur = some part → ∃ v ∈ part.vars, declaration v = m

omit [DecidableEq D] [DecidableEq P] [DecidableEq H] in
theorem inPart_of_map {m : VarMeta V} {part : Part V H} (h : m ∈ part.vars.map declaration) :
    ∃ v ∈ part.vars, declaration v = m := by
  obtain ⟨v, hv, h⟩ := List.mem_map.1 h
  exact ⟨v, hv, h⟩

omit [DecidableEq D] [DecidableEq P] in
theorem syncOne_inPart (e : Env D V H) (metas : List (VarMeta V)) (dry : Bool)
    (hn : (metas.map (·.name)).Nodup) (ref cur : Option (Part V H)) (m : VarMeta V)
    (hm : m ∈ metas) (hcur : InPart m cur) : InPart m (syncOne e dry metas ref cur).1 := by
  intro part h
  have hsp : ∀ part, (match syncPartition e metas ref with
      | (c, .ok ()) => (c, (.ok true : Py Bool))
      | (c, .error err) => (c, .error err)).1 = some part →
      ∃ v ∈ part.vars, declaration v = m := by
    intro part h
    cases hs : syncPartition e metas ref with
    | mk c r =>
      rw [hs] at h
      have : c = some part := by
        cases r <;> exact h
      rw [this] at hs
      exact inPart_of_map (by rw [syncPartition_declaration e metas hn ref part r hs]; exact hm)
  unfold syncOne at h
  split at h
  · split at h
    · cases h
    · exact hsp part h
  · next old =>
    split at h
    · exact hcur part h
    · split at h
      · exact hcur part h
      · next a _ =>
        split at h
        · split at h
          · split at h
            · exact hcur part h
            · have : (extendPartition e old a).1 = some part := by
                revert h
                split <;> (next hs => intro h; rw [hs]; exact h)
              unfold extendPartition at this
              split at this
              · cases this
              · next part' hc =>
                cases this
                simp only [bind, Except.bind] at hc
                split at hc
                · cases hc
                · next vars' hv =>
                  refine inPart_of_map ?_
                  rw [writeCheck_vars hc]
                  obtain ⟨v, hv1, hv2⟩ := hcur old rfl
                  rw [extendAll_declaration _ _ hv, ← hv2]
                  exact List.mem_map_of_mem hv1
          · split at h
            · exact hcur part h
            · exact hsp part h
        · exact hcur part h

omit [DecidableEq D] [DecidableEq P] [DecidableEq H] in
theorem Spec.SameBut.inPart {n : String} {a b : Option (Part V H)} (h : SameBut n a b)
    {m : VarMeta V} (hm : m.name ≠ n) (ha : InPart m a) : InPart m b := by
  intro part hb
  cases h with
  | absent => cases hb
  | present a b _ hv =>
    cases hb
    obtain ⟨v, hv1, hv2⟩ := ha a rfl
    have hvn : v.name = m.name := by rw [← hv2]; rfl
    have : v ∈ part.vars.filter fun v => decide (v.name ≠ n) := by
      rw [hv]
      exact List.mem_filter.2 ⟨hv1, by rw [hvn]; simpa using hm⟩
    exact ⟨v, (List.mem_filter.1 this).1, hv2⟩

/-- What is kept through the histories. -/
structure Alive (e : Env D V H) (listing : List P) (st : State D P V H)
    (fa wr : List String) : Prop where
  nodup : listing.Nodup
  listed : ∀ p, st.files e.base p ≠ none → p ∈ listing
  sub : ∀ m ∈ st.saved, m ∈ st.metas
  names : (st.metas.map (·.name)).Nodup
  saved : (st.saved.map (·.name)).Nodup
  held : ∀ m ∈ st.metas, m.name ∉ fa → m.name ∉ wr → ∀ p, InPart m (st.files e.base p)
  known : ∀ m ∈ st.saved, m.name ∈ fa → m.name ∈ wr

/-- `sync` and `is_synced` once the partitions are created. -/
theorem Alive.tasks {e : Env D V H} {listing : List P} {st : State D P V H}
    {fa wr : List String} (h : Alive e listing st fa wr) (dry : Bool) :
    Alive e listing { st with files := (runTasks e (syncOne e dry st.metas) st.files listing).1 }
      fa wr := by
  have hf := runTasks_files e (syncOne e dry st.metas) listing h.nodup st.files e.base
  refine ⟨h.nodup, fun p hp => ?_, h.sub, h.names, h.saved, fun m hm h1 h2 p => ?_, h.known⟩
  · simp only at hp
    rw [hf] at hp
    split at hp
    · next hc => exact hc.2
    · exact h.listed p hp
  · simp only
    rw [hf]
    split
    · exact syncOne_inPart e st.metas dry h.names _ _ m hm (h.held m hm h1 h2 p)
    · exact h.held m hm h1 h2 p

theorem Alive.sync {e : Env D V H} {listing : List P} {st : State D P V H}
    {fa wr : List String} (h : Alive e listing st fa wr) :
    Alive e listing (Vw.sync e listing none st).1 fa wr := by
  unfold Vw.sync
  simp only
  split
  · exact h
  · have := h.tasks false
    split <;> (next hr => rw [hr] at this; exact this)

omit [DecidableEq H] in
theorem initPartitions_nothing (e : Env D V H) (listing : List P) (f : P → Bool)
    (fs : Files D P V H) (h : ∀ p ∈ listing, f p = true → fs e.base p ≠ none) :
    initPartitions e listing f fs = (fs, .ok ()) := by
  have : ((listing.filter f).filter fun p => (fs e.base p).isNone) = [] := by
    rw [List.filter_eq_nil_iff]
    intro p hp
    obtain ⟨h1, h2⟩ := List.mem_filter.1 hp
    have := h p h1 h2
    cases hc : fs e.base p with
    | none => exact absurd hc this
    | some _ => simp
  unfold initPartitions
  rw [this]
  rfl

omit [DecidableEq D] [DecidableEq P] [DecidableEq H] in
theorem Alive.write {e : Env D V H} {listing : List P} {st : State D P V H}
    {fa wr : List String} (h : Alive e listing st fa wr) :
    Alive e listing { st with saved := st.metas } fa (wr ++ fa) :=
  ⟨h.nodup, h.listed, fun _ hm => hm, h.names, h.names,
   fun m hm h1 h2 p => h.held m hm h1 (fun hc => h2 (List.mem_append_left _ hc)) p,
   fun _ _ hf => List.mem_append_right _ hf⟩

theorem Alive.syncSelected {e : Env D V H} {listing : List P} {st : State D P V H}
    {fa wr : List String} (h : Alive e listing st fa wr) (f : P → Bool)
    (hf : ∀ p ∈ listing, f p = true → st.files e.base p ≠ none) :
    Alive e listing (Vw.sync e listing (some f) st).1 fa (wr ++ fa) := by
  unfold Vw.sync
  simp only [initPartitions_nothing e listing f st.files hf]
  split
  · exact h.write
  · have := h.write.tasks false
    split <;> (next hr => rw [hr] at this; exact this)

theorem Alive.isSynced {e : Env D V H} {listing : List P} {st : State D P V H}
    {fa wr : List String} (h : Alive e listing st fa wr) :
    Alive e listing (Vw.isSynced e listing st).1 fa wr := by
  unfold Vw.isSynced
  split
  · exact h
  · have := h.tasks true
    split <;> (next hr => rw [hr] at this; exact this)

omit [DecidableEq D] [DecidableEq P] [DecidableEq H] in
theorem nodup_append_new {metas : List (VarMeta V)} (hn : (metas.map (·.name)).Nodup)
    (m : VarMeta V) (h : ∀ t ∈ metas, t.name ≠ m.name) :
    ((metas ++ [m]).map (·.name)).Nodup := by
  rw [List.map_append, List.nodup_append]
  refine ⟨hn, by simp, fun a ha b hb => ?_⟩
  obtain ⟨t, ht, rfl⟩ := List.mem_map.1 ha
  simp only [List.map_cons, List.map_nil, List.mem_singleton] at hb
  rw [hb]
  exact h t ht

omit [DecidableEq D] [DecidableEq P] [DecidableEq H] in
theorem addTask_inPart (e : Env D V H) (tmpl : String) (m : VarMeta V)
    (ref cur : Option (Part V H)) (h : (addTask e tmpl m ref cur).2 = .ok ()) :
    InPart m (addTask e tmpl m ref cur).1 := by
  unfold addTask at h ⊢
  split at h
  · next r part =>
    split at h
    · cases h
    · next part' hc =>
      intro part'' hp
      cases hp
      obtain ⟨_, v, _, hv, _, v1, v2, v3, v4, _⟩ := createArray_spec e r.vars tmpl m part part' hc
      refine ⟨v, ?_, ?_⟩
      · rw [hv]
        exact List.mem_of_find?_eq_some (by
          have := getVar_setVar part.vars v v.name
          rw [if_pos rfl] at this
          exact this)
      · cases m
        simp only at v1 v2 v3 v4
        simp [declaration, v1, v2, v3, v4]
  · cases h

omit [DecidableEq D] [DecidableEq P] [DecidableEq H] in
/-- Everything but the metadata. -/
theorem Alive.files {e : Env D V H} {listing : List P} {st st' : State D P V H}
    {fa wr : List String} (h : Alive e listing st fa wr) {n : String}
    (h1 : ∀ p, SameBut n (st.files e.base p) (st'.files e.base p)) :
    (∀ p, st'.files e.base p ≠ none → p ∈ listing) ∧
    ∀ m ∈ st.metas, m.name ≠ n → m.name ∉ fa → m.name ∉ wr →
      ∀ p, InPart m (st'.files e.base p) :=
  ⟨fun p hp => h.listed p fun hc => hp ((h1 p).isNone.1 hc),
   fun m hm hmn hf hw p => (h1 p).inPart hmn (h.held m hm hf hw p)⟩

omit [DecidableEq H] in
theorem Alive.added {e : Env D V H} {listing : List P} {st st' : State D P V H}
    {fa wr : List String} (h : Alive e listing st fa wr) (dims : List String) (m : VarMeta V)
    (hp : ∃ p ∈ listing, st.files e.base p ≠ none)
    (ha : Vw.addVariable e listing dims m st = (st', .ok ())) :
    Alive e listing st' fa (wr ++ fa) := by
  rcases addVariable_cases e listing h.nodup dims m st with
    h' | h' | ⟨h1, h'⟩ | ⟨hnew, tmpl, fs, ht, _, h3, ⟨h', h4⟩ | ⟨err', h', h4⟩⟩
  · rw [ha] at h'; cases h'
  · rw [ha] at h'; cases h'
  · obtain ⟨p, hp1, hp2⟩ := hp
    exact absurd (h1 p hp1) hp2
  · rw [ha] at h'
    cases h'
    have hnew : ∀ t ∈ st.metas, t.name ≠ m.name := fun t ht hc =>
      hnew (hc ▸ List.mem_map_of_mem ht)
    obtain ⟨f1, f2⟩ := h.files (st' := { st with files := fs }) h3
    refine ⟨h.nodup, f1, fun _ hm => hm, nodup_append_new h.names m hnew,
      nodup_append_new h.names m hnew, fun t ht hf hw p => ?_,
      fun _ _ hf => List.mem_append_right _ hf⟩
    rcases List.mem_append.1 ht with ht | ht
    · exact f2 t ht (hnew t ht) hf (fun hc => hw (List.mem_append_left _ hc)) p
    · rw [List.mem_singleton.1 ht]
      intro part hpart
      have hpart' : fs e.base p = some part := hpart
      have hne : st.files e.base p ≠ none := fun hc => by
        have := (h3 p).isNone.1 hc
        rw [hpart'] at this
        cases this
      obtain ⟨g1, g2⟩ := h4 p (h.listed p hne) hne
      exact addTask_inPart e tmpl m _ _ g1 part (g2 ▸ hpart')
  · rw [ha] at h'; cases h'

omit [DecidableEq H] in
theorem Alive.addedEmpty {e : Env D V H} {listing : List P} {st st' : State D P V H}
    {fa wr : List String} (h : Alive e listing st fa wr) (dims : List String) (m : VarMeta V)
    (hp : ∀ p ∈ listing, st.files e.base p = none)
    (ha : Vw.addVariable e listing dims m st = (st', .ok ())) :
    Alive e listing st' fa wr := by
  have hno : ∀ p, st.files e.base p = none := fun p =>
    Classical.byContradiction fun hc => hc (hp p (h.listed p hc))
  have hst : st' = { st with metas := st.metas ++ [m] } ∧ ∀ t ∈ st.metas, t.name ≠ m.name := by
    have hpart : partitions e listing (fun _ => true) st.files = [] := by
      unfold partitions
      rw [List.filter_eq_nil_iff]
      intro p _
      rw [hno p]
      simp
    unfold Vw.addVariable at ha
    split at ha
    · cases ha
    · next h1 =>
      split at ha
      · cases ha
      · simp only at ha
        split at ha
        · cases ha
        · rw [if_pos hpart] at ha
          cases ha
          exact ⟨rfl, fun t ht hc => h1 (.inr (hc ▸ List.mem_map_of_mem ht))⟩
  obtain ⟨rfl, hnew⟩ := hst
  refine ⟨h.nodup, h.listed, fun t ht => List.mem_append_left _ (h.sub t ht),
    nodup_append_new h.names m hnew, h.saved, fun t ht hf hw p part hpart => ?_, h.known⟩
  have hpart : st.files e.base p = some part := hpart
  rw [hno p] at hpart
  cases hpart

omit [DecidableEq H] in
theorem Alive.failed {e : Env D V H} {listing : List P} {st st' : State D P V H}
    {fa wr : List String} (h : Alive e listing st fa wr) (dims : List String) (m : VarMeta V)
    (err : PyErr) (hnew : ∀ t ∈ st.metas, t.name ≠ m.name)
    (ha : Vw.addVariable e listing dims m st = (st', .error err)) :
    Alive e listing st' (m.name :: fa) wr := by
  have key : ∀ fs : Files D P V H, (∀ p, SameBut m.name (st.files e.base p) (fs e.base p)) →
      ∀ metas, (metas = st.metas ∨ metas = st.metas ++ [m]) →
      Alive e listing { st with files := fs, metas := metas } (m.name :: fa) wr := by
    intro fs h3 metas hm
    obtain ⟨f1, f2⟩ := h.files (st' := { st with files := fs }) h3
    have hk : ∀ t ∈ st.saved, t.name ∈ m.name :: fa → t.name ∈ wr := by
      intro t ht hc
      rcases List.mem_cons.1 hc with hc | hc
      · exact absurd hc (hnew t (h.sub t ht))
      · exact h.known t ht hc
    rcases hm with rfl | rfl
    · exact ⟨h.nodup, f1, h.sub, h.names, h.saved, fun t ht hf hw p =>
        f2 t ht (hnew t ht) (fun hc => hf (List.mem_cons_of_mem _ hc)) hw p, hk⟩
    · refine ⟨h.nodup, f1, fun t ht => List.mem_append_left _ (h.sub t ht),
        nodup_append_new h.names m hnew, h.saved, fun t ht hf hw p => ?_, hk⟩
      rcases List.mem_append.1 ht with ht | ht
      · exact f2 t ht (hnew t ht) (fun hc => hf (List.mem_cons_of_mem _ hc)) hw p
      · rw [List.mem_singleton.1 ht] at hf
        exact absurd (List.mem_cons_self ..) hf
  rcases addVariable_cases e listing h.nodup dims m st with
    h' | h' | ⟨h1, h'⟩ | ⟨_, tmpl, fs, ht, _, h3, ⟨h', h4⟩ | ⟨err', h', h4⟩⟩
  · rw [ha] at h'; cases h'
    exact key st.files (fun _ => .refl _ _) _ (.inl rfl)
  · rw [ha] at h'; cases h'
    exact key st.files (fun _ => .refl _ _) _ (.inr rfl)
  · rw [ha] at h'; cases h'
  · rw [ha] at h'; cases h'
  · rw [ha] at h'; cases h'
    exact key fs h3 _ (.inr rfl)

omit [DecidableEq H] in
theorem Alive.refused {e : Env D V H} {listing : List P} {st st' : State D P V H}
    {fa wr : List String} (h : Alive e listing st fa wr) (dims : List String) (m : VarMeta V)
    (err : PyErr) (hin : ∃ t ∈ st.metas, t.name = m.name)
    (ha : Vw.addVariable e listing dims m st = (st', .error err)) :
    Alive e listing st' fa wr := by
  obtain ⟨t, ht, hc⟩ := hin
  unfold Vw.addVariable at ha
  rw [if_pos (.inr (hc ▸ List.mem_map_of_mem ht))] at ha
  cases ha
  exact h

omit [DecidableEq H] in
theorem Alive.dropped {e : Env D V H} {listing : List P} {st : State D P V H}
    {fa wr : List String} (h : Alive e listing st fa wr) (name : String)
    (hin : ∃ t ∈ st.metas, t.name = name) (hr : ∀ t ∈ e.refMeta, t.name ≠ name) :
    Alive e listing (Vw.dropVariable e listing name st).1
      (fa.filter fun n => decide (n ≠ name))
      ((wr ++ fa).filter fun n => decide (n ≠ name)) := by
  cases hd : Vw.dropVariable e listing name st with | mk st' r =>
  obtain ⟨h1, h2, _, h4, _, _⟩ := C56_drop_partial e listing h.nodup name st st' r hin hr hd
  rw [reopened_iff] at h2
  obtain ⟨f1, f2⟩ := h.files h4
  have hn : (st'.metas.map (·.name)).Nodup := by
    rw [h1]
    exact List.Nodup.sublist (List.Sublist.map _ List.filter_sublist) h.names
  refine ⟨h.nodup, f1, fun t ht => h2 ▸ ht, hn, h2 ▸ hn, fun t ht hf hw p => ?_,
    fun t _ hf => ?_⟩
  · have ht : t ∈ st'.metas := ht
    rw [h1] at ht
    obtain ⟨ht1, ht2⟩ := List.mem_filter.1 ht
    have ht2 : t.name ≠ name := by simpa using ht2
    refine f2 t ht1 ht2 (fun hc => hf (List.mem_filter.2 ⟨hc, by simpa using ht2⟩))
      (fun hc => hw (List.mem_filter.2 ⟨List.mem_append_left _ hc, by simpa using ht2⟩)) p
  · obtain ⟨g1, g2⟩ := List.mem_filter.1 hf
    exact List.mem_filter.2 ⟨List.mem_append_right _ g1, g2⟩

omit [DecidableEq H] in
theorem Alive.update {e : Env D V H} {listing : List P} {st : State D P V H}
    {fa wr : List String} (h : Alive e listing st fa wr) (how : How) (filters : P → Bool)
    (sel : Option (List String)) (f : Callback V (Dict V)) :
    Alive e listing (Vw.update e how listing filters sel f st).1 fa wr := by
  obtain ⟨m1, m2⟩ := update_metas e how listing filters sel f st
  refine ⟨h.nodup, fun p hp => ?_, by rw [m1, m2]; exact h.sub, by rw [m1]; exact h.names,
    by rw [m2]; exact h.saved, fun m hm h1 h2 p => ?_, by rw [m2]; exact h.known⟩
  · have hk : Kept e f (partitions e listing filters st.files) fun fs =>
        fs e.base p ≠ none → p ∈ listing := by
      refine ⟨fun fs q n a fs' hq _ _ hw hne => ?_⟩
      obtain ⟨old, vars, w1, w2, rfl⟩ := writeOne_spec hw
      unfold put at hne
      split at hne
      · next heq =>
        obtain ⟨_, rfl⟩ := heq
        exact hq (by rw [w1]; simp)
      · exact hq hne
    exact hk.update (how := how) (sel := sel) (h.listed p) hp
  · rw [m1] at hm
    have hk : Kept e f (partitions e listing filters st.files) fun fs =>
        InPart m (fs e.base p) := by
      refine ⟨fun fs q n a fs' hq _ _ hw part' hpart' => ?_⟩
      obtain ⟨old, vars, w1, w2, rfl⟩ := writeOne_spec hw
      unfold put at hpart'
      split at hpart'
      · next heq =>
        obtain ⟨_, rfl⟩ := heq
        cases hpart'
        obtain ⟨v, hv1, hv2⟩ := hq old w1
        refine inPart_of_map ?_
        rw [sameVars_declaration (writeVar_spec w2).1, ← hv2]
        exact List.mem_map_of_mem hv1
      · exact hq part' hpart'
    exact hk.update (how := how) (sel := sel) (h.held m hm h1 h2 p)

theorem Spec.Lives.alive {e : Env D V H} {listing : List P} {st : State D P V H}
    {fa wr : List String} (h : Lives e listing st fa wr) : Alive e listing st fa wr := by
  induction h with
  | created listing filters fs hb hn =>
    refine ⟨hn, fun p hp => ?_, nofun, List.nodup_nil, List.nodup_nil, nofun, nofun⟩
    have hnd : ∀ g : P → Bool,
        ((listing.filter g).filter fun p => (fs e.base p).isNone).Nodup := fun g =>
      List.Nodup.sublist (List.filter_sublist.trans List.filter_sublist) hn
    have hf : ∀ g : P → Bool, (initPartitions e listing g fs).1 e.base p ≠ none →
        p ∈ listing := by
      intro g hg
      have hr := runTasks_files e (writeChecksum e) _ (hnd g) fs e.base p
      have : (initPartitions e listing g fs).1 = (runTasks e (writeChecksum e) fs
          ((listing.filter g).filter fun p => (fs e.base p).isNone)).1 := by
        unfold initPartitions
        split <;> (next h => rw [h])
      rw [this, hr] at hg
      split at hg
      · next hc => exact (List.mem_filter.1 (List.mem_filter.1 hc.2).1).1
      · exact absurd (hb p) hg
    cases filters with
    | none => exact hf _ hp
    | some g => exact hf _ hp
  | reference listing listing' st fa wr fs _ hb hn hl ih =>
    refine ⟨hn, fun p hp => hl p (ih.listed p ?_), ih.sub, ih.names, ih.saved,
      fun m hm h1 h2 p => ?_, ih.known⟩
    · rw [← hb p]; exact hp
    · simp only
      rw [hb p]
      exact ih.held m hm h1 h2 p
  | sync listing st fa wr _ ih => exact ih.sync
  | syncSelected listing st fa wr f _ hf ih => exact ih.syncSelected f hf
  | isSynced listing st fa wr _ ih => exact ih.isSynced
  | added listing st st' fa wr dims m _ hp ha ih => exact ih.added dims m hp ha
  | addedEmpty listing st st' fa wr dims m _ hp ha ih => exact ih.addedEmpty dims m hp ha
  | refused listing st st' fa wr dims m err _ hin ha ih => exact ih.refused dims m err hin ha
  | failed listing st st' fa wr dims m err _ hnew ha ih => exact ih.failed dims m err hnew ha
  | dropped listing st fa wr name _ hin hr ih => exact ih.dropped name hin hr
  | unknown listing st fa wr name _ hu ih =>
    have : Vw.dropVariable e listing name st = (st, .error .valueError) := by
      rcases hu with hu | ⟨t, ht, hu⟩
      · exact C56_drop_unknown e listing name st hu
      · unfold Vw.dropVariable handled
        rw [if_pos (hu ▸ List.mem_map_of_mem ht)]
    rw [this]
    exact ih
  | update listing st fa wr how filters sel f _ ih => exact ih.update how filters sel f
  | reopen listing st fa wr _ ih =>
    exact ⟨ih.nodup, ih.listed, fun _ hm => hm, ih.saved, ih.saved, fun m hm _ h2 p =>
      ih.held m (ih.sub m hm) (fun hc => h2 (ih.known m hm hc)) h2 p, nofun⟩

end Verif
