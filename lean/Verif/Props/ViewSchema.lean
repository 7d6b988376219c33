import Verif.Spec.ViewSchema
import Verif.Props.ViewOps

/-! C56: adding and dropping the variables of a view. -/

namespace Verif

open Spec Nd Ds Upd Vw

variable {D P V H : Type} [DecidableEq D] [DecidableEq P] [DecidableEq H]

omit [DecidableEq D] [DecidableEq P] [DecidableEq H] in
theorem Spec.SameBut.refl (n : String) (a : Option (Part V H)) : SameBut n a a := by
  cases a with
  | none => exact .absent
  | some a => exact .present a a rfl rfl

omit [DecidableEq D] [DecidableEq P] [DecidableEq H] in
theorem Spec.SameBut.trans {n : String} {a b c : Option (Part V H)} (h : SameBut n a b)
    (h' : SameBut n b c) : SameBut n a c := by
  cases h with
  | absent => exact h'
  | present a b h1 h2 =>
    cases h' with
    | present _ c h3 h4 => exact .present a c (h3.trans h1) (h4.trans h2)

omit [DecidableEq D] [DecidableEq P] [DecidableEq H] in
theorem Spec.SameBut.isNone {n : String} {a b : Option (Part V H)} (h : SameBut n a b) :
    a = none ↔ b = none := by
  cases h with
  | absent => exact Iff.rfl
  | present a b _ _ => exact ⟨fun h => (by cases h), fun h => (by cases h)⟩

theorem filter_setVar (vars : List (Var V)) (v : Var V) :
    ((setVar vars v).filter fun w => decide (w.name ≠ v.name)) =
      (vars.filter fun w => decide (w.name ≠ v.name)) := by
  induction vars with
  | nil => simp [setVar]
  | cons w t ih =>
    simp only [setVar]
    split
    · next h => simp [h]
    · next h => simp only [List.filter_cons, ih]

omit [DecidableEq D] [DecidableEq P] [DecidableEq H] in
theorem mem_parts (e : Env D V H) (listing : List P) (fs : Files D P V H) (p : P) :
    p ∈ partitions e listing (fun _ => true) fs ↔ p ∈ listing ∧ fs e.base p ≠ none := by
  unfold partitions
  rw [List.filter_eq_self.2 fun _ _ => rfl, List.mem_filter]
  cases fs e.base p <;> simp

omit [DecidableEq D] [DecidableEq P] [DecidableEq H] in
theorem addTask_same (e : Env D V H) (tmpl : String) (m : VarMeta V)
    (ref cur : Option (Part V H)) : SameBut m.name cur (addTask e tmpl m ref cur).1 := by
  unfold addTask
  split
  · next r part =>
    split
    · exact .refl _ _
    · next part' h =>
      obtain ⟨h1, v, t, h2, _, h3, _⟩ := createArray_spec e r.vars tmpl m part part' h
      refine .present _ _ h1 ?_
      rw [h2, ← h3]
      exact filter_setVar _ _
  · exact .refl _ _

omit [DecidableEq D] [DecidableEq P] [DecidableEq H] in
theorem addTask_done (e : Env D V H) (tmpl : String) (m : VarMeta V)
    (ref cur : Option (Part V H)) (ht : template e m = .ok tmpl)
    (hr : ∀ r, ref = some r → SoundRef e r)
    (h : (addTask e tmpl m ref cur).2 = .ok ()) :
    ∃ r part v, ref = some r ∧ (addTask e tmpl m ref cur).1 = some part ∧
      getVar part.vars m.name = some v ∧ Reset r m v := by
  unfold addTask at h ⊢
  split at h
  · next r part =>
    split at h
    · cases h
    · next part' hc =>
      obtain ⟨_, v, t, h2, h3, h4, h5, h6, h7, h8⟩ := createArray_spec e r.vars tmpl m part part' hc
      obtain ⟨tm, htm, hdims, rfl⟩ := template_spec e m tmpl ht
      refine ⟨r, part', v, rfl, rfl, ?_, h4, h5, h6, h7, t, List.mem_of_find?_eq_some h3, ?_, ?_,
        fun f hf => ?_⟩
      · rw [h2, getVar_setVar, if_pos h4]
      · rw [h8]; rfl
      · rw [← hdims]
        exact (hr r rfl).dims tm htm t h3
      · rw [h8]
        refine ⟨rfl, fun idx hidx => ?_⟩
        rw [tabulate_get _ _ _ hidx]
        simp [blank, hf]
  · cases h

omit [DecidableEq D] [DecidableEq P] [DecidableEq H] in
theorem dropTask_same (name : String) (ig : Bool) (cur : Option (Part V H)) :
    SameBut name cur (dropTask name ig cur).1 ∧
    ∀ part, (dropTask name ig cur).1 = some part → ∀ v ∈ part.vars, v.name ≠ name := by
  unfold dropTask
  split
  · exact ⟨.absent, fun _ h => by cases h⟩
  · next part =>
    split
    · refine ⟨.present _ _ rfl (by rw [List.filter_filter]; simp), fun part' h v hv => ?_⟩
      cases h
      simpa using (List.mem_filter.1 hv).2
    · next h =>
      refine ⟨.refl _ _, fun part' h' v hv hvn => ?_⟩
      cases h'
      exact h ((getVar_isSome part.vars name).2 (hvn ▸ List.mem_map_of_mem hv))

omit [DecidableEq D] [DecidableEq P] [DecidableEq H] in
theorem Spec.SameBut.eq {n : String} {a b : Option (Part V H)} (h : SameBut n a b)
    (ha : ∀ part, a = some part → ∀ v ∈ part.vars, v.name ≠ n)
    (hb : ∀ part, b = some part → ∀ v ∈ part.vars, v.name ≠ n) : b = a := by
  cases h with
  | absent => rfl
  | present a b h1 h2 =>
    rw [List.filter_eq_self.2 (fun v hv => by simpa using hb b rfl v hv),
      List.filter_eq_self.2 (fun v hv => by simpa using ha a rfl v hv)] at h2
    cases a; cases b
    simp only at h1 h2
    rw [h1, h2]

omit [DecidableEq H] in
/-- The possible outcomes of `add_variable`. -/
theorem addVariable_cases (e : Env D V H) (listing : List P)
    (hn : listing.Nodup) (dims : List String) (m : VarMeta V) (st : State D P V H) :
    -- refused
    (addVariable e listing dims m st = (st, .error .valueError)) ∨
    -- no template
    (addVariable e listing dims m st = ({ st with metas := st.metas ++ [m] }, .error .valueError))
    ∨
    -- no partition
    ((∀ p ∈ listing, st.files e.base p = none) ∧
      addVariable e listing dims m st = ({ st with metas := st.metas ++ [m] }, .ok ())) ∨
    -- done, or undone
    (m.name ∉ st.metas.map (·.name) ∧ ∃ tmpl fs, template e m = .ok tmpl ∧
      (∀ d q, d ≠ e.base ∨ q ∉ listing → fs d q = st.files d q) ∧
      (∀ p, SameBut m.name (st.files e.base p) (fs e.base p)) ∧
      ((addVariable e listing dims m st =
          ({ files := fs, metas := st.metas ++ [m], saved := st.metas ++ [m] }, .ok ()) ∧
        ∀ p ∈ listing, st.files e.base p ≠ none →
          (addTask e tmpl m (st.files e.refDir p) (st.files e.base p)).2 = .ok () ∧
          fs e.base p = (addTask e tmpl m (st.files e.refDir p) (st.files e.base p)).1) ∨
       (∃ err, addVariable e listing dims m st =
          ({ st with files := fs, metas := st.metas ++ [m] }, .error err) ∧
        ∀ p ∈ listing, ∀ part, fs e.base p = some part → ∀ v ∈ part.vars, v.name ≠ m.name))) := by
  unfold Vw.addVariable
  by_cases h1 : m.name ∈ e.refMeta.map (·.name) ∨ m.name ∈ st.metas.map (·.name)
  · rw [if_pos h1]; exact .inl rfl
  · rw [if_neg h1]
    by_cases h2 : ∃ d ∈ m.dims, d ∉ dims
    · rw [if_pos h2]; exact .inl rfl
    · rw [if_neg h2]
      right
      simp only
      cases ht : template e m with
      | error err =>
        left
        have : err = .valueError := by
          unfold template at ht
          split at ht <;> cases ht
          rfl
        rw [this]
      | ok tmpl =>
        right
        simp only
        by_cases h3 : partitions e listing (fun _ => true) st.files = []
        · left
          rw [if_pos h3]
          refine ⟨fun p hp => Classical.byContradiction fun hc => ?_, rfl⟩
          have := (mem_parts e listing st.files p).2 ⟨hp, hc⟩
          rw [h3] at this
          cases this
        · right
          rw [if_neg h3]
          have hnp := nodup_partitions e listing hn (fun _ => true) st.files
          have hf := runTasks_files e (addTask e tmpl m) _ hnp st.files
          have hr := (runTasks_result e (addTask e tmpl m) _ hnp st.files).1
          have hsame : ∀ p, SameBut m.name (st.files e.base p)
              ((runTasks e (addTask e tmpl m) st.files
                (partitions e listing (fun _ => true) st.files)).1 e.base p) := by
            intro p
            rw [hf]
            split
            · exact addTask_same _ _ _ _ _
            · exact .refl _ _
          have hother : ∀ d q, d ≠ e.base ∨ q ∉ listing →
              (runTasks e (addTask e tmpl m) st.files
                (partitions e listing (fun _ => true) st.files)).1 d q = st.files d q := by
            intro d q hdq
            rw [hf, if_neg]
            rintro ⟨rfl, hq⟩
            rcases hdq with h | h
            · exact h rfl
            · exact h ((mem_parts _ _ _ _).1 hq).1
          simp only [not_or] at h1
          cases hrun : runTasks e (addTask e tmpl m) st.files
              (partitions e listing (fun _ => true) st.files) with
          | mk fs r =>
            rw [hrun] at hf hr hsame hother
            simp only at hf hr hsame hother
            cases r with
            | ok l =>
              refine ⟨h1.2, tmpl, fs, rfl, hother, hsame, .inl ⟨rfl, fun p hp hne => ?_⟩⟩
              have hpm := (mem_parts e listing st.files p).2 ⟨hp, hne⟩
              constructor
              · obtain ⟨hl1, hl2⟩ := hr l rfl
                rw [← hl1] at hpm
                obtain ⟨x, hx, rfl⟩ := List.mem_map.1 hpm
                exact hl2 x.1 x.2 hx
              · have := hf e.base p
                rw [if_pos ⟨rfl, hpm⟩] at this
                exact this
            | error err =>
              have hnp2 := nodup_partitions e listing hn (fun _ => true) fs
              have hf2 := runTasks_files e (fun _ cur => dropTask m.name true cur) _ hnp2 fs
              refine ⟨h1.2, tmpl, _, rfl, fun d q hdq => ?_, fun p => ?_,
                .inr ⟨err, rfl, fun p hp part hpart => ?_⟩⟩
              · rw [hf2, if_neg, hother d q hdq]
                rintro ⟨rfl, hq⟩
                rcases hdq with h | h
                · exact h rfl
                · exact h ((mem_parts _ _ _ _).1 hq).1
              · refine (hsame p).trans ?_
                rw [hf2]
                split
                · exact (dropTask_same _ _ _).1
                · exact .refl _ _
              · rw [hf2] at hpart
                split at hpart
                · exact (dropTask_same _ _ _).2 _ hpart
                · next hc =>
                  exact absurd ⟨rfl, (mem_parts e listing fs p).2 ⟨hp, by rw [hpart]; simp⟩⟩ hc

/-! ### Adding -/

/-- C56, full statement about an addition.  If it succeeds, each partition of the view holds
the new variable with the declared properties, at its fill value, and nothing else changes in
the directories; the view is the same when it is reopened.  If it fails nothing changes. -/
def C56_add_full : Prop :=
  ∀ (D P V H : Type) [DecidableEq D] [DecidableEq P] [DecidableEq H] (e : Env D V H)
    (listing : List P) (dims : List String) (m : VarMeta V) (st : State D P V H),
    e.base ≠ e.refDir → listing.Nodup → Reach e true st → reopened st = st →
    match addVariable e listing dims m st with
    | (st', .ok ()) =>
      st'.metas = st.metas ++ [m] ∧ reopened st' = st' ∧
      (∀ d q, d ≠ e.base ∨ q ∉ listing → st'.files d q = st.files d q) ∧
      (∀ p, SameBut m.name (st.files e.base p) (st'.files e.base p)) ∧
      ∀ p ∈ listing, ∀ part, st'.files e.base p = some part → ∃ r v,
        st.files e.refDir p = some r ∧ getVar part.vars m.name = some v ∧ Reset r m v
    | (st', .error _) => st' = st

omit [DecidableEq H] in
/-- C56: the addition of a variable to a view that has a partition.  Missing: a view without
partition, where the metadata are not written (`C56_counterexample_empty`). -/
theorem C56_add_partial (e : Env D V H) (listing : List P)
    (hn : listing.Nodup) (dims : List String) (m : VarMeta V) (st st' : State D P V H)
    (hg : GoodRef e st.files) (hp : ∃ p ∈ listing, st.files e.base p ≠ none)
    (h : addVariable e listing dims m st = (st', .ok ())) :
    st'.metas = st.metas ++ [m] ∧ reopened st' = st' ∧
    (∀ d q, d ≠ e.base ∨ q ∉ listing → st'.files d q = st.files d q) ∧
    (∀ p, SameBut m.name (st.files e.base p) (st'.files e.base p)) ∧
    ∀ p ∈ listing, ∀ part, st'.files e.base p = some part → ∃ r v,
      st.files e.refDir p = some r ∧ getVar part.vars m.name = some v ∧ Reset r m v := by
  rcases addVariable_cases e listing hn dims m st with
    h' | h' | ⟨h1, h'⟩ | ⟨_, tmpl, fs, ht, h2, h3, ⟨h', h4⟩ | ⟨err, h', _⟩⟩
  · rw [h] at h'; cases h'
  · rw [h] at h'; cases h'
  · obtain ⟨p, hp1, hp2⟩ := hp
    exact absurd (h1 p hp1) hp2
  · rw [h] at h'
    cases h'
    refine ⟨rfl, rfl, h2, h3, fun p hpl part hpart => ?_⟩
    have hne : st.files e.base p ≠ none := fun hc => by
      have := (h3 p).isNone.1 hc
      cases this.symm.trans hpart
    have hpart : fs e.base p = some part := hpart
    obtain ⟨h5, h6⟩ := h4 p hpl hne
    obtain ⟨r, part', v, r1, r2, r3, r4⟩ := addTask_done e tmpl m _ _ ht (hg.part p) h5
    rw [h6, r2] at hpart
    cases hpart
    exact ⟨r, v, r1, r3, r4⟩
  · rw [h] at h'; cases h'

omit [DecidableEq H] in
/-- C56: an addition that fails leaves the view as it was for whoever opens it again, if no
partition held an array of this name.  Missing: the object in memory keeps the variable
(`C56_counterexample_failure`). -/
theorem C56_add_failed_partial (e : Env D V H) (listing : List P)
    (hn : listing.Nodup) (dims : List String) (m : VarMeta V) (st st' : State D P V H)
    (err : PyErr) (hno : NoArray e st.files m.name)
    (h : addVariable e listing dims m st = (st', .error err)) :
    reopened st' = reopened st ∧ (st'.metas = st.metas ∨ st'.metas = st.metas ++ [m]) := by
  rcases addVariable_cases e listing hn dims m st with
    h' | h' | ⟨h1, h'⟩ | ⟨_, tmpl, fs, ht, h2, h3, ⟨h', h4⟩ | ⟨err', h', h4⟩⟩
  · rw [h] at h'; cases h'; exact ⟨rfl, .inl rfl⟩
  · rw [h] at h'; cases h'; exact ⟨rfl, .inr rfl⟩
  · rw [h] at h'; cases h'
  · rw [h] at h'; cases h'
  · rw [h] at h'; cases h'
    refine ⟨?_, .inr rfl⟩
    have : fs = st.files := by
      funext d p
      by_cases hdp : d ≠ e.base ∨ p ∉ listing
      · exact h2 d p hdp
      · simp only [not_or, Classical.not_not] at hdp
        obtain ⟨rfl, hp⟩ := hdp
        exact (h3 p).eq (hno p) (h4 p hp)
    simp [reopened, this]

omit [DecidableEq H] in
/-- C56: when an addition succeeds. -/
theorem C56_add_accepted (e : Env D V H) (listing : List P)
    (hn : listing.Nodup) (dims : List String) (m : VarMeta V) (st : State D P V H)
    (h1 : ∀ t ∈ e.refMeta, t.name ≠ m.name) (h2 : ∀ t ∈ st.metas, t.name ≠ m.name)
    (h3 : ∀ d ∈ m.dims, d ∈ dims) (h4 : ∃ t ∈ e.refMeta, t.dims = m.dims)
    (h5 : ∀ p ∈ listing, ∃ r, st.files e.refDir p = some r ∧
      ∀ t ∈ e.refMeta, t.name ∈ r.vars.map (·.name)) :
    ∃ st', addVariable e listing dims m st = (st', .ok ()) := by
  unfold Vw.addVariable
  rw [if_neg (by
    simp only [List.mem_map, not_or, not_exists, not_and]
    exact ⟨fun t ht => h1 t ht, fun t ht => h2 t ht⟩)]
  rw [if_neg (by
    simp only [not_exists, not_and, Classical.not_not]
    exact h3)]
  have : ∃ n, template e m = .ok n := by
    obtain ⟨tm, htm, hdims⟩ := h4
    unfold template
    split
    · next hf =>
      rw [List.find?_eq_none] at hf
      exact absurd (by simpa using hdims) (hf tm htm)
    · exact ⟨_, rfl⟩
  obtain ⟨tmpl, ht⟩ := this
  simp only [ht]
  split
  · exact ⟨_, rfl⟩
  · obtain ⟨l, hl⟩ := (runTasks_result e (addTask e tmpl m) _
      (nodup_partitions e listing hn (fun _ => true) st.files) st.files).2 (fun p hp => by
        obtain ⟨hp1, hp2⟩ := (mem_parts _ _ _ _).1 hp
        obtain ⟨r, hr, hv⟩ := h5 p hp1
        obtain ⟨tm, htm, _, rfl⟩ := template_spec e m tmpl ht
        obtain ⟨tv, htv⟩ := Option.isSome_iff_exists.1 ((getVar_isSome r.vars tm.name).2 (hv tm htm))
        obtain ⟨part, hpart⟩ := Option.ne_none_iff_exists'.1 hp2
        rw [hr, hpart]
        refine ⟨(), ?_⟩
        simp only [addTask, createArray, htv])
    generalize runTasks e (addTask e tmpl m) st.files
      (partitions e listing (fun _ => true) st.files) = x at hl
    obtain ⟨fs, r⟩ := x
    simp only at hl
    subst hl
    exact ⟨_, rfl⟩

/-! ### Dropping -/

/-- C56, full statement about a removal: if it succeeds the variable is no longer declared nor
stored, and nothing else changes; if it fails nothing changes. -/
def C56_drop_full : Prop :=
  ∀ (D P V H : Type) [DecidableEq D] [DecidableEq P] [DecidableEq H] (e : Env D V H)
    (listing : List P) (name : String) (st : State D P V H),
    e.base ≠ e.refDir → listing.Nodup → Reach e true st → reopened st = st →
    match dropVariable e listing name st with
    | (st', .ok ()) =>
      st'.metas = (st.metas.filter fun m => decide (m.name ≠ name)) ∧ reopened st' = st' ∧
      (∀ d q, d ≠ e.base ∨ q ∉ listing → st'.files d q = st.files d q) ∧
      (∀ p, SameBut name (st.files e.base p) (st'.files e.base p)) ∧
      ∀ p ∈ listing, ∀ part, st'.files e.base p = some part → ∀ v ∈ part.vars, v.name ≠ name
    | (st', .error _) => st' = st

omit [DecidableEq H] in
/-- C56: the removal of a variable of the view.  It takes place even when an exception is
raised, which happens exactly when a partition does not hold the variable. -/
theorem C56_drop_partial (e : Env D V H) (listing : List P) (hn : listing.Nodup) (name : String)
    (st st' : State D P V H) (r : Py Unit) (hv : ∃ m ∈ st.metas, m.name = name)
    (hr : ∀ t ∈ e.refMeta, t.name ≠ name)
    (h : dropVariable e listing name st = (st', r)) :
    st'.metas = (st.metas.filter fun m => decide (m.name ≠ name)) ∧ reopened st' = st' ∧
    (∀ d q, d ≠ e.base ∨ q ∉ listing → st'.files d q = st.files d q) ∧
    (∀ p, SameBut name (st.files e.base p) (st'.files e.base p)) ∧
    (∀ p ∈ listing, ∀ part, st'.files e.base p = some part → ∀ v ∈ part.vars, v.name ≠ name) ∧
    (r = .ok () ↔ ∀ p ∈ listing, ∀ part, st.files e.base p = some part →
      ∃ v ∈ part.vars, v.name = name) := by
  have hh : handled e st.metas name = .ok () := by
    unfold handled
    rw [if_neg, if_neg]
    · obtain ⟨m, hm, rfl⟩ := hv
      exact fun hc => hc (List.mem_map_of_mem hm)
    · rintro hc
      obtain ⟨t, ht, hc⟩ := List.mem_map.1 hc
      exact hr t ht hc
  unfold dropVariable at h
  rw [hh] at h
  simp only at h
  have hnp := nodup_partitions e listing hn (fun _ => true) st.files
  have hf := runTasks_files e (fun _ cur => dropTask name false cur) _ hnp st.files
  obtain ⟨hr1, hr2⟩ := runTasks_result e (fun _ cur => dropTask name false cur) _ hnp st.files
  have key : ∀ part : Part V H, (dropTask name false (some part)).2 = .ok () ↔
      ∃ v ∈ part.vars, v.name = name := by
    intro part
    have : (∃ v ∈ part.vars, v.name = name) ↔ (getVar part.vars name).isSome = true := by
      rw [getVar_isSome, List.mem_map]
    rw [this]
    unfold dropTask
    simp only
    split
    · next h => exact ⟨fun _ => h, fun _ => rfl⟩
    · next h => exact ⟨fun h => (by cases h), fun h' => absurd h' h⟩
  generalize runTasks e (fun _ cur => dropTask name false cur) st.files
      (partitions e listing (fun _ => true) st.files) = x at h hf hr1 hr2
  obtain ⟨fs, rr⟩ := x
  have hst : st' = { files := fs, metas := (st.metas.filter fun m => decide (m.name ≠ name)),
                     saved := (st.metas.filter fun m => decide (m.name ≠ name)) } := by
    cases rr <;> (cases h; rfl)
  have hrr : r = .ok () ↔ ∃ l, rr = .ok l := by
    cases rr with
    | ok l => cases h; exact ⟨fun _ => ⟨l, rfl⟩, fun _ => rfl⟩
    | error err => cases h; exact ⟨fun h => (by cases h), fun ⟨l, h⟩ => (by cases h)⟩
  subst hst
  simp only at hf hr1 hr2
  refine ⟨rfl, rfl, fun d q hdq => ?_, fun p => ?_, fun p hp part hpart => ?_, ?_⟩
  · simp only
    rw [hf, if_neg]
    rintro ⟨rfl, hq⟩
    rcases hdq with h | h
    · exact h rfl
    · exact h ((mem_parts _ _ _ _).1 hq).1
  · simp only
    rw [hf]
    split
    · exact (dropTask_same _ _ _).1
    · exact .refl _ _
  · simp only at hpart
    rw [hf] at hpart
    split at hpart
    · exact (dropTask_same _ _ _).2 _ hpart
    · next hc =>
      exact absurd ⟨rfl, (mem_parts e listing st.files p).2 ⟨hp, by rw [hpart]; simp⟩⟩ hc
  · rw [hrr]
    constructor
    · rintro ⟨l, hl⟩ p hp part hpart
      obtain ⟨hl1, hl2⟩ := hr1 l hl
      have hpm := (mem_parts e listing st.files p).2 ⟨hp, by rw [hpart]; simp⟩
      rw [← hl1] at hpm
      obtain ⟨x, hx, rfl⟩ := List.mem_map.1 hpm
      have := hl2 x.1 x.2 hx
      rw [hpart] at this
      exact (key part).1 this
    · intro hall
      refine hr2 fun p hp => ?_
      obtain ⟨hp1, hp2⟩ := (mem_parts _ _ _ _).1 hp
      obtain ⟨part, hpart⟩ := Option.ne_none_iff_exists'.1 hp2
      rw [hpart]
      exact ⟨(), (key part).2 (hall p hp1 part hpart)⟩

omit [DecidableEq H] in
/-- C56: a name that is not a variable of the view is refused, nothing changes. -/
theorem C56_drop_unknown (e : Env D V H) (listing : List P) (name : String) (st : State D P V H)
    (h : ∀ m ∈ st.metas, m.name ≠ name) :
    dropVariable e listing name st = (st, .error .valueError) := by
  unfold dropVariable handled
  by_cases h1 : name ∈ e.refMeta.map (·.name)
  · rw [if_pos h1]
  · rw [if_neg h1, if_pos]
    intro hc
    obtain ⟨m, hm, hc⟩ := List.mem_map.1 hc
    exact h m hm hc

/-! ### Reopening -/

omit [DecidableEq H] in
/-- What a successful addition does to the metadata. -/
theorem addVariable_metas (e : Env D V H) (listing : List P) (dims : List String)
    (m : VarMeta V) (st : State D P V H) (h : (Vw.addVariable e listing dims m st).2 = .ok ()) :
    (Vw.addVariable e listing dims m st).1.metas = st.metas ++ [m] ∧
    ((∃ p ∈ listing, st.files e.base p ≠ none) →
      (Vw.addVariable e listing dims m st).1.saved = st.metas ++ [m]) := by
  unfold Vw.addVariable at h ⊢
  split
  · next h1 => rw [if_pos h1] at h; cases h
  · next h1 =>
    rw [if_neg h1] at h
    split
    · next h2 => rw [if_pos h2] at h; cases h
    · next h2 =>
      rw [if_neg h2] at h
      simp only at h ⊢
      cases ht : template e m with
      | error err => rw [ht] at h; cases h
      | ok tmpl =>
        rw [ht] at h
        simp only at h ⊢
        split
        · next h3 =>
          refine ⟨rfl, fun ⟨p, hp, hc⟩ => ?_⟩
          have := (mem_parts e listing st.files p).2 ⟨hp, hc⟩
          rw [h3] at this
          cases this
        · next h3 =>
          rw [if_neg h3] at h
          cases hr : runTasks e (addTask e tmpl m) st.files
              (partitions e listing (fun _ => true) st.files) with
          | mk fs r =>
            rw [hr] at h
            cases r with
            | ok l => exact ⟨rfl, fun _ => rfl⟩
            | error err => cases h

omit [DecidableEq H] in
theorem dropVariable_metas (e : Env D V H) (listing : List P) (name : String)
    (st : State D P V H) (h : (Vw.dropVariable e listing name st).2 = .ok ()) :
    (Vw.dropVariable e listing name st).1.metas =
      (st.metas.filter fun m => decide (m.name ≠ name)) ∧
    (Vw.dropVariable e listing name st).1.saved =
      (st.metas.filter fun m => decide (m.name ≠ name)) := by
  unfold Vw.dropVariable at h ⊢
  split
  · next hh => rw [hh] at h; cases h
  · simp only
    split <;> exact ⟨rfl, rfl⟩

omit [DecidableEq D] [DecidableEq P] [DecidableEq H] in
theorem reopened_iff (st : State D P V H) : reopened st = st ↔ st.saved = st.metas := by
  cases st
  simp [reopened]

/-- C56: after operations that all succeed, on a view that has a partition when variables are
added, the view is the same when it is reopened, and declares the variables added and not
dropped since.  Missing: the first variables of a view without partition
(`C56_counterexample_empty`), failed additions (`C56_counterexample_failure`). -/
theorem C56_reopen_partial (e : Env D V H) (ops : List (Op P V)) (st : State D P V H)
    (h0 : reopened st = st) (h : Smooth e st ops) :
    reopened (ops.foldl (afterOp e) st) = ops.foldl (afterOp e) st ∧
    (ops.foldl (afterOp e) st).metas = declared st.metas ops := by
  induction ops generalizing st with
  | nil => exact ⟨h0, rfl⟩
  | cons op t ih =>
    obtain ⟨h1, h2, h3⟩ := h
    rw [reopened_iff] at h0
    rw [List.foldl_cons]
    have hop : (afterOp e st op).saved = (afterOp e st op).metas ∧
        declared (afterOp e st op).metas t = declared st.metas (op :: t) := by
      cases op with
      | sync listing filters =>
        obtain ⟨s1, s2⟩ := sync_metas e listing filters st
        have s1 : (afterOp e st (.sync listing filters)).metas = st.metas := s1
        refine ⟨?_, by rw [s1]; rfl⟩
        rw [s1]
        rcases s2 with s2 | s2
        · exact Eq.trans s2 h0
        · exact s2
      | isSynced listing =>
        obtain ⟨s1, s2⟩ := isSynced_metas e listing st
        have s1 : (afterOp e st (.isSynced listing)).metas = st.metas := s1
        exact ⟨by rw [s1]; exact Eq.trans s2 h0, by rw [s1]; rfl⟩
      | add listing dims m =>
        obtain ⟨s1, s2⟩ := addVariable_metas e listing dims m st h1
        have s1 : (afterOp e st (.add listing dims m)).metas = _ := s1
        exact ⟨by rw [s1]; exact s2 (h2 listing dims m rfl), by rw [s1]; rfl⟩
      | drop listing name =>
        obtain ⟨s1, s2⟩ := dropVariable_metas e listing name st h1
        have s1 : (afterOp e st (.drop listing name)).metas = _ := s1
        exact ⟨by rw [s1]; exact s2, by rw [s1]; rfl⟩
      | update how listing filters sel f =>
        obtain ⟨m1, m2⟩ := update_metas e how listing filters sel f st
        have s1 : (afterOp e st (.update how listing filters sel f)).metas = _ := m1
        exact ⟨by rw [s1]; exact m2.trans h0, by rw [s1]; rfl⟩
      | reopen => exact ⟨rfl, by show declared st.saved t = declared st.metas t; rw [h0]⟩
    obtain ⟨i1, i2⟩ := ih _ ((reopened_iff _).2 hop.1) h3
    exact ⟨i1, i2.trans hop.2⟩

/-! ### The variables of the partitions -/

omit [DecidableEq D] [DecidableEq P] [DecidableEq H] in
theorem createAll_declaration (e : Env D V H) (group : List (Var V)) (metas : List (VarMeta V))
    (part part' : Part V H) (h : createAll e group metas part = .ok part')
    (hn : (part.vars.map (·.name) ++ metas.map (·.name)).Nodup) :
    part'.vars.map declaration = part.vars.map declaration ++ metas := by
  induction metas generalizing part with
  | nil =>
    simp only [createAll] at h
    cases h
    simp
  | cons m t ih =>
    simp only [createAll, bind, Except.bind] at h
    split at h
    · cases h
    · split at h
      · cases h
      · next part1 h1 =>
        obtain ⟨_, v, _, hv, _, v1, v2, v3, v4, _⟩ := createArray_spec _ _ _ _ _ _ h1
        have hnew : v.name ∉ part.vars.map (·.name) := by
          rw [v1]
          intro hc
          exact (List.nodup_append.1 hn).2.2 _ hc m.name (by simp) rfl
        rw [setVar_new _ _ hnew] at hv
        have hd : declaration v = m := by
          cases m
          simp only at v1 v2 v3 v4
          simp [declaration, v1, v2, v3, v4]
        rw [ih part1 h (by
          rw [hv, List.map_append, List.append_assoc]
          simpa [v1] using hn), hv, List.map_append, List.append_assoc]
        simp [hd]

omit [DecidableEq D] [DecidableEq P] [DecidableEq H] in
theorem syncPartition_declaration (e : Env D V H) (metas : List (VarMeta V))
    (hn : (metas.map (·.name)).Nodup) (ref : Option (Part V H)) (part : Part V H) (r : Py Unit)
    (h : syncPartition e metas ref = (some part, r)) : part.vars.map declaration = metas := by
  unfold syncPartition at h
  split at h
  · cases h
  · split at h
    · cases h
    · next part' hc =>
      cases h
      simp only [bind, Except.bind] at hc
      split at hc
      · cases hc
      · next h1 =>
        split at hc
        · cases hc
        · rw [writeCheck_vars hc, createAll_declaration _ _ _ _ _ h1 (by simpa using hn)]
          rfl

omit [DecidableEq D] [DecidableEq P] [DecidableEq H] in
theorem extendVar_declaration {e : Env D V H} {a : AxisRef V H} {v v' : Var V}
    (h : extendVar e a v = .ok v') : declaration v' = declaration v := by
  unfold extendVar at h
  split at h
  · cases h; rfl
  · split at h
    · cases h; rfl
    · cases h

omit [DecidableEq D] [DecidableEq P] [DecidableEq H] in
theorem extendAll_declaration {e : Env D V H} {a : AxisRef V H} (vars vars' : List (Var V))
    (h : mapPy (extendVar e a) vars = .ok vars') :
    vars'.map declaration = vars.map declaration := by
  induction vars generalizing vars' with
  | nil => simp only [mapPy] at h; cases h; rfl
  | cons v t ih =>
    simp only [mapPy, bind, Except.bind] at h
    split at h
    · cases h
    · next w hw =>
      split at h
      · cases h
      · next u hu =>
        cases h
        simp only [List.map_cons, extendVar_declaration hw, ih u hu]

omit [DecidableEq D] [DecidableEq P] in
theorem syncOne_declaration (e : Env D V H) (metas : List (VarMeta V)) (dry : Bool)
    (hn : (metas.map (·.name)).Nodup) (ref cur : Option (Part V H))
    (hcur : ∀ part, cur = some part → part.vars.map declaration = metas) (part : Part V H)
    (h : (syncOne e dry metas ref cur).1 = some part) : part.vars.map declaration = metas := by
  have hsp : ∀ part, (match syncPartition e metas ref with
      | (c, .ok ()) => (c, (.ok true : Py Bool))
      | (c, .error err) => (c, .error err)).1 = some part → part.vars.map declaration = metas := by
    intro part h
    cases hs : syncPartition e metas ref with
    | mk c r =>
      rw [hs] at h
      have : c = some part := by
        cases r <;> exact h
      rw [this] at hs
      exact syncPartition_declaration e metas hn ref part r hs
  unfold syncOne at h
  split at h
  · split at h
    · cases h
    · exact hsp part h
  · next old =>
    split at h
    · exact hcur part h
    · split at h
      · exact hcur part h
      · next a _ =>
        split at h
        · split at h
          · split at h
            · exact hcur part h
            · have : (extendPartition e old a).1 = some part := by
                revert h
                split <;> (next hs => intro h; rw [hs]; exact h)
              unfold extendPartition at this
              split at this
              · cases this
              · next part' hc =>
                cases this
                simp only [bind, Except.bind] at hc
                split at hc
                · cases hc
                · next vars' hv =>
                  rw [writeCheck_vars hc]
                  exact (extendAll_declaration _ _ hv).trans (hcur old rfl)
          · split at h
            · exact hcur part h
            · exact hsp part h
        · exact hcur part h

omit [DecidableEq D] [DecidableEq P] [DecidableEq H] in
theorem sameVars_declaration {names : List String} {a b : List (Var V)}
    (h : SameVars names a b) : b.map declaration = a.map declaration := by
  induction a generalizing b with
  | nil => cases b with
    | nil => rfl
    | cons _ _ => exact h.elim
  | cons x t ih =>
    cases b with
    | nil => exact h.elim
    | cons y u =>
      obtain ⟨⟨h1, _, h3, h4, h5, _, _⟩, h⟩ := h
      simp only [List.map_cons, ih h, declaration, h1, h3, h4, h5]

/-- C56: after operations that all succeed, on a view whose partitions are those of one
listing of the reference, each partition of the view holds exactly the variables the user
declared, in order.  Missing: failed operations, and partitions added by `sync` with filters
(`C38_counterexample_selected`). -/
theorem C56_variables_partial (e : Env D V H) (listing : List P) (hl : listing.Nodup)
    (ops : List (Op P V)) (st : State D P V H) (h0 : reopened st = st)
    (hn : (st.metas.map (·.name)).Nodup) (hh : HoldsDeclared e listing st) (h : Smooth e st ops)
    (hu : ∀ op ∈ ops, Uses listing op) : HoldsDeclared e listing (ops.foldl (afterOp e) st) := by
  induction ops generalizing st with
  | nil => exact hh
  | cons op t ih =>
    have hre := (C56_reopen_partial e [op] st h0 ⟨h.1, h.2.1, trivial⟩)
    simp only [List.foldl_cons, List.foldl_nil] at hre
    obtain ⟨h1, h2, h3⟩ := h
    rw [List.foldl_cons]
    have hop := hu op (List.mem_cons_self ..)
    have key : ((afterOp e st op).metas.map (·.name)).Nodup ∧
        HoldsDeclared e listing (afterOp e st op) := by
      cases op with
      | sync l filters =>
        obtain ⟨rfl, rfl⟩ := hop
        have hm : (afterOp e st (.sync l none)).metas = st.metas := hre.2
        refine ⟨by rw [hm]; exact hn, fun p hp part hpart => ?_⟩
        rw [hm]
        have hf := runTasks_files e (syncOne e false st.metas) l hl st.files e.base p
        rw [if_pos ⟨rfl, hp⟩] at hf
        have hfs : (afterOp e st (.sync l none)).files =
            (runTasks e (syncOne e false st.metas) st.files l).1 := by
          show (Vw.sync e l none st).1.files = _
          unfold Vw.sync
          simp only
          rw [if_neg (by rintro rfl; cases hp)]
          split <;> (next hr => rw [hr])
        rw [hfs, hf] at hpart
        exact syncOne_declaration e st.metas false hn _ _ (hh p hp) part hpart
      | isSynced l =>
        obtain rfl := hop
        have hm : (afterOp e st (.isSynced l)).metas = st.metas := hre.2
        refine ⟨by rw [hm]; exact hn, fun p hp part hpart => ?_⟩
        rw [hm]
        have hf := runTasks_files e (syncOne e true st.metas) l hl st.files e.base p
        rw [if_pos ⟨rfl, hp⟩] at hf
        have hfs : (afterOp e st (.isSynced l)).files =
            (runTasks e (syncOne e true st.metas) st.files l).1 := by
          show (Vw.isSynced e l st).1.files = _
          unfold Vw.isSynced
          rw [if_neg (by rintro rfl; cases hp)]
          split <;> (next hr => rw [hr])
        rw [hfs, hf] at hpart
        exact syncOne_declaration e st.metas true hn _ _ (hh p hp) part hpart
      | add l dims m =>
        obtain rfl := hop
        have h1 : (Vw.addVariable e l dims m st).2 = .ok () := h1
        rcases addVariable_cases e l hl dims m st with
          h' | h' | ⟨ha, h'⟩ | ⟨hnew, tmpl, fs, ht, _, hsame, ⟨h', h4⟩ | ⟨err, h', _⟩⟩
        · rw [h'] at h1; cases h1
        · rw [h'] at h1; cases h1
        · obtain ⟨p, hp1, hp2⟩ := h2 l dims m rfl
          exact absurd (ha p hp1) hp2
        · have ha : afterOp e st (.add l dims m) = _ := congrArg Prod.fst h'
          rw [ha]
          constructor
          · simp only [List.map_append, List.map_cons, List.map_nil]
            rw [List.nodup_append]
            refine ⟨hn, by simp, fun a ha b hb => ?_⟩
            rintro rfl
            rw [List.mem_singleton.1 hb] at ha
            exact hnew ha
          · intro p hp part hpart
            have hpart : fs e.base p = some part := hpart
            show part.vars.map declaration = st.metas ++ [m]
            cases hcur : st.files e.base p with
            | none =>
              have := (hsame p).isNone.1 hcur
              rw [hpart] at this
              cases this
            | some old =>
              obtain ⟨h5, h6⟩ := h4 p hp (by rw [hcur]; simp)
              rw [h6, hcur] at hpart
              rw [hcur] at h5
              cases hr : st.files e.refDir p with
              | none => rw [hr] at h5; cases h5
              | some r =>
                rw [hr] at h5 hpart
                simp only [addTask] at hpart h5
                cases hc : createArray e r.vars tmpl m old with
                | error err => rw [hc] at h5; cases h5
                | ok part' =>
                  rw [hc] at hpart
                  cases hpart
                  obtain ⟨_, v, _, hv, _, v1, v2, v3, v4, _⟩ := createArray_spec _ _ _ _ _ _ hc
                  have hd : declaration v = m := by
                    cases m
                    simp only at v1 v2 v3 v4
                    simp [declaration, v1, v2, v3, v4]
                  have hold := hh p hp old hcur
                  rw [hv, setVar_new _ _ (by
                    rw [v1]
                    rw [← hold] at hnew
                    simpa [declaration, List.map_map, Function.comp_def] using hnew),
                    List.map_append, hold]
                  simp [hd]
        · rw [h'] at h1; cases h1
      | drop l name =>
        obtain rfl := hop
        have h1 : (Vw.dropVariable e l name st).2 = .ok () := h1
        obtain ⟨hm, _⟩ := dropVariable_metas e l name st h1
        have hm : (afterOp e st (.drop l name)).metas = _ := hm
        constructor
        · rw [hm]
          exact List.Nodup.sublist (List.Sublist.map _ List.filter_sublist) hn
        · intro p hp part hpart
          have hpart : (Vw.dropVariable e l name st).1.files e.base p = some part := hpart
          rw [hm]
          have hin : (∃ m ∈ st.metas, m.name = name) ∧ ∀ t ∈ e.refMeta, t.name ≠ name := by
            unfold Vw.dropVariable at h1
            split at h1
            · cases h1
            · next hc =>
              unfold handled at hc
              split at hc
              · cases hc
              · next hc1 =>
                split at hc
                · cases hc
                · next hc2 =>
                  rw [Classical.not_not, List.mem_map] at hc2
                  exact ⟨hc2, fun t ht htn => hc1 (htn ▸ List.mem_map_of_mem ht)⟩
          cases hdv : Vw.dropVariable e l name st with | mk st' r =>
          rw [hdv] at hpart
          obtain ⟨_, _, _, hs, hno, _⟩ := C56_drop_partial e l hl name st _ _ hin.1 hin.2 hdv
          have hsp := hs p
          have hnop := hno p hp part hpart
          rw [hpart] at hsp
          cases hcur : st.files e.base p with
          | none =>
            rw [hcur] at hsp
            cases hsp
          | some old =>
            rw [hcur] at hsp
            cases hsp with
            | present _ _ _ hv =>
              rw [List.filter_eq_self.2 (fun v hv => by simpa using hnop v hv)] at hv
              rw [hv, ← hh p hp old hcur, List.filter_map]
              rfl
      | update how l filters sel f =>
        obtain rfl := hop
        obtain ⟨m1, _⟩ := update_metas e how l filters sel f st
        have hm : (afterOp e st (.update how l filters sel f)).metas = _ := m1
        refine ⟨by rw [hm]; exact hn, fun p hp part hpart => ?_⟩
        rw [hm]
        have hk : Kept e f (partitions e l filters st.files) fun fs =>
            ∀ part, fs e.base p = some part → part.vars.map declaration = st.metas := by
          refine ⟨fun fs q n a fs' hq _ _ hw part' hpart' => ?_⟩
          obtain ⟨old, vars, w1, w2, rfl⟩ := writeOne_spec hw
          unfold put at hpart'
          split at hpart'
          · next heq =>
            obtain ⟨_, rfl⟩ := heq
            cases hpart'
            exact (sameVars_declaration (writeVar_spec w2).1).trans (hq old w1)
          · exact hq part' hpart'
        exact hk.update (how := how) (sel := sel) (hh p hp) part hpart
      | reopen =>
        rw [reopened_iff] at h0
        exact ⟨by show (st.saved.map _).Nodup; rw [h0]; exact hn, fun p hp part hpart => by
          show part.vars.map declaration = st.saved
          rw [h0]
          exact hh p hp part hpart⟩
    exact ih _ hre.1 key.1 key.2 h3 fun o ho => hu o (List.mem_cons_of_mem _ ho)

/-! ### Counterexamples -/

/-- A variable added to a view without partition is accepted, but the metadata are not
written. -/
theorem C56_counterexample_empty : ¬ C56_add_full := by
  intro h
  have := h Bool Unit Nat (List Nat) (smallEnv (· == ·)) [()] ["time"] xMeta emptyView
    (by decide) (by simp) emptyView_reach rfl
  have hr := congrArg State.metas this.2.1
  cases hr

/-- The addition of a variable that no variable of the reference can be a template for fails,
but the variable stays in the metadata of the view. -/
theorem C56_counterexample_failure : ¬ C56_add_full := by
  intro h
  have := h Bool Unit Nat (List Nat) (smallEnv (· == ·)) [()] ["time"] ⟨"s", [], none, 0⟩
    emptyView (by decide) (by simp) emptyView_reach rfl
  have hr := congrArg State.metas this
  cases hr

/-- After such a failure the data of the view, which could be loaded, cannot be, and the
variable cannot be added again with dimensions that would be accepted. -/
theorem C56_failure_stays :
    let e := smallEnv (· == ·)
    let st := (addVariable e [()] ["time"] ⟨"s", [], none, 0⟩ (oneView [1, 2])).1
    (∃ zds, load e (fun _ _ => true) [()] false (fun _ => true) none none (oneView [1, 2]) =
      .ok (some zds)) ∧
    (addVariable e [()] ["time"] ⟨"s", [], none, 0⟩ (oneView [1, 2])).2 = .error .valueError ∧
    load e (fun _ _ => true) [()] false (fun _ => true) none none st = .error .keyError ∧
    (addVariable e [()] ["time"] ⟨"s", ["time"], none, 0⟩ st).2 = .error .valueError :=
  ⟨⟨_, rfl⟩, rfl, rfl, rfl⟩

/-- A partition of the view was added by `sync` with filters: it has no variable, and dropping
a variable raises although the variable is dropped. -/
theorem C56_drop_counterexample : ¬ C56_drop_full := by
  intro h
  let e := smallEnv (· == ·)
  have hr : Reach e true (addVariable e [()] ["time"] xMeta emptyView).1 :=
    .add _ [()] _ _ emptyView_reach (by simp) (fun _ p _ hp => absurd rfl hp)
  have := h Bool Unit Nat (List Nat) e [()] "x"
    (sync e [()] (some fun _ => true) (addVariable e [()] ["time"] xMeta emptyView).1).1
    (by decide) (by simp) (.sync _ _ _ hr (by simp)) rfl
  have hm := congrArg State.metas this
  cases hm

/-! ### The hypotheses can be met -/

/-- A second variable for the view `oneView`. -/
def yMeta : VarMeta Nat := ⟨"y", ["time"], none, 1⟩

/-- The hypotheses of `C56_add_partial` and `C56_add_accepted` are met. -/
example : GoodRef (smallEnv (· == ·)) (oneView [1, 2]).files ∧
    (∃ p ∈ [()], (oneView [1, 2]).files true p ≠ none) ∧
    (∃ st', addVariable (smallEnv (· == ·)) [()] ["time"] yMeta (oneView [1, 2]) = (st', .ok ()) ∧
      st'.metas = [xMeta, yMeta]) ∧
    (∀ t ∈ (smallEnv (· == ·)).refMeta, t.name ≠ yMeta.name) ∧
    (∀ t ∈ (oneView [1, 2]).metas, t.name ≠ yMeta.name) ∧
    (∀ d ∈ yMeta.dims, d ∈ ["time"]) ∧
    (∃ t ∈ (smallEnv (· == ·)).refMeta, t.dims = yMeta.dims) ∧
    ∀ p ∈ [()], ∃ r, (oneView [1, 2]).files false p = some r ∧
      ∀ t ∈ (smallEnv (· == ·)).refMeta, t.name ∈ r.vars.map (·.name) := by
  have hf : (oneView [1, 2]).files = oneFile ((oneView [1, 2]).files true ())
      (some (onlyTime [1, 2])) := by
    funext d p
    cases d <;> rfl
  refine ⟨by rw [hf]; exact onlyTime_good _ _ _, ⟨(), by simp, fun h => by cases h⟩,
    ⟨_, rfl, rfl⟩, ?_, ?_, by decide, ⟨timeMeta, List.mem_singleton.2 rfl, rfl⟩, ?_⟩
  · intro t ht
    rw [List.mem_singleton.1 ht]
    decide
  · intro t ht
    rw [List.mem_singleton.1 (ht : t ∈ [xMeta])]
    decide
  · intro p _
    exact ⟨_, rfl, by decide⟩

/-- The hypotheses of `C56_drop_partial` are met, in the case where the removal succeeds. -/
example : (∃ m ∈ (oneView [1, 2]).metas, m.name = "x") ∧
    (∀ t ∈ (smallEnv (· == ·)).refMeta, t.name ≠ "x") ∧
    ∃ st', dropVariable (smallEnv (· == ·)) [()] "x" (oneView [1, 2]) = (st', .ok ()) :=
  ⟨⟨xMeta, List.mem_singleton.2 rfl, rfl⟩, fun t ht => by
    rw [List.mem_singleton.1 ht]
    decide, _, rfl⟩

/-- The hypotheses of `C56_add_failed_partial` are met. -/
example : NoArray (smallEnv (· == ·)) (oneView [1, 2]).files "s" ∧
    ∃ st', addVariable (smallEnv (· == ·)) [()] ["time"] ⟨"s", [], none, 0⟩ (oneView [1, 2]) =
      (st', .error .valueError) := by
  refine ⟨fun p part hp v hv => ?_, _, rfl⟩
  cases hp
  rw [List.mem_singleton.1 hv]
  decide

/-- The hypotheses of `C56_reopen_partial` and `C56_variables_partial` are met: a history with
all the operations. -/
example :
    let ops : List (Op Unit Nat) := [.add [()] ["time"] yMeta, .isSynced [()],
      .update ⟨true, false, 0, true, 2⟩ [()] (fun _ => true) none
        (fun _ _ => .ok [("y", vec [7, 8])]), .reopen, .drop [()] "x", .sync [()] none]
    Smooth (smallEnv (· == ·)) (oneView [1, 2]) ops ∧ (∀ op ∈ ops, Uses [()] op) ∧
    reopened (oneView [1, 2]) = oneView [1, 2] ∧
    HoldsDeclared (smallEnv (· == ·)) [()] (oneView [1, 2]) ∧
    ((oneView [1, 2]).metas.map (·.name)).Nodup ∧ declared [xMeta] ops = [yMeta] := by
  refine ⟨⟨rfl, fun _ _ _ _ => ?_, ⟨_, rfl⟩, nofun, rfl, nofun, trivial, nofun, rfl, nofun,
    ⟨_, rfl⟩, nofun, trivial⟩, ?_, rfl, ?_, by decide, rfl⟩
  · rename_i h
    cases h
    exact ⟨(), by simp, fun h => by cases h⟩
  · intro op hop
    simp only [List.mem_cons, List.not_mem_nil, or_false] at hop
    rcases hop with rfl | rfl | rfl | rfl | rfl | rfl <;> trivial
  · intro p _ part hpart
    cases hpart
    rfl

end Verif
