import Verif.Lemmas.ViewSync
import Verif.Lemmas.ViewUpdate
import Verif.Lemmas.ViewArrays

/-! The invariants of views. -/

namespace Verif.Vw

open Nd Ds Upd Spec

variable {D P V H : Type} [DecidableEq D] [DecidableEq P] [DecidableEq H]

/-- What holds for a partition of the view, given the partition of the reference. -/
def Inv (e : Env D V H) (cur : Option (Part V H)) : Prop :=
  ∀ part, cur = some part → Sound e part ∧ ∀ c, part.check = some c → c.dim = e.dim

omit [DecidableEq D] [DecidableEq P] [DecidableEq H] in
theorem inv_none (e : Env D V H) : Inv e none := fun _ h => by cases h

omit [DecidableEq D] [DecidableEq P] [DecidableEq H] in
theorem syncPartition_inv (e : Env D V H) (metas : List (VarMeta V))
    (hn : (metas.map (·.name)).Nodup) (ref : Option (Part V H))
    (hr : ∀ g, ref = some g → SoundRef e g) (hdim : ∀ l d, HasAxis e ref l d → d = e.dim) :
    Inv e (syncPartition e metas ref).1 := by
  cases h : syncPartition e metas ref with
  | mk c r =>
    obtain ⟨h1, h2⟩ := syncPartition_spec e metas hn ref c r h
    cases r with
    | error err => rw [h2 err rfl]; exact inv_none e
    | ok u =>
      obtain ⟨g, part, l, dim, a1, a2, a3, a4, a5, a6, a7⟩ := h1 rfl
      subst a1 a2
      intro p hp
      cases hp
      refine ⟨⟨fun c hc => ?_, fun c hc v hv ax hax => ?_, a5, fun v hv => ?_⟩, fun c hc => ?_⟩
      · rw [a4] at hc; cases hc; rfl
      · rw [a4] at hc; cases hc
        obtain ⟨m, hm, hcr⟩ := created_vars a5 a6 a7 v hv
        exact created_long (hr g rfl) a3 hcr ax hax
      · obtain ⟨m, hm, _, _, _, _, _, _, _, t, _, ha⟩ := created_vars a5 a6 a7 v hv
        rw [ha]; exact tabulate_arrOk _ _
      · rw [a4] at hc; cases hc
        exact hdim l dim a3

omit [DecidableEq D] [DecidableEq P] in
/-- The invariant is kept by `_sync`, whatever its outcome. -/
theorem syncOne_inv (e : Env D V H) (metas : List (VarMeta V))
    (hn : (metas.map (·.name)).Nodup) (ref cur : Option (Part V H))
    (hr : ∀ g, ref = some g → SoundRef e g) (hdim : ∀ l d, HasAxis e ref l d → d = e.dim)
    (hi : Inv e cur) : Inv e (syncOne e false metas ref cur).1 := by
  have hsp := syncPartition_inv e metas hn ref hr hdim
  unfold syncOne
  split
  · simp only [Bool.false_eq_true, if_false]
    split
    · next c hc => rw [hc] at hsp; exact hsp
    · next c err hc => rw [hc] at hsp; exact hsp
  · next part =>
    split
    · exact hi
    · next c hc =>
      split
      · exact hi
      · next a ha =>
        split
        · split
          · next hst =>
            simp only [Bool.false_eq_true, if_false]
            obtain ⟨hs, hd⟩ := hi part rfl
            obtain ⟨a1, a2⟩ := axisRef_spec e ref a ha
            have hcd : c.dim = a.dim := (hd c hc).trans (hdim _ _ a1).symm
            cases hx : extendPartition e part a with
            | mk c' r =>
              obtain ⟨x1, x2⟩ := extendPartition_spec e part c a c' r hc hcd hx
              cases r with
              | error err => rw [x2 err rfl]; exact inv_none e
              | ok u =>
                obtain ⟨part', rfl, y1, y2⟩ := x1 rfl
                obtain ⟨l, dim, s⟩ := a
                have a2 : s = e.hash l := a2
                subst a2
                intro p hp
                cases hp
                refine ⟨extended_sound hs hc hcd hst y1 y2, fun c' hc' => ?_⟩
                rw [y1] at hc'; cases hc'
                exact hdim _ _ a1
          · simp only [Bool.false_eq_true, if_false]
            split
            · next c hc => rw [hc] at hsp; exact hsp
            · next c err hc => rw [hc] at hsp; exact hsp
        · exact hi

omit [DecidableEq D] [DecidableEq P] [DecidableEq H] in
theorem writeChecksum_inv (e : Env D V H) (ref cur : Option (Part V H))
    (hdim : ∀ l d, HasAxis e ref l d → d = e.dim) (hi : Inv e cur) :
    Inv e (writeChecksum e ref cur).1 := by
  unfold writeChecksum
  split
  · exact hi
  · next a ha =>
    obtain ⟨a1, a2⟩ := axisRef_spec e ref a ha
    intro p hp
    cases hp
    refine ⟨⟨fun c hc => ?_, fun c hc v hv => ?_, ?_, fun v hv => ?_⟩, fun c hc => ?_⟩
    · cases hc; exact a2
    · simp at hv
    · simp
    · simp at hv
    · cases hc; exact hdim _ _ a1

omit [DecidableEq D] [DecidableEq P] [DecidableEq H] in
theorem dropTask_inv (e : Env D V H) (name : String) (ig : Bool) (cur : Option (Part V H))
    (hi : Inv e cur) : Inv e (dropTask name ig cur).1 := by
  unfold dropTask
  split
  · exact inv_none e
  · next part =>
    split
    · obtain ⟨hs, hd⟩ := hi part rfl
      intro p hp
      cases hp
      refine ⟨⟨hs.sum, fun c hc v hv => ?_, ?_, fun v hv => ?_⟩, hd⟩
      · exact hs.long c hc v (List.mem_filter.mp hv).1
      · exact List.Nodup.sublist (List.filter_sublist.map _) hs.names
      · exact hs.arrays v (List.mem_filter.mp hv).1
    · exact hi

omit [DecidableEq D] [DecidableEq P] [DecidableEq H] in
theorem addTask_inv (e : Env D V H) (m : VarMeta V) (tmpl : String) (ref cur : Option (Part V H))
    (ht : template e m = .ok tmpl)
    (hr : ∀ g, ref = some g → SoundRef e g) (hstep : cur ≠ none → InStep e ref cur)
    (hdim : ∀ l d, HasAxis e ref l d → d = e.dim)
    (hi : Inv e cur) : Inv e (addTask e tmpl m ref cur).1 := by
  unfold addTask
  split
  · next r part =>
    split
    · exact hi
    · next part' hp =>
      obtain ⟨hs, hd⟩ := hi part rfl
      obtain ⟨c1, v, t, c2, c3, c4, c5, c6, c7, c8⟩ := createArray_spec e _ _ _ _ _ hp
      obtain ⟨tm, htm, hdims, rfl⟩ := template_spec e m tmpl ht
      obtain ⟨part0, c0, l, dim, h1, h2, h3, h4, h5, h6⟩ := hstep (by simp)
      cases h1
      intro p hp
      cases hp
      refine ⟨⟨fun c hc => ?_, fun c hc w hw ax hax => ?_, ?_, fun w hw => ?_⟩, fun c hc => ?_⟩
      · exact hs.sum c (c1 ▸ hc)
      · rw [c1, h2] at hc
        cases hc
        rw [c2] at hw
        have hdd : c0.dim = dim := (hd c0 h2).trans (hdim l dim h3).symm
        rcases mem_setVar _ _ _ hw with rfl | hw
        · rw [h4]
          exact created_long (hr r rfl) h3 ⟨c4, c5, c6, c7, tm, htm, hdims, t, c3, c8⟩ ax
            (hdd ▸ hax)
        · exact hs.long c0 h2 w hw ax hax
      · rw [c2]; exact setVar_nodup _ _ hs.names
      · rw [c2] at hw
        rcases mem_setVar _ _ _ hw with rfl | hw
        · rw [c8]; exact tabulate_arrOk _ _
        · exact hs.arrays w hw
      · exact hd c (c1 ▸ hc)
  · exact hi

omit [DecidableEq D] [DecidableEq P] [DecidableEq H] in
theorem writeVar_inv (e : Env D V H) (n : String) (a : Arr V) (ha : ArrOk a)
    (part : Part V H) (vars : List (Var V)) (hv : writeVar part.vars n a = .ok vars)
    (hi : Inv e (some part)) : Inv e (some { part with vars }) := by
  obtain ⟨hs, hd⟩ := hi part rfl
  intro p hp
  cases hp
  unfold writeVar at hv
  split at hv
  · cases hv
  · next v hgv =>
    split at hv
    · cases hv
    · next hsh =>
      have hsh : a.shape = v.array.shape := Decidable.not_not.mp hsh
      cases hv
      have hvm := (getVar_some _ _ _ hgv).1
      refine ⟨⟨hs.sum, fun c hc w hw ax hax => ?_, setVar_nodup _ _ hs.names,
        fun w hw => ?_⟩, hd⟩
      · rcases mem_setVar _ _ _ hw with rfl | hw
        · show a.shape[ax]? = _
          rw [hsh]; exact hs.long c hc v hvm ax hax
        · exact hs.long c hc w hw ax hax
      · rcases mem_setVar _ _ _ hw with rfl | hw
        · exact ha
        · exact hs.arrays w hw

/-- The invariants of the whole view. -/
structure GoodState (e : Env D V H) (st : State D P V H) : Prop where
  inv : ∀ p, Inv e (st.files e.base p)
  ref : GoodRef e st.files
  metas : (st.metas.map (·.name)).Nodup
  fresh : ∀ m ∈ st.metas, m.name ∉ e.refMeta.map (·.name)
  saved : (st.saved.map (·.name)).Nodup
  savedFresh : ∀ m ∈ st.saved, m.name ∉ e.refMeta.map (·.name)

omit [DecidableEq D] [DecidableEq P] [DecidableEq H] in
theorem GoodState.sound {e : Env D V H} {st : State D P V H} (h : GoodState e st) :
    SoundView e st.files :=
  ⟨fun p part hp => (h.inv p part hp).1, h.ref.part,
   fun p part c hp hc => (h.inv p part hp).2 c hc, h.ref.dim⟩

omit [DecidableEq D] [DecidableEq P] [DecidableEq H] in
theorem goodRef_of_eq {e : Env D V H} {fs fs' : Files D P V H} (h : GoodRef e fs)
    (heq : ∀ p, fs' e.refDir p = fs e.refDir p) : GoodRef e fs' :=
  ⟨fun p r hr => h.part p r (heq p ▸ hr), fun p l d ha => h.dim p l d (heq p ▸ ha)⟩

omit [DecidableEq H] in
/-- A transaction keeps what each task keeps. -/
theorem runTasks_inv {α : Type} (e : Env D V H) (hd : e.base ≠ e.refDir)
    (f : Option (Part V H) → Option (Part V H) → Option (Part V H) × Py α)
    (ps : List P) (hn : ps.Nodup) (fs : Files D P V H)
    (hf : ∀ p ∈ ps, Inv e (f (fs e.refDir p) (fs e.base p)).1) (hi : ∀ p, Inv e (fs e.base p)) :
    (∀ p, Inv e ((runTasks e f fs ps).1 e.base p)) ∧
    (∀ p, (runTasks e f fs ps).1 e.refDir p = fs e.refDir p) := by
  refine ⟨fun p => ?_, fun p => ?_⟩
  · rw [runTasks_files e f ps hn]
    split
    · next h => exact hf p h.2
    · exact hi p
  · rw [runTasks_files e f ps hn, if_neg (fun h => hd h.1.symm)]

omit [DecidableEq H] in
theorem initPartitions_good (e : Env D V H) (hd : e.base ≠ e.refDir) (listing : List P)
    (hn : listing.Nodup) (filters : P → Bool) (fs : Files D P V H) (hr : GoodRef e fs)
    (hi : ∀ p, Inv e (fs e.base p)) :
    (∀ p, Inv e ((initPartitions e listing filters fs).1 e.base p)) ∧
    (∀ p, (initPartitions e listing filters fs).1 e.refDir p = fs e.refDir p) := by
  have hnd : ((listing.filter filters).filter fun p => (fs e.base p).isNone).Nodup :=
    List.Nodup.sublist (List.filter_sublist.trans List.filter_sublist) hn
  have := runTasks_inv e hd (writeChecksum e) _ hnd fs
    (fun p _ => writeChecksum_inv e _ _ (hr.dim p) (hi p)) hi
  unfold initPartitions
  split <;> (next h => rw [h] at this; exact this)

theorem sync_good (e : Env D V H) (hd : e.base ≠ e.refDir) (listing : List P)
    (hn : listing.Nodup) (filters : Option (P → Bool)) (st : State D P V H)
    (h : GoodState e st) : GoodState e (sync e listing filters st).1 := by
  have key : ∀ st1 : State D P V H, GoodState e st1 → GoodState e
      (if listing = [] then (st1, Except.error PyErr.typeError)
       else
        match runTasks e (syncOne e false st1.metas) st1.files listing with
        | (fs, .error err) => ({ st1 with files := fs }, .error err)
        | (fs, .ok l) => ({ st1 with files := fs },
            .ok ((l.filter (·.2)).map (·.1))) : State D P V H × Py (List P)).1 := by
    intro st1 h1
    split
    · exact h1
    · have := runTasks_inv e hd (syncOne e false st1.metas) listing hn st1.files
        (fun p _ => syncOne_inv e st1.metas h1.metas _ _ (h1.ref.part p) (h1.ref.dim p) (h1.inv p))
        h1.inv
      split <;>
        (next hr => rw [hr] at this; exact ⟨this.1, goodRef_of_eq h1.ref this.2, h1.metas, h1.fresh, h1.saved, h1.savedFresh⟩)
  cases filters with
  | none => exact key st h
  | some f =>
    have hi := initPartitions_good e hd listing hn f st.files h.ref h.inv
    have hg : GoodState e { files := (initPartitions e listing f st.files).1, metas := st.metas,
                            saved := st.metas } :=
      ⟨hi.1, goodRef_of_eq h.ref hi.2, h.metas, h.fresh, h.metas, h.fresh⟩
    simp only [sync]
    cases hx : initPartitions e listing f st.files with
    | mk fs r =>
      rw [hx] at hg
      cases r with
      | error err => exact hg
      | ok u => exact key _ hg

omit [DecidableEq D] [DecidableEq P] [DecidableEq H] in
theorem nodup_partitions (e : Env D V H) (listing : List P) (hn : listing.Nodup)
    (filters : P → Bool) (fs : Files D P V H) : (partitions e listing filters fs).Nodup :=
  List.Nodup.sublist (List.filter_sublist.trans List.filter_sublist) hn

omit [DecidableEq H] in
theorem addVariable_good (e : Env D V H) (hd : e.base ≠ e.refDir) (listing : List P)
    (hn : listing.Nodup) (dims : List String) (m : VarMeta V) (st : State D P V H)
    (hstep : AllInStep e listing st.files) (h : GoodState e st) :
    GoodState e (addVariable e listing dims m st).1 := by
  unfold addVariable
  split
  · exact h
  · next hnew =>
    simp only [not_or] at hnew
    split
    · exact h
    · have hm : GoodState e { st with metas := st.metas ++ [m] } := by
        refine ⟨h.inv, h.ref, ?_, ?_, h.saved, h.savedFresh⟩
        · show ((st.metas ++ [m]).map (·.name)).Nodup
          rw [List.map_append, List.nodup_append]
          refine ⟨h.metas, by simp, ?_⟩
          intro a ha b hb hab
          simp only [List.map_cons, List.map_nil, List.mem_singleton] at hb
          subst hb
          exact hnew.2 (hab ▸ ha)
        · intro m' hm'
          rcases List.mem_append.mp hm' with hm' | hm'
          · exact h.fresh m' hm'
          · rw [List.mem_singleton.mp hm']; exact hnew.1
      simp only
      split
      · exact hm
      · next tmpl ht =>
        split
        · exact hm
        · have hnp := nodup_partitions e listing hn (fun _ => true) st.files
          have hr := runTasks_inv e hd (addTask e tmpl m) _ hnp st.files (fun p hp =>
            addTask_inv e m tmpl _ _ ht (h.ref.part p) (fun hne => hstep p (by
              simp only [partitions, List.mem_filter] at hp; exact hp.1.1) hne) (h.ref.dim p)
              (h.inv p)) h.inv
          split
          · next hx =>
            rw [hx] at hr
            exact ⟨hr.1, goodRef_of_eq h.ref hr.2, hm.metas, hm.fresh, hm.metas, hm.fresh⟩
          · next fs err hx =>
            rw [hx] at hr
            have hnp2 := nodup_partitions e listing hn (fun _ => true) fs
            have hr2 := runTasks_inv e hd (fun _ cur => dropTask m.name true cur) _ hnp2 fs
              (fun p _ => dropTask_inv e m.name true _ (hr.1 p)) hr.1
            exact ⟨hr2.1, goodRef_of_eq h.ref (fun p => (hr2.2 p).trans (hr.2 p)), hm.metas,
              hm.fresh, h.saved, h.savedFresh⟩

omit [DecidableEq H] in
theorem dropVariable_good (e : Env D V H) (hd : e.base ≠ e.refDir) (listing : List P)
    (hn : listing.Nodup) (name : String) (st : State D P V H) (h : GoodState e st) :
    GoodState e (dropVariable e listing name st).1 := by
  unfold dropVariable
  split
  · exact h
  · have hnp := nodup_partitions e listing hn (fun _ => true) st.files
    have hr := runTasks_inv e hd (fun _ cur => dropTask name false cur) _ hnp st.files
      (fun p _ => dropTask_inv e name false _ (h.inv p)) h.inv
    have hm : ((st.metas.filter fun m => decide (m.name ≠ name)).map (·.name)).Nodup :=
      List.Nodup.sublist (List.filter_sublist.map _) h.metas
    have hf : ∀ m ∈ st.metas.filter fun m => decide (m.name ≠ name),
        m.name ∉ e.refMeta.map (·.name) := fun m hm => h.fresh m (List.mem_filter.mp hm).1
    simp only
    split <;>
      (next hx => rw [hx] at hr; exact ⟨hr.1, goodRef_of_eq h.ref hr.2, hm, hf, hm, hf⟩)

omit [DecidableEq H] in
theorem update_good (e : Env D V H) (hd : e.base ≠ e.refDir) (how : How) (listing : List P)
    (filters : P → Bool) (sel : Option (List String)) (f : Callback V (Dict V))
    (hg : GoodCallback f) (st : State D P V H) (h : GoodState e st) :
    GoodState e (update e how listing filters sel f st).1 := by
  have hk : Kept e f (partitions e listing filters st.files) fun fs =>
      (∀ p, Inv e (fs e.base p)) ∧ ∀ p, fs e.refDir p = st.files e.refDir p := by
    refine ⟨fun fs p n a fs' hq _ hc hw => ?_⟩
    obtain ⟨part, vars, h1, h2, rfl⟩ := writeOne_spec hw
    refine ⟨fun q => ?_, fun q => ?_⟩
    · simp only [put]
      split
      · exact writeVar_inv e n a (hc.arrOk hg) part vars h2 (h1 ▸ hq.1 p)
      · exact hq.1 q
    · simp only [put]
      rw [if_neg (fun h => hd h.1.symm)]
      exact hq.2 q
  have hq := hk.update (how := how) (sel := sel) ⟨h.inv, fun _ => rfl⟩
  obtain ⟨m1, m2⟩ := update_metas e how listing filters sel f st
  exact ⟨hq.1, goodRef_of_eq h.ref hq.2, by rw [m1]; exact h.metas, by rw [m1]; exact h.fresh,
    by rw [m2]; exact h.saved, by rw [m2]; exact h.savedFresh⟩

omit [DecidableEq H] in
theorem update_good_mapped (e : Env D V H) (hd : e.base ≠ e.refDir) (how : How)
    (listing : List P) (filters : P → Bool) (sel : Option (List String))
    (f : Callback V (Dict V)) (hg : MapsArrays f) (st : State D P V H)
    (ha : RefArrays e st.files) (h : GoodState e st) :
    GoodState e (update e how listing filters sel f st).1 := by
  have hk : KeptOk e f fun fs : Files D P V H =>
      (∀ p, Inv e (fs e.base p)) ∧ ∀ p, fs e.refDir p = st.files e.refDir p := by
    refine ⟨hg, fun fs hq p part hp => ?_, fun fs p n a fs' hq hc hw => ?_⟩
    · rcases hp with hp | hp
      · rw [hq.2 p] at hp
        exact ha p part hp
      · exact (hq.1 p part hp).1.arrays
    · obtain ⟨part, vars, h1, h2, rfl⟩ := writeOne_spec hw
      refine ⟨fun q => ?_, fun q => ?_⟩
      · simp only [put]
        split
        · exact writeVar_inv e n a hc part vars h2 (h1 ▸ hq.1 p)
        · exact hq.1 q
      · simp only [put]
        rw [if_neg (fun h => hd h.1.symm)]
        exact hq.2 q
  have hq := hk.update (how := how) (listing := listing) (filters := filters) (sel := sel)
    ⟨h.inv, fun _ => rfl⟩
  obtain ⟨m1, m2⟩ := update_metas e how listing filters sel f st
  exact ⟨hq.1, goodRef_of_eq h.ref hq.2, by rw [m1]; exact h.metas, by rw [m1]; exact h.fresh,
    by rw [m2]; exact h.saved, by rw [m2]; exact h.savedFresh⟩

/-- The invariants hold after any history. -/
theorem reach_good (e : Env D V H) (hd : e.base ≠ e.refDir) (st : State D P V H)
    (h : Reach e true st) : GoodState e st := by
  induction h with
  | created listing filters fs hb hr hn =>
    have hi : ∀ p, Inv e (fs e.base p) := fun p => by rw [hb p]; exact inv_none e
    have := initPartitions_good e hd listing hn
      (match filters with | none => fun _ => true | some f => f) fs hr hi
    exact ⟨this.1, goodRef_of_eq hr this.2, by simp [create], by simp [create], by simp [create],
      by simp [create]⟩
  | reference st fs _ heq hr ih =>
    exact ⟨fun p => (show Inv e (fs e.base p) by rw [heq p]; exact ih.inv p), hr, ih.metas, ih.fresh,
      ih.saved, ih.savedFresh⟩
  | sync st listing filters _ hn ih => exact sync_good e hd listing hn filters st ih
  | add st listing dims m _ hn hstep ih =>
    exact addVariable_good e hd listing hn dims m st (hstep rfl) ih
  | drop st listing name _ hn ih => exact dropVariable_good e hd listing hn name st ih
  | update st how listing filters sel f _ _ hg ih =>
    rcases hg with hg | ⟨hg, ha⟩
    · exact update_good e hd how listing filters sel f hg st ih
    · exact update_good_mapped e hd how listing filters sel f hg st ha ih
  | reopen st _ ih => exact ⟨ih.inv, ih.ref, ih.saved, ih.savedFresh, ih.saved, ih.savedFresh⟩

end Verif.Vw
