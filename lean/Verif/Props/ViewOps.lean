import Verif.Spec.ViewOps
import Verif.Props.View

/-! C39: a view never changes its reference. -/

namespace Verif

open Spec Nd Ds Upd Vw

variable {D P V H : Type} [DecidableEq D] [DecidableEq P] [DecidableEq H]

omit [DecidableEq H] in
theorem put_other (fs : Files D P V H) (d d' : D) (p p' : P) (c : Option (Part V H))
    (h : d' ≠ d) : put fs d p c d' p' = fs d' p' := by
  unfold put
  rw [if_neg fun hx => h hx.1]

omit [DecidableEq H] in
theorem runTasks_other {α : Type} (e : Env D V H)
    (f : Option (Part V H) → Option (Part V H) → Option (Part V H) × Py α) (ps : List P)
    (fs : Files D P V H) (d : D) (h : d ≠ e.base) (q : P) :
    (runTasks e f fs ps).1 d q = fs d q := by
  induction ps generalizing fs with
  | nil => rfl
  | cons p t ih =>
    have hstep : (runTasks e f fs (p :: t)).1 =
        (runTasks e f (put fs e.base p (f (fs e.refDir p) (fs e.base p)).1) t).1 := by
      simp only [runTasks]
      split <;> rfl
    rw [hstep, ih, put_other _ _ _ _ _ _ h]

omit [DecidableEq H] in
/-- What each task keeps, all of them keep. -/
theorem runTasks_keeps {α : Type} (e : Env D V H) (Q : Option (Part V H) → Prop)
    (f : Option (Part V H) → Option (Part V H) → Option (Part V H) × Py α)
    (hf : ∀ ref cur, Q cur → Q (f ref cur).1) (ps : List P) (fs : Files D P V H)
    (h : ∀ p, Q (fs e.base p)) (q : P) : Q ((runTasks e f fs ps).1 e.base q) := by
  induction ps generalizing fs with
  | nil => exact h q
  | cons p t ih =>
    have hstep : (runTasks e f fs (p :: t)).1 =
        (runTasks e f (put fs e.base p (f (fs e.refDir p) (fs e.base p)).1) t).1 := by
      simp only [runTasks]
      split <;> rfl
    rw [hstep]
    refine ih _ fun p' => ?_
    unfold put
    split
    · exact hf _ _ (h p)
    · exact h p'

omit [DecidableEq H] in
theorem initPartitions_other (e : Env D V H) (listing : List P) (filters : P → Bool)
    (fs : Files D P V H) (d : D) (h : d ≠ e.base) (q : P) :
    (initPartitions e listing filters fs).1 d q = fs d q := by
  rw [← runTasks_other e (writeChecksum e)
    ((listing.filter filters).filter fun p => (fs e.base p).isNone) fs d h q]
  unfold initPartitions
  split <;> (next hr => rw [hr])

theorem sync_metas (e : Env D V H) (listing : List P) (filters : Option (P → Bool))
    (st : State D P V H) : (Vw.sync e listing filters st).1.metas = st.metas ∧
    ((Vw.sync e listing filters st).1.saved = st.saved ∨
      (Vw.sync e listing filters st).1.saved = st.metas) := by
  have key : ∀ st1 : State D P V H, (if listing = [] then (st1, (.error .typeError : Py (List P)))
      else match runTasks e (syncOne e false st1.metas) st1.files listing with
        | (fs, .error err) => ({ st1 with files := fs }, .error err)
        | (fs, .ok l) => ({ st1 with files := fs }, .ok ((l.filter (·.2)).map (·.1)))).1.metas =
        st1.metas ∧
      (if listing = [] then (st1, (.error .typeError : Py (List P)))
      else match runTasks e (syncOne e false st1.metas) st1.files listing with
        | (fs, .error err) => ({ st1 with files := fs }, .error err)
        | (fs, .ok l) => ({ st1 with files := fs }, .ok ((l.filter (·.2)).map (·.1)))).1.saved =
        st1.saved := by
    intro st1
    split
    · exact ⟨rfl, rfl⟩
    · split <;> exact ⟨rfl, rfl⟩
  cases filters with
  | none =>
    obtain ⟨h1, h2⟩ := key st
    exact ⟨h1, .inl h2⟩
  | some f =>
    unfold Vw.sync
    simp only
    cases hi : initPartitions e listing f st.files with
    | mk fs r =>
      cases r with
      | error err => exact ⟨rfl, .inr rfl⟩
      | ok u =>
        obtain ⟨h1, h2⟩ := key { files := fs, metas := st.metas, saved := st.metas }
        exact ⟨h1, .inr h2⟩

theorem isSynced_metas (e : Env D V H) (listing : List P) (st : State D P V H) :
    (Vw.isSynced e listing st).1.metas = st.metas ∧
    (Vw.isSynced e listing st).1.saved = st.saved := by
  unfold Vw.isSynced
  split
  · exact ⟨rfl, rfl⟩
  · split <;> exact ⟨rfl, rfl⟩

/-- The files after a synchronisation, in terms of those after `_init_partitions`. -/
theorem sync_files (e : Env D V H) (listing : List P) (filters : Option (P → Bool))
    (st : State D P V H) : ∃ st1 : State D P V H, st1.metas = st.metas ∧
      (st1.files = st.files ∨ ∃ f, st1.files = (initPartitions e listing f st.files).1) ∧
      (Vw.sync e listing filters st).1.metas = st.metas ∧
      ((Vw.sync e listing filters st).1.files = st1.files ∨
        (Vw.sync e listing filters st).1.files =
          (runTasks e (syncOne e false st.metas) st1.files listing).1) := by
  have key : ∀ (st1 : State D P V H) (r : Py Unit), st1.metas = st.metas →
      ∀ res : State D P V H × Py (List P), res = (match (st1, r) with
        | (st, .error err) => (st, .error err)
        | (st, .ok ()) =>
          if listing = [] then (st, .error .typeError)
          else
            match runTasks e (syncOne e false st.metas) st.files listing with
            | (fs, .error err) => ({ st with files := fs }, .error err)
            | (fs, .ok l) => ({ st with files := fs }, .ok ((l.filter (·.2)).map (·.1)))) →
      res.1.metas = st.metas ∧ (res.1.files = st1.files ∨
        res.1.files = (runTasks e (syncOne e false st.metas) st1.files listing).1) := by
    intro st1 r hm res hres
    subst hres
    cases r with
    | error err => exact ⟨hm, .inl rfl⟩
    | ok u =>
      cases u
      simp only
      split
      · exact ⟨hm, .inl rfl⟩
      · rw [hm]
        split <;>
        · next hr =>
          refine ⟨rfl, .inr ?_⟩
          rw [hr]
  cases filters with
  | none => exact ⟨st, rfl, .inl rfl, key st (.ok ()) rfl _ rfl⟩
  | some f =>
    exact ⟨⟨(initPartitions e listing f st.files).1, st.metas, st.metas⟩, rfl, .inr ⟨f, rfl⟩,
      key ⟨(initPartitions e listing f st.files).1, st.metas, st.metas⟩
        (initPartitions e listing f st.files).2 rfl _ rfl⟩

omit [DecidableEq H] in
theorem update_other (e : Env D V H) (how : How) (listing : List P) (filters : P → Bool)
    (sel : Option (List String)) (f : Callback V (Dict V)) (st : State D P V H) (d : D)
    (h : d ≠ e.base) (q : P) :
    (Vw.update e how listing filters sel f st).1.files d q = st.files d q := by
  have hk : Kept e f (partitions e listing filters st.files) fun fs => fs d q = st.files d q := by
    refine ⟨fun fs p n a fs' hq _ _ hw => ?_⟩
    obtain ⟨part, vars, _, _, rfl⟩ := writeOne_spec hw
    rw [put_other _ _ _ _ _ _ h, hq]
  exact hk.update rfl

/-- C39: an operation on a view, whether it raises or not, changes nothing outside of the
directory of the view. -/
theorem C39_step (e : Env D V H) (op : Op P V) (st : State D P V H) (d : D) (h : d ≠ e.base)
    (q : P) : (afterOp e st op).files d q = st.files d q := by
  cases op with
  | sync listing filters =>
    obtain ⟨st1, _, h1, _, h2⟩ := sync_files e listing filters st
    have hi : st1.files d q = st.files d q := by
      rcases h1 with h1 | ⟨f, h1⟩
      · rw [h1]
      · rw [h1, initPartitions_other e listing f st.files d h]
    show (Vw.sync e listing filters st).1.files d q = _
    rcases h2 with h2 | h2
    · rw [h2, hi]
    · rw [h2, runTasks_other e _ _ _ d h, hi]
  | isSynced listing =>
    show (Vw.isSynced e listing st).1.files d q = _
    rw [← runTasks_other e (syncOne e true st.metas) listing st.files d h q]
    unfold Vw.isSynced
    split
    · rw [runTasks_other e (syncOne e true st.metas) listing st.files d h q]
    · split <;> (next hr => rw [hr])
  | add listing dims m =>
    show (Vw.addVariable e listing dims m st).1.files d q = _
    unfold Vw.addVariable
    split
    · rfl
    · split
      · rfl
      · simp only
        split
        · rfl
        · next tmpl _ =>
          split
          · rfl
          · have := runTasks_other e (addTask e tmpl m)
              (partitions e listing (fun _ => true) st.files) st.files d h q
            split
            · next hr => rw [hr] at this; exact this
            · next hr =>
              rw [hr] at this
              simp only
              rw [runTasks_other e _ _ _ d h]
              exact this
  | drop listing name =>
    show (Vw.dropVariable e listing name st).1.files d q = _
    unfold Vw.dropVariable
    split
    · rfl
    · simp only
      have := runTasks_other e (fun _ cur => dropTask name false cur)
        (partitions e listing (fun _ => true) st.files) st.files d h q
      split <;> (next hr => rw [hr] at this; exact this)
  | update how listing filters sel f => exact update_other e how listing filters sel f st d h q
  | reopen => rfl

/-- C39: whatever the operations on a view, the reference is unchanged. -/
theorem C39_reference (e : Env D V H) (hd : e.base ≠ e.refDir) (ops : List (Op P V))
    (st : State D P V H) (q : P) :
    (ops.foldl (afterOp e) st).files e.refDir q = st.files e.refDir q := by
  induction ops generalizing st with
  | nil => rfl
  | cons op t ih => rw [List.foldl_cons, ih, C39_step e op st _ (fun h => hd h.symm)]

omit [DecidableEq H] in
/-- C39: the creation of the view leaves the reference unchanged. -/
theorem C39_create (e : Env D V H) (hd : e.base ≠ e.refDir) (listing : List P)
    (filters : Option (P → Bool)) (fs : Files D P V H) (q : P) :
    (create e listing filters fs).1.files e.refDir q = fs e.refDir q := by
  unfold create
  exact initPartitions_other e listing _ fs _ (fun h => hd h.symm) q

/-! ### The names -/

/-- The variables of the partition have none of the names of the reference. -/
def PartApart (e : Env D V H) (cur : Option (Part V H)) : Prop :=
  ∀ part, cur = some part → ∀ v ∈ part.vars, ∀ t ∈ e.refMeta, v.name ≠ t.name

omit [DecidableEq D] [DecidableEq H] in
theorem createAll_apart (e : Env D V H) (group : List (Var V)) (metas : List (VarMeta V))
    (hm : ∀ m ∈ metas, ∀ t ∈ e.refMeta, m.name ≠ t.name) (part part' : Part V H)
    (h : createAll e group metas part = .ok part') (hp : PartApart e (some part)) :
    PartApart e (some part') := by
  induction metas generalizing part with
  | nil => simp only [createAll] at h; cases h; exact hp
  | cons m t ih =>
    simp only [createAll, bind, Except.bind] at h
    split at h
    · cases h
    · split at h
      · cases h
      · next q hq =>
        refine ih (fun m' hm' => hm m' (by simp [hm'])) q h ?_
        unfold createArray at hq
        split at hq
        · cases hq
        · cases hq
          intro x hx v hv
          cases hx
          rcases mem_setVar _ _ _ hv with rfl | hv
          · exact hm m (by simp)
          · exact hp part rfl v hv

omit [DecidableEq D] [DecidableEq H] in
theorem writeCheck_vars {part part' : Part V H} {a : AxisRef V H}
    (h : writeCheck part a = .ok part') : part'.vars = part.vars := by
  unfold writeCheck at h
  split at h
  · cases h; rfl
  · split at h
    · cases h; rfl
    · cases h

omit [DecidableEq D] [DecidableEq H] in
theorem syncPartition_apart (e : Env D V H) (metas : List (VarMeta V))
    (hm : ∀ m ∈ metas, ∀ t ∈ e.refMeta, m.name ≠ t.name) (ref : Option (Part V H)) :
    PartApart e (syncPartition e metas ref).1 := by
  unfold syncPartition
  split
  · intro part h; cases h
  · split
    · intro part h; cases h
    · next part hp =>
      simp only [bind, Except.bind] at hp
      split at hp
      · cases hp
      · next q hq =>
        split at hp
        · cases hp
        · intro part' h v hv
          cases h
          rw [writeCheck_vars hp] at hv
          exact createAll_apart e _ metas hm _ _ hq (fun x hx v hv => by
            cases hx
            cases hv) q rfl v hv

omit [DecidableEq D] [DecidableEq H] in
theorem extendPartition_apart (e : Env D V H) (part : Part V H) (a : AxisRef V H)
    (hp : PartApart e (some part)) : PartApart e (extendPartition e part a).1 := by
  unfold extendPartition
  split
  · intro part h; cases h
  · next part' h =>
    simp only [bind, Except.bind] at h
    split at h
    · cases h
    · next vars hv =>
      intro x hx v hvm
      cases hx
      rw [writeCheck_vars h] at hvm
      obtain ⟨w, hw, hwv⟩ := mapPy_mem _ _ _ hv v hvm
      have hn : v.name = w.name := by
        unfold extendVar at hwv
        split at hwv
        · cases hwv; rfl
        · split at hwv
          · cases hwv; rfl
          · cases hwv
      rw [hn]
      exact hp part rfl w hw

omit [DecidableEq D] in
theorem syncOne_apart (e : Env D V H) (dry : Bool) (metas : List (VarMeta V))
    (hm : ∀ m ∈ metas, ∀ t ∈ e.refMeta, m.name ≠ t.name) (ref cur : Option (Part V H))
    (h : PartApart e cur) : PartApart e (syncOne e dry metas ref cur).1 := by
  have hs := syncPartition_apart e metas hm ref
  unfold syncOne
  split
  · split
    · exact h
    · split <;> (next hr => rw [hr] at hs; exact hs)
  · next part =>
    split
    · exact h
    · split
      · exact h
      · next a _ =>
        have he := extendPartition_apart e part a h
        split
        · split
          · split
            · exact h
            · split <;> (next hr => rw [hr] at he; exact he)
          · split
            · exact h
            · split <;> (next hr => rw [hr] at hs; exact hs)
        · exact h

omit [DecidableEq D] [DecidableEq H] in
theorem addTask_apart (e : Env D V H) (tmpl : String) (m : VarMeta V)
    (hm : ∀ t ∈ e.refMeta, m.name ≠ t.name) (ref cur : Option (Part V H))
    (h : PartApart e cur) : PartApart e (addTask e tmpl m ref cur).1 := by
  unfold addTask
  split
  · split
    · exact h
    · next part _ part' hq =>
      unfold createArray at hq
      split at hq
      · cases hq
      · cases hq
        intro x hx v hv
        cases hx
        rcases mem_setVar _ _ _ hv with rfl | hv
        · exact hm
        · exact h _ rfl v hv
  · exact h

omit [DecidableEq D] [DecidableEq H] in
theorem dropTask_apart (e : Env D V H) (name : String) (ig : Bool) (cur : Option (Part V H))
    (h : PartApart e cur) : PartApart e (dropTask name ig cur).1 := by
  unfold dropTask
  split
  · exact h
  · split
    · intro x hx v hv
      cases hx
      exact h _ rfl v (List.mem_filter.1 hv).1
    · exact h

omit [DecidableEq H] in
theorem update_apart (e : Env D V H) (how : How) (listing : List P) (filters : P → Bool)
    (sel : Option (List String)) (f : Callback V (Dict V)) (st : State D P V H)
    (h : ∀ p, PartApart e (st.files e.base p)) :
    ∀ p, PartApart e ((Vw.update e how listing filters sel f st).1.files e.base p) := by
  have hk : Kept e f (partitions e listing filters st.files) fun fs =>
      ∀ p, PartApart e (fs e.base p) := by
    refine ⟨fun fs p n a fs' hq _ _ hw q => ?_⟩
    obtain ⟨part, vars, h1, h2, rfl⟩ := writeOne_spec hw
    unfold put
    split
    · intro x hx v hvm
      cases hx
      obtain ⟨hsame, _⟩ := writeVar_spec h2
      have : v.name ∈ vars.map (·.name) := List.mem_map_of_mem hvm
      rw [← getVar_isSome, ← sameVars_isSome hsame, getVar_isSome] at this
      obtain ⟨u, hu, hun⟩ := List.mem_map.1 this
      rw [← hun]
      exact hq p part h1 u hu
    · exact hq q
  exact hk.update h

/-- C39: no operation gives to a variable of the view the name of a variable of the
reference. -/
theorem C39_names (e : Env D V H) (ops : List (Op P V)) (st : State D P V H)
    (h : Apart e st) : Apart e (ops.foldl (afterOp e) st) := by
  induction ops generalizing st with
  | nil => exact h
  | cons op t ih =>
    rw [List.foldl_cons]
    apply ih
    have hq : ∀ p, PartApart e (st.files e.base p) := fun p part hp => h.parts p part hp
    cases op with
    | sync listing filters =>
      obtain ⟨st1, _, h1, hm, h2⟩ := sync_files e listing filters st
      have hi : ∀ p, PartApart e (st1.files e.base p) := by
        rcases h1 with h1 | ⟨f, h1⟩
        · rw [h1]; exact hq
        · intro p
          have := runTasks_keeps e (PartApart e) (writeChecksum e) (by
            intro ref cur hc
            unfold writeChecksum
            split
            · exact hc
            · intro x hx v hv
              cases hx
              cases hv)
            ((listing.filter f).filter fun p => (st.files e.base p).isNone) st.files hq p
          rw [h1]
          unfold initPartitions
          split <;> (next hr => rw [hr] at this; exact this)
      refine ⟨?_, ?_, ?_⟩
      · show ∀ m ∈ (Vw.sync e listing filters st).1.metas, _
        rw [hm]
        exact h.metas
      · show ∀ m ∈ (Vw.sync e listing filters st).1.saved, _
        rcases (sync_metas e listing filters st).2 with h3 | h3 <;> rw [h3]
        · exact h.saved
        · exact h.metas
      · show ∀ p part, (Vw.sync e listing filters st).1.files e.base p = _ → _
        intro p
        rcases h2 with h2 | h2
        · rw [h2]; exact hi p
        · rw [h2]
          exact runTasks_keeps e (PartApart e) _ (syncOne_apart e false st.metas h.metas) listing
            _ hi p
    | isSynced listing =>
      have := runTasks_keeps e (PartApart e) _ (syncOne_apart e true st.metas h.metas) listing
        st.files hq
      show Apart e (Vw.isSynced e listing st).1
      unfold Vw.isSynced
      split
      · exact h
      · split <;> (next hr => rw [hr] at this; exact ⟨h.metas, h.saved, this⟩)
    | add listing dims m =>
      show Apart e (Vw.addVariable e listing dims m st).1
      unfold Vw.addVariable
      split
      · exact h
      · next hnew =>
        have hmn : ∀ t ∈ e.refMeta, m.name ≠ t.name := by
          intro t ht hmt
          exact hnew (.inl (hmt ▸ List.mem_map_of_mem ht))
        have hms : ∀ x ∈ st.metas ++ [m], ∀ t ∈ e.refMeta, x.name ≠ t.name := by
          intro x hx
          rcases List.mem_append.1 hx with hx | hx
          · exact h.metas x hx
          · rw [List.mem_singleton.1 hx]; exact hmn
        split
        · exact h
        · simp only
          split
          · exact ⟨hms, h.saved, h.parts⟩
          · next tmpl _ =>
            split
            · exact ⟨hms, h.saved, h.parts⟩
            · have := runTasks_keeps e (PartApart e) _ (addTask_apart e tmpl m hmn)
                (partitions e listing (fun _ => true) st.files) st.files hq
              split
              · next hr => rw [hr] at this; exact ⟨hms, hms, this⟩
              · next hr =>
                rw [hr] at this
                refine ⟨hms, h.saved, ?_⟩
                exact runTasks_keeps e (PartApart e) (fun _ cur => dropTask m.name true cur)
                  (fun _ cur => dropTask_apart e m.name true cur) _ _ this
    | drop listing name =>
      show Apart e (Vw.dropVariable e listing name st).1
      unfold Vw.dropVariable
      split
      · exact h
      · simp only
        have := runTasks_keeps e (PartApart e) (fun _ cur => dropTask name false cur)
          (fun _ cur => dropTask_apart e name false cur)
          (partitions e listing (fun _ => true) st.files) st.files hq
        have hms : ∀ x ∈ st.metas.filter fun m => decide (m.name ≠ name), ∀ t ∈ e.refMeta,
            x.name ≠ t.name := fun x hx => h.metas x (List.mem_filter.1 hx).1
        split <;> (next hr => rw [hr] at this; exact ⟨hms, hms, this⟩)
    | update how listing filters sel f =>
      obtain ⟨m1, m2⟩ := update_metas e how listing filters sel f st
      refine ⟨?_, ?_, update_apart e how listing filters sel f st hq⟩
      · show ∀ m ∈ (Vw.update e how listing filters sel f st).1.metas, _
        rw [m1]
        exact h.metas
      · show ∀ m ∈ (Vw.update e how listing filters sel f st).1.saved, _
        rw [m2]
        exact h.saved
    | reopen => exact ⟨h.saved, h.saved, h.parts⟩

omit [DecidableEq H] in
/-- C39: a new view has no variable. -/
theorem C39_created (e : Env D V H) (listing : List P) (filters : Option (P → Bool))
    (fs : Files D P V H) (h : ∀ p, fs e.base p = none) :
    Apart e (create e listing filters fs).1 := by
  have hq : ∀ p, PartApart e (fs e.base p) := by
    intro p part hp
    rw [h p] at hp
    cases hp
  have := runTasks_keeps (P := P) e (PartApart e) (writeChecksum e) (by
    intro ref cur hc
    unfold writeChecksum
    split
    · exact hc
    · intro x hx v hv
      cases hx
      cases hv)
  have hi : ∀ f p, PartApart e ((initPartitions e listing f fs).1 e.base p) := by
    intro f p
    have h2 := this ((listing.filter f).filter fun p => (fs e.base p).isNone) fs hq p
    unfold initPartitions
    split <;> (next hr => rw [hr] at h2; exact h2)
  exact ⟨(fun m hm => by cases hm), (fun m hm => by cases hm), fun p => hi _ p⟩

omit [DecidableEq H] in
/-- C39: a variable with the name of a variable of the reference can be neither added nor
dropped; nothing changes. -/
theorem C39_refused (e : Env D V H) (listing : List P) (dims : List String) (m : VarMeta V)
    (st : State D P V H) (t : VarMeta V) (ht : t ∈ e.refMeta) (hn : m.name = t.name) :
    Vw.addVariable e listing dims m st = (st, .error .valueError) ∧
    Vw.dropVariable e listing m.name st = (st, .error .valueError) := by
  have hmem : m.name ∈ e.refMeta.map (·.name) := by
    rw [hn]
    exact List.mem_map_of_mem ht
  constructor
  · unfold Vw.addVariable
    rw [if_pos (.inl hmem)]
  · unfold Vw.dropVariable handled
    rw [if_pos hmem]

/-- A history of a view: the reference is unchanged. -/
example : ([Op.isSynced [()], .drop [()] "x", .add [()] ["time"] xMeta,
      .update ⟨true, false, 0, true, 2⟩ [()] (fun _ => true) none (fun _ _ => .ok [("x", vec [7, 8])]),
      .sync [()] none].foldl (afterOp (smallEnv (· == ·))) (oneView [1, 2])).files false () =
    some (onlyTime [1, 2]) :=
  C39_reference (smallEnv (· == ·)) (by decide) _ (oneView [1, 2]) ()

end Verif
