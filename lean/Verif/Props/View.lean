import Verif.Lemmas.ViewReach
import Verif.Props.Update

/-!
Properties of the synchronisation of views: C36 (convergence), C37 (the data of the user is
kept), C38 (scope).
-/

namespace Verif

open Nd Ds Upd Vw Spec

variable {D P V H : Type} [DecidableEq D] [DecidableEq P] [DecidableEq H]

/-! ### C36 -/

omit [DecidableEq H] in
/-- What is known before the tasks of a synchronisation are executed. -/
theorem before_tasks (e : Env D V H) (hd : e.base ≠ e.refDir) (listing : List P)
    (hn : listing.Nodup) (filters : Option (P → Bool)) (st st1 : State D P V H)
    (h : match filters with
        | none => st1 = st
        | some f => initPartitions e listing f st.files = (st1.files, .ok ()) ∧
            st1.saved = st.metas) :
    (∀ p, st1.files e.refDir p = st.files e.refDir p) ∧
    (∀ p, st1.files e.base p = st.files e.base p ∨ (st.files e.base p = none ∧ p ∈ listing ∧
      (∃ f, filters = some f ∧ f p = true) ∧ ∃ l dim, HasAxis e (st.files e.refDir p) l dim ∧
        st1.files e.base p = some ⟨[], some ⟨l, dim, e.hash l⟩⟩)) ∧
    (SoundView e st.files → NoCollision e st.files →
      SoundView e st1.files ∧ NoCollision e st1.files) ∧
    (∀ f, filters = some f → ∀ p ∈ listing, f p = true → st1.files e.base p ≠ none) := by
  cases filters with
  | none =>
    have h : st1 = st := h
    subst h
    exact ⟨fun _ => rfl, fun _ => .inl rfl, fun a b => ⟨a, b⟩, fun f hf => by cases hf⟩
  | some f =>
    obtain ⟨h, _⟩ := h
    obtain ⟨h1, h2, h3⟩ := initPartitions_files e hd listing hn f _ _ _ h
    refine ⟨h1, fun p => ?_, initPartitions_sound e hd listing hn f _ _ _ h,
      fun f' hf => by cases hf; exact h3 rfl⟩
    rcases h2 p with h | ⟨a, b, c, d⟩
    · exact .inl h
    · exact .inr ⟨a, b, ⟨f, rfl, c⟩, d⟩

omit [DecidableEq D] [DecidableEq P] [DecidableEq H] in
theorem noCollision_dim {e : Env D V H} {fs : Files D P V H} (hs : SoundView e fs) (p : P) :
    ∀ part c l d, fs e.base p = some part → part.check = some c →
      HasAxis e (fs e.refDir p) l d → c.dim = d :=
  fun part c l d hp hc ha => (hs.dim p part c hp hc).trans (hs.refDim p l d ha).symm

/-- The outcome of a successful synchronisation for each partition. -/
theorem sync_outcome (e : Env D V H) (hd : e.base ≠ e.refDir) (listing : List P)
    (hn : listing.Nodup) (filters : Option (P → Bool)) (st st' : State D P V H) (done : List P)
    (hm : (st.metas.map (·.name)).Nodup) (hs : SoundView e st.files)
    (hc : NoCollision e st.files) (h : sync e listing filters st = (st', .ok done)) :
    ∃ st1 : State D P V H,
      (∀ p, st1.files e.refDir p = st.files e.refDir p) ∧
      (∀ p, st1.files e.base p = st.files e.base p ∨ (st.files e.base p = none ∧ p ∈ listing ∧
        (∃ f, filters = some f ∧ f p = true) ∧ ∃ l dim, HasAxis e (st.files e.refDir p) l dim ∧
        st1.files e.base p = some ⟨[], some ⟨l, dim, e.hash l⟩⟩)) ∧
      SoundView e st1.files ∧ NoCollision e st1.files ∧ listing ≠ [] ∧
      st'.metas = st.metas ∧ (∀ p, st'.files e.refDir p = st.files e.refDir p) ∧
      (∀ p, p ∉ listing → st'.files e.base p = st1.files e.base p) ∧
      (∀ p ∈ listing, ∃ b, Outcome e st.metas (st.files e.refDir p) (st1.files e.base p)
        (st'.files e.base p) b ∧ (b = true ↔ p ∈ done)) ∧
      (∀ f, filters = some f → ∀ p ∈ listing, f p = true → st1.files e.base p ≠ none) := by
  obtain ⟨st1, l, hm1, h1, hl, hr, hst, hdone⟩ := sync_split e listing filters st st' done h
  obtain ⟨b1, b2, b3, b5⟩ := before_tasks e hd listing hn filters st st1 h1
  obtain ⟨b3, b4⟩ := b3 hs hc
  have hf := runTasks_files e (syncOne e false st.metas) listing hn st1.files
  rw [hr] at hf
  have hf : ∀ d q, st'.files d q = if d = e.base ∧ q ∈ listing then
      (syncOne e false st.metas (st1.files e.refDir q) (st1.files e.base q)).1
      else st1.files d q := hf
  refine ⟨st1, b1, b2, b3, b4, hl, ?_, fun p => ?_, fun p hp => ?_, fun p hp => ?_, b5⟩
  · rw [hst]; exact hm1
  · rw [hf, if_neg (fun h => hd h.1.symm), b1]
  · rw [hf, if_neg (fun h => hp h.2)]
  · have hr2 : (runTasks e (syncOne e false st.metas) st1.files listing).2 = .ok l := by rw [hr]
    obtain ⟨x, hx, hox⟩ := runTasks_ok e _ listing hn st1.files l hr2 p hp
    have hfp := hf e.base p
    rw [if_pos ⟨rfl, hp⟩] at hfp
    refine ⟨x, ?_, ?_⟩
    · have := syncOne_spec e st.metas hm (st1.files e.refDir p) (st1.files e.base p)
        (st'.files e.base p) x (noCollision_dim b3 p) (by rw [hfp, ← hox])
      rw [b1] at this
      exact this
    · rw [hdone]
      constructor
      · intro hxt
        subst hxt
        exact List.mem_map.mpr ⟨(p, true), List.mem_filter.mpr ⟨hx, rfl⟩, rfl⟩
      · intro hpd
        obtain ⟨⟨q, y⟩, hy, rfl⟩ := List.mem_map.mp hpd
        obtain ⟨hy, hyt⟩ := List.mem_filter.mp hy
        have hyt : y = true := hyt
        have := ((runTasks_result e _ listing hn st1.files).1 l hr2).2 q y hy
        have h2 : x = y := by
          have := hox.symm.trans this
          cases this; rfl
        rw [h2]; exact hyt

/-- C36: after a synchronisation that raises no exception, each partition of the reference is
in the view with the axis of the reference and variables of its length, `is_synced` answers
True, and another synchronisation changes nothing. -/
theorem C36_sync_partial (e : Env D V H) (hd : e.base ≠ e.refDir) (listing : List P)
    (hn : listing.Nodup) (filters : Option (P → Bool)) (st st' : State D P V H) (done : List P)
    (hm : (st.metas.map (·.name)).Nodup) (hs : SoundView e st.files)
    (hc : NoCollision e st.files) (h : sync e listing filters st = (st', .ok done)) :
    (∀ p ∈ listing, InStep e (st'.files e.refDir p) (st'.files e.base p)) ∧
    isSynced e listing st' = (st', .ok true) ∧
    sync e listing none st' = (st', .ok []) ∧
    SoundView e st'.files := by
  obtain ⟨st1, b1, b2, b3, b4, hl, hmeta, href, hout, hin, hsel⟩ :=
    sync_outcome e hd listing hn filters st st' done hm hs hc h
  have key : ∀ p ∈ listing, InStep e (st'.files e.refDir p) (st'.files e.base p) ∧
      (∀ part, st'.files e.base p = some part → Sound e part) ∧
      (∀ part c l d, st'.files e.base p = some part → part.check = some c →
        HasAxis e (st'.files e.refDir p) l d → c.dim = d) := by
    intro p hp
    obtain ⟨b, ho, _⟩ := hin p hp
    rw [href p]
    refine outcome_inStep (b3.view p) (fun g hg => hs.ref p g hg) ?_ ?_ ho
    · intro part c l d hp hc ha
      exact noCollision_dim b3 p part c l d hp hc (by rw [b1]; exact ha)
    · intro part c l d hp hc ha
      exact b4 p part c l d hp hc (by rw [b1]; exact ha)
  have quiet : ∀ dry, (runTasks e (syncOne e dry st'.metas) st'.files listing).1 = st'.files ∧
      ∃ l, (runTasks e (syncOne e dry st'.metas) st'.files listing).2 = .ok l ∧
        l.filter (·.2) = [] := by
    intro dry
    have hsame : ∀ p ∈ listing, syncOne e dry st'.metas (st'.files e.refDir p)
        (st'.files e.base p) = (st'.files e.base p, .ok false) := by
      intro p hp
      obtain ⟨part, c, l, dim, h1, h2, h3, h4, h5, h6⟩ := (key p hp).1
      rw [h1]
      exact syncOne_same e dry st'.metas _ part c l dim h2 h3 h5
    constructor
    · funext d p
      rw [runTasks_files e _ listing hn]
      split
      · next hp => rw [hsame p hp.2, hp.1]
      · rfl
    · obtain ⟨l, hl⟩ := (runTasks_result e (syncOne e dry st'.metas) listing hn st'.files).2
        (fun p hp => ⟨false, by rw [hsame p hp]⟩)
      refine ⟨l, hl, ?_⟩
      rw [List.filter_eq_nil_iff]
      rintro ⟨p, x⟩ hx
      obtain ⟨h1, h2⟩ := (runTasks_result e (syncOne e dry st'.metas) listing hn st'.files).1 l hl
      have hp : p ∈ listing := by rw [← h1]; exact List.mem_map.mpr ⟨_, hx, rfl⟩
      have := h2 p x hx
      rw [hsame p hp] at this
      cases this
      simp
  refine ⟨fun p hp => (key p hp).1, ?_, ?_, ?_⟩
  · obtain ⟨q1, l, q2, q3⟩ := quiet true
    simp only [isSynced, hl, if_false]
    split
    · next hr => rw [hr] at q2; cases q2
    · next fs l' hr =>
      rw [hr] at q1 q2
      cases q2
      have q1 : fs = st'.files := q1
      rw [q3, q1]
      rfl
  · obtain ⟨q1, l, q2, q3⟩ := quiet false
    simp only [sync, hl, if_false]
    split
    · next hr => rw [hr] at q2; cases q2
    · next fs l' hr =>
      rw [hr] at q1 q2
      cases q2
      have q1 : fs = st'.files := q1
      rw [q3, q1]
      rfl
  · refine ⟨fun p part hp => ?_, fun p r hp => ?_, fun p part c hp hcc => ?_, fun p l d ha => ?_⟩
    · by_cases hpl : p ∈ listing
      · exact (key p hpl).2.1 part hp
      · exact b3.view p part (by rw [← hout p hpl]; exact hp)
    · exact hs.ref p r (by rw [← href p]; exact hp)
    · by_cases hpl : p ∈ listing
      · obtain ⟨part', c', l, dim, h1, h2, h3, h4⟩ := (key p hpl).1
        have hdd := (key p hpl).2.2 part c l dim hp hcc h3
        rw [hdd]
        exact hs.refDim p l dim (by rw [← href p]; exact h3)
      · exact b3.dim p part c (by rw [← hout p hpl]; exact hp) hcc
    · exact hs.refDim p l d (by rw [← href p]; exact ha)

/-- C36: a synchronisation raises no exception when there are partitions, each one stores
the variables of the metadata of the reference, each variable of the view has a variable of
the reference with the same dimensions, and each partition of the view has its checksum. -/
theorem C36_total (e : Env D V H) (listing : List P)
    (hn : listing.Nodup) (hne : listing ≠ []) (st : State D P V H)
    (hs : SoundView e st.files)
    (href : ∀ p ∈ listing, ∃ g l dim, st.files e.refDir p = some g ∧
      HasAxis e (some g) l dim ∧ ∀ m ∈ e.refMeta, m.name ∈ g.vars.map (·.name))
    (ht : ∀ m ∈ st.metas, ∃ tm ∈ e.refMeta, tm.dims = m.dims)
    (hv : ∀ p ∈ listing, ∀ part, st.files e.base p = some part → part.check ≠ none) :
    ∃ st' done, sync e listing none st = (st', .ok done) := by
  obtain ⟨l, hl⟩ := (runTasks_result e (syncOne e false st.metas) listing hn st.files).2 (by
    intro p hp
    obtain ⟨g, l, dim, h1, h2, h3⟩ := href p hp
    obtain ⟨c', b, h⟩ := syncOne_ok e st.metas g (st.files e.base p) l dim h3 ht h2 (by
      intro part hpart
      cases hc : part.check with
      | none => exact absurd hc (hv p hp part hpart)
      | some c =>
        have hdim : c.dim = dim := noCollision_dim hs p part c l dim hpart hc (by
          rw [h1]; exact h2)
        exact ⟨c, rfl, hdim, hdim ▸ (hs.view p part hpart).long c hc⟩)
    rw [h1]
    exact ⟨b, by rw [h]⟩)
  cases hr : runTasks e (syncOne e false st.metas) st.files listing with
  | mk fs r =>
    rw [hr] at hl
    have hl : r = .ok l := hl
    subst hl
    exact ⟨{ st with files := fs }, (l.filter (·.2)).map (·.1), by
      simp only [sync, if_neg hne, hr]⟩

/-- C36: `is_synced` and a synchronisation of a reference without partition raise
`TypeError`. -/
theorem C36_empty (e : Env D V H) (st : State D P V H) :
    isSynced e ([] : List P) st = (st, .error .typeError) ∧
    sync e ([] : List P) none st = (st, .error .typeError) := ⟨rfl, rfl⟩

/-- C36, after any history in which variables are only added to a view in step with its
reference. -/
theorem C36_history (e : Env D V H) (hd : e.base ≠ e.refDir) (listing : List P)
    (hn : listing.Nodup) (filters : Option (P → Bool)) (st st' : State D P V H) (done : List P)
    (hr : Reach e true st) (hc : NoCollision e st.files)
    (h : sync e listing filters st = (st', .ok done)) :
    (∀ p ∈ listing, InStep e (st'.files e.refDir p) (st'.files e.base p)) ∧
    isSynced e listing st' = (st', .ok true) ∧
    sync e listing none st' = (st', .ok []) := by
  have hg := reach_good e hd st hr
  obtain ⟨a, b, c, _⟩ := C36_sync_partial e hd listing hn filters st st' done hg.metas hg.sound hc h
  exact ⟨a, b, c⟩

/-- C36 as stated: after any history. -/
def C36_full : Prop :=
  ∀ (D P V H : Type) [DecidableEq D] [DecidableEq P] [DecidableEq H] (e : Env D V H)
    (listing : List P) (filters : Option (P → Bool)) (st : State D P V H),
    e.base ≠ e.refDir → listing.Nodup → Reach e false st → NoCollision e st.files →
    (∀ p ∈ listing, ∃ l d, HasAxis e (st.files e.refDir p) l d) →
    ∃ st' done, sync e listing filters st = (st', .ok done) ∧
      ∀ p ∈ listing, InStep e (st'.files e.refDir p) (st'.files e.base p)

/-! ### A small view -/

/-- The time axis. -/
def timeMeta : VarMeta Nat := ⟨"time", ["time"], none, 0⟩

/-- A view of a collection with one axis; the numbers are compared by `eqv`. -/
def smallEnv (eqv : Nat → Nat → Bool) : Env Bool Nat (List Nat) where
  base := true
  refDir := false
  axis := "time"
  dim := "time"
  refMeta := [timeMeta]
  hash := id
  eqv := eqv
  undef := fun _ => 0

/-- A partition of the reference. -/
def onlyTime (l : List Nat) : Part Nat (List Nat) :=
  { vars := [{ name := "time", delayed := false, dims := ["time"], array := vec l, fill := none,
               props := 0 }]
    check := none }

/-- The directories of a view with at most one partition. -/
def oneFile (view ref : Option (Part Nat (List Nat))) : Files Bool Unit Nat (List Nat) :=
  fun d _ => if d then view else ref

theorem onlyTime_axis (eqv : Nat → Nat → Bool) (l : List Nat) :
    HasAxis (smallEnv eqv) (some (onlyTime l)) l "time" :=
  ⟨_, rfl, _, rfl, rfl, fun _ _ h => h, rfl⟩

theorem onlyTime_good (eqv : Nat → Nat → Bool) (view : Option (Part Nat (List Nat)))
    (l : List Nat) : GoodRef (smallEnv eqv) (oneFile view (some (onlyTime l))) := by
  constructor
  · intro p r hr
    cases hr
    refine ⟨fun l' dim ha v hv ax hax => ?_, fun m hm v hv => ?_⟩
    · obtain ⟨rfl, rfl⟩ := hasAxis_unique ha (onlyTime_axis eqv l)
      simp only [onlyTime, List.mem_singleton] at hv
      subst hv
      cases hax
      rfl
    · simp only [smallEnv, List.mem_singleton] at hm
      subst hm
      cases hv
      rfl
  · intro p l' d ha
    exact (hasAxis_unique ha (onlyTime_axis eqv l)).2

/-- The metadata of a variable of the view. -/
def xMeta : VarMeta Nat := ⟨"x", ["time"], some 9, 0⟩

/-- A view created, then the reference extended, then a variable added, then the reference
as at the start. -/
theorem C36_counterexample : ¬ C36_full := by
  intro h
  have hd : (smallEnv (· == ·)).base ≠ (smallEnv (· == ·)).refDir := by decide
  let e := smallEnv (· == ·)
  -- created
  let st0 := (create e [()] none (oneFile none (some (onlyTime [1, 2, 3])))).1
  have r0 : Reach e false st0 := .created [()] none _ (fun _ => rfl) (onlyTime_good _ _ _) (by simp)
  -- extended
  let st1 : State Bool Unit Nat (List Nat) :=
    { st0 with files := oneFile (st0.files true ()) (some (onlyTime [1, 2, 3, 4, 5])) }
  have r1 : Reach e false st1 := .reference st0 _ r0 (fun _ => rfl) (onlyTime_good _ _ _)
  -- a variable is added
  let st2 := (addVariable e [()] ["time"] xMeta st1).1
  have r2 : Reach e false st2 := .add st1 [()] _ _ r1 (by simp) (fun h => by cases h)
  -- as at the start
  let st3 : State Bool Unit Nat (List Nat) :=
    { st2 with files := oneFile (st2.files true ()) (some (onlyTime [1, 2, 3])) }
  have r3 : Reach e false st3 := .reference st2 _ r2 (fun _ => rfl) (onlyTime_good _ _ _)
  obtain ⟨st', done, hs, hin⟩ := h Bool Unit Nat (List Nat) e [()] none st3 hd (by simp) r3
    (by
      intro p part c l d h1 h2 h3 h4
      exact h4)
    (fun _ _ => ⟨_, _, onlyTime_axis _ _⟩)
  have hst : st' = (sync e [()] none st3).1 := by rw [hs]
  subst hst
  obtain ⟨part, c, l, dim, h1, h2, h3, h4, h5, h6⟩ := hin () (by simp)
  have hpart : part = ⟨[{ name := "x", delayed := false, dims := ["time"], array := tabulate [5] (blank e (some 9)), fill := some 9, props := 0 }], some ⟨[1, 2, 3], "time", [1, 2, 3]⟩⟩ := by
    have : (sync e [()] none st3).1.files e.base () = some ⟨[{ name := "x", delayed := false, dims := ["time"], array := tabulate [5] (blank e (some 9)), fill := some 9, props := 0 }], some ⟨[1, 2, 3], "time", [1, 2, 3]⟩⟩ := rfl
    rw [this] at h1
    cases h1
    rfl
  obtain ⟨rfl, rfl⟩ := hasAxis_unique h3 (show HasAxis e _ [1, 2, 3] "time" from onlyTime_axis _ _)
  rw [hpart] at h6
  have := h6 _ (List.mem_singleton.mpr rfl) 0 rfl
  cases this

/-- The hypotheses of `C36_history` hold for a view with a variable and a reference that was
extended. -/
example : ∃ st st' : State Bool Unit Nat (List Nat),
    Reach (smallEnv (· == ·)) true st ∧ NoCollision (smallEnv (· == ·)) st.files ∧
    sync (smallEnv (· == ·)) [()] none st = (st', .ok [()]) ∧
    (st'.files true ()).map (fun p => p.vars.map (·.array.shape)) = some [[5]] := by
  let e := smallEnv (· == ·)
  let st0 := (create e [()] none (oneFile none (some (onlyTime [1, 2, 3])))).1
  have r0 : Reach e true st0 := .created [()] none _ (fun _ => rfl) (onlyTime_good _ _ _) (by simp)
  let st1 := (addVariable e [()] ["time"] xMeta st0).1
  have r1 : Reach e true st1 := .add st0 [()] _ _ r0 (by simp) (fun _ p _ _ =>
    ⟨⟨[], some ⟨[1, 2, 3], "time", [1, 2, 3]⟩⟩, _, [1, 2, 3], "time", rfl, rfl,
      onlyTime_axis _ _, rfl, rfl, fun v hv => by simp at hv⟩)
  let st2 : State Bool Unit Nat (List Nat) :=
    { st1 with files := oneFile (st1.files true ()) (some (onlyTime [1, 2, 3, 4, 5])) }
  have r2 : Reach e true st2 := .reference st1 _ r1 (fun _ => rfl) (onlyTime_good _ _ _)
  exact ⟨st2, (sync e [()] none st2).1, r2, fun p part c l d _ _ _ h => h, rfl, rfl⟩

/-! ### C37 -/

omit [DecidableEq D] [DecidableEq H] in
theorem startsWith_append (e : Env D V H) (a extra : List V) (hne : extra ≠ [])
    (hrefl : ∀ x ∈ a, e.eqv x x = true) : startsWith e a (a ++ extra) = true := by
  unfold startsWith
  have h1 : a.length < (a ++ extra).length := by
    have := List.length_pos_iff.mpr hne
    rw [List.length_append]; omega
  have h2 : (List.zipWith e.eqv a a).all id = true := by
    rw [List.all_eq_true]
    intro b hb
    obtain ⟨i, hi⟩ := List.getElem?_of_mem hb
    rw [List.getElem?_zipWith] at hi
    cases hx : a[i]? with
    | none => rw [hx] at hi; cases hi
    | some x =>
      rw [hx] at hi
      cases hi
      exact hrefl x (List.mem_of_getElem? hx)
  simp only [h1, decide_true, List.take_left, h2, Bool.and_true]

omit [DecidableEq D] [DecidableEq H] in
theorem startsWith_spec (e : Env D V H) (hlaw : ∀ x y, e.eqv x y = true → x = y)
    (a l : List V) (h : startsWith e a l = true) : ∃ extra, extra ≠ [] ∧ l = a ++ extra := by
  unfold startsWith at h
  simp only [Bool.and_eq_true, decide_eq_true_eq] at h
  refine ⟨l.drop a.length, ?_, ?_⟩
  · intro hc
    have := congrArg List.length hc
    simp only [List.length_drop, List.length_nil] at this
    omega
  · have key : ∀ a b : List V, a.length = b.length → (List.zipWith e.eqv a b).all id = true →
        a = b := by
      intro a
      induction a with
      | nil => intro b hb _; cases b with
        | nil => rfl
        | cons => simp at hb
      | cons x t ih =>
        intro b hb hz
        cases b with
        | nil => simp at hb
        | cons y u =>
          simp only [List.zipWith_cons_cons, List.all_cons, id, Bool.and_eq_true] at hz
          rw [hlaw x y hz.1, ih u (by simpa using hb) hz.2]
    have hk := key a (l.take a.length) (by rw [List.length_take]; omega) h.2
    calc l = l.take a.length ++ l.drop a.length := (List.take_append_drop _ _).symm
      _ = a ++ l.drop a.length := by rw [← hk]

/-- C37: if records were appended to the reference, the variables of the view keep their
values and read as fill values for the new records. -/
theorem C37_append_partial (e : Env D V H) (hd : e.base ≠ e.refDir) (listing : List P)
    (hn : listing.Nodup) (filters : Option (P → Bool)) (st st' : State D P V H) (done : List P)
    (hr : Reach e true st) (hc : NoCollision e st.files)
    (h : sync e listing filters st = (st', .ok done))
    (p : P) (hp : p ∈ listing) (part : Part V H) (c : AxisRef V H)
    (hpart : st.files e.base p = some part) (hck : part.check = some c)
    (extra : List V) (hne : extra ≠ []) (dim : String)
    (ha : HasAxis e (st.files e.refDir p) (c.values ++ extra) dim)
    (hrefl : ∀ x ∈ c.values, e.eqv x x = true) :
    ∃ part', st'.files e.base p = some part' ∧ part'.vars.length = part.vars.length ∧
      ∀ (i : Nat) (v : Var V), part.vars[i]? = some v → ∃ v', part'.vars[i]? = some v' ∧
        Extended dim (c.values ++ extra).length v v' := by
  have hg := reach_good e hd st hr
  obtain ⟨st1, b1, b2, b3, b4, hl, hmeta, href, hout, hin, hsel⟩ :=
    sync_outcome e hd listing hn filters st st' done hg.metas hg.sound hc h
  have hcur : st1.files e.base p = some part := by
    rcases b2 p with hb | ⟨hb, _⟩
    · rw [hb, hpart]
    · rw [hpart] at hb; cases hb
  have hs := (hg.sound.view p part hpart)
  have hdc := noCollision_dim hg.sound p part c _ _ hpart hck ha
  have hsum : c.sum ≠ e.hash (c.values ++ extra) := by
    intro hx
    have := hc p part c _ _ hpart hck ha ((hs.sum c hck).symm.trans hx)
    have := congrArg List.length this
    rw [List.length_append] at this
    exact hne (List.length_eq_zero_iff.mp (by omega))
  obtain ⟨b, ho, _⟩ := hin p hp
  rw [hcur] at ho
  generalize hfin : st'.files e.base p = fin at ho
  cases ho with
  | same part0 c0 l d h1 h2 h3 h4 =>
    cases h1
    rw [hck] at h2; cases h2
    obtain ⟨rfl, rfl⟩ := hasAxis_unique h3 ha
    exact absurd h4 hsum
  | reset g part' l d h1 h2 h3 h4 h5 h6 h7 =>
    obtain ⟨rfl, rfl⟩ := hasAxis_unique h3 ha
    rcases h1 with h1 | ⟨part0, c0, h1, h2', h3', h4'⟩
    · cases h1
    · cases h1
      rw [hck] at h2'; cases h2'
      rw [startsWith_append e c.values extra hne hrefl] at h4'
      cases h4'
  | extend part0 part' c0 l d h1 h2 h3 h4 h5 h6 h7 =>
    cases h1
    rw [hck] at h2; cases h2
    obtain ⟨rfl, rfl⟩ := hasAxis_unique h3 ha
    obtain ⟨x1, x2⟩ := extended_vars hs hck hdc h5 h7
    exact ⟨part', rfl, x1, fun i v hv => by
      obtain ⟨v', y1, y2, _⟩ := x2 i v hv
      exact ⟨v', y1, y2⟩⟩

/-- C37: if the axis changed in another way, the partition is reset: it holds exactly the
variables of the view, filled with their fill values, with the shape of a variable of the
reference that has the same dimensions. -/
theorem C37_reset (e : Env D V H) (hd : e.base ≠ e.refDir) (listing : List P)
    (hn : listing.Nodup) (filters : Option (P → Bool)) (st st' : State D P V H) (done : List P)
    (hr : Reach e true st) (hc : NoCollision e st.files)
    (h : sync e listing filters st = (st', .ok done))
    (p : P) (hp : p ∈ listing) (part : Part V H) (c : AxisRef V H)
    (hpart : st.files e.base p = some part) (hck : part.check = some c)
    (l : List V) (dim : String) (ha : HasAxis e (st.files e.refDir p) l dim)
    (hno : ∀ extra, l ≠ c.values ++ extra) (hlaw : ∀ x y, e.eqv x y = true → x = y) :
    ∃ g part', st.files e.refDir p = some g ∧ st'.files e.base p = some part' ∧
      (∀ n, n ∉ st.metas.map (·.name) → (part'.vars.find? fun w => decide (w.name = n)) = none) ∧
      ∀ m ∈ st.metas, ∃ v, (part'.vars.find? fun w => decide (w.name = m.name)) = some v ∧
        Reset g m v := by
  have hg := reach_good e hd st hr
  obtain ⟨st1, b1, b2, b3, b4, hl, hmeta, href, hout, hin, hsel⟩ :=
    sync_outcome e hd listing hn filters st st' done hg.metas hg.sound hc h
  have hcur : st1.files e.base p = some part := by
    rcases b2 p with hb | ⟨hb, _⟩
    · rw [hb, hpart]
    · rw [hpart] at hb; cases hb
  have hs := (hg.sound.view p part hpart)
  obtain ⟨b, ho, _⟩ := hin p hp
  rw [hcur] at ho
  generalize hfin : st'.files e.base p = fin at ho
  cases ho with
  | same part0 c0 l d h1 h2 h3 h4 =>
    cases h1
    rw [hck] at h2; cases h2
    obtain ⟨rfl, rfl⟩ := hasAxis_unique h3 ha
    have := hc p part c _ _ hpart hck ha ((hs.sum c hck).symm.trans h4)
    exact absurd (by rw [← this, List.append_nil]) (hno [])
  | extend part0 part' c0 l d h1 h2 h3 h4 h5 h6 h7 =>
    cases h1
    rw [hck] at h2; cases h2
    obtain ⟨rfl, rfl⟩ := hasAxis_unique h3 ha
    obtain ⟨extra, _, hx⟩ := startsWith_spec e hlaw _ _ h5
    exact absurd hx (hno extra)
  | reset g part' l d h1 h2 h3 h4 h5 h6 h7 =>
    refine ⟨g, part', h2, rfl, h6, fun m hm => ?_⟩
    obtain ⟨v, hv, c1, c2, c3, c4, tm, htm, c5, t, ht, c6⟩ := h7 m hm
    refine ⟨v, hv, c1, c2, c3, c4, t, (getVar_some _ _ _ ht).1, by rw [c6]; rfl, ?_, ?_⟩
    · rw [(hg.ref.part p g h2).dims tm htm t ht, c5]
    · intro f hf
      rw [c6]
      refine ⟨rfl, fun idx hi => ?_⟩
      rw [tabulate_get _ _ _ hi, hf]
      rfl

/-- C37: if the axis did not change, nothing changes. -/
theorem C37_same (e : Env D V H) (hd : e.base ≠ e.refDir) (listing : List P)
    (hn : listing.Nodup) (filters : Option (P → Bool)) (st st' : State D P V H) (done : List P)
    (hr : Reach e true st) (hc : NoCollision e st.files)
    (h : sync e listing filters st = (st', .ok done))
    (p : P) (hp : p ∈ listing) (part : Part V H) (c : AxisRef V H)
    (hpart : st.files e.base p = some part) (hck : part.check = some c)
    (dim : String) (ha : HasAxis e (st.files e.refDir p) c.values dim) :
    st'.files e.base p = some part ∧ p ∉ done := by
  have hg := reach_good e hd st hr
  obtain ⟨st1, b1, b2, b3, b4, hl, hmeta, href, hout, hin, hsel⟩ :=
    sync_outcome e hd listing hn filters st st' done hg.metas hg.sound hc h
  have hcur : st1.files e.base p = some part := by
    rcases b2 p with hb | ⟨hb, _⟩
    · rw [hb, hpart]
    · rw [hpart] at hb; cases hb
  have hs := (hg.sound.view p part hpart)
  obtain ⟨b, ho, hdone⟩ := hin p hp
  rw [hcur] at ho
  generalize hfin : st'.files e.base p = fin at ho
  cases ho with
  | same part0 c0 l d h1 h2 h3 h4 => exact ⟨rfl, fun hx => by cases hdone.mpr hx⟩
  | extend part0 part' c0 l d h1 h2 h3 h4 h5 h6 h7 =>
    cases h1
    rw [hck] at h2; cases h2
    obtain ⟨rfl, rfl⟩ := hasAxis_unique h3 ha
    exact absurd (hs.sum c hck) h4
  | reset g part' l d h1 h2 h3 h4 h5 h6 h7 =>
    obtain ⟨rfl, rfl⟩ := hasAxis_unique h3 ha
    rcases h1 with h1 | ⟨part0, c0, h1, h2', h3', h4'⟩
    · cases h1
    · cases h1
      rw [hck] at h2'; cases h2'
      exact absurd (hs.sum c hck) h3'

/-- C37 as stated, first part: records appended to the reference never lose what the user
wrote. -/
def C37_kept : Prop :=
  ∀ (D P V H : Type) [DecidableEq D] [DecidableEq P] [DecidableEq H] (e : Env D V H)
    (listing : List P) (filters : Option (P → Bool)) (st st' : State D P V H) (done : List P),
    e.base ≠ e.refDir → listing.Nodup → Reach e true st → NoCollision e st.files →
    sync e listing filters st = (st', .ok done) →
    ∀ p ∈ listing, ∀ (part : Part V H) (c : AxisRef V H), st.files e.base p = some part →
      part.check = some c → ∀ (extra : List V) (dim : String),
      HasAxis e (st.files e.refDir p) (c.values ++ extra) dim →
      ∃ part', st'.files e.base p = some part' ∧
        ∀ (i : Nat) (v : Var V), part.vars[i]? = some v → ∃ v', part'.vars[i]? = some v' ∧
          Extended dim (c.values ++ extra).length v v'

/-- C37 as stated, second part: after a synchronisation the variables of the view have the
shape of the variables of the reference that have the same dimensions. -/
def C37_aligned : Prop :=
  ∀ (D P V H : Type) [DecidableEq D] [DecidableEq P] [DecidableEq H] (e : Env D V H)
    (listing : List P) (filters : Option (P → Bool)) (st st' : State D P V H) (done : List P),
    e.base ≠ e.refDir → listing.Nodup → Reach e true st → NoCollision e st.files →
    sync e listing filters st = (st', .ok done) →
    ∀ p ∈ listing, ∀ part g, st'.files e.base p = some part → st'.files e.refDir p = some g →
      ∀ v ∈ part.vars, ∀ t ∈ g.vars, t.dims = v.dims → v.array.shape = t.array.shape

/-- C37 as stated. -/
def C37_full : Prop := C37_kept ∧ C37_aligned

/-- The equality of numpy where zero stands for `NaT`, which is not equal to itself. -/
def natEq (x y : Nat) : Bool := x == y && x != 0

/-- A view whose axis holds `NaT`. -/
def natView : State Bool Unit Nat (List Nat) :=
  (addVariable (smallEnv natEq) [()] ["time"] xMeta
    (create (smallEnv natEq) [()] none (oneFile none (some (onlyTime [0, 1])))).1).1

theorem natView_update : ∃ v, (update (smallEnv natEq) ⟨false, false, 0, true, 1⟩ [()]
      (fun _ => true) none (fun _ _ => .ok [("x", vec [5, 6])]) natView).1.files true () =
        some ⟨[v], some ⟨[0, 1], "time", [0, 1]⟩⟩ ∧
      v.array.shape = [2] ∧ v.array.get [0] = some 5 := ⟨_, rfl, rfl, rfl⟩

theorem natView_reach : Reach (smallEnv natEq) true natView := by
  let e := smallEnv natEq
  let st0 := (create e [()] none (oneFile none (some (onlyTime [0, 1])))).1
  have r0 : Reach e true st0 := .created [()] none _ (fun _ => rfl) (onlyTime_good _ _ _) (by simp)
  exact .add st0 [()] _ _ r0 (by simp) (fun _ p _ _ =>
    ⟨⟨[], some ⟨[0, 1], "time", [0, 1]⟩⟩, _, [0, 1], "time", rfl, rfl,
      onlyTime_axis _ _, rfl, rfl, fun v hv => by simp at hv⟩)

/-- The user gave values to a variable of a view whose axis holds `NaT`. -/
theorem natReach : ∃ st, Reach (smallEnv natEq) true st ∧
    (∃ v, st.files true () = some ⟨[v], some ⟨[0, 1], "time", [0, 1]⟩⟩ ∧
      v.array.shape = [2] ∧ v.array.get [0] = some 5) ∧
    st.metas = [xMeta] ∧ st.saved = [xMeta] :=
  ⟨_, .update natView ⟨false, false, 0, true, 1⟩ [()] (fun _ => true) none
    (fun _ _ => .ok [("x", vec [5, 6])]) natView_reach (by simp) (.inl (by
      intro zds ind d hd x hx
      cases hd
      simp only [List.mem_singleton] at hx
      subst hx
      exact vec_arrOk _)), natView_update, update_metas (smallEnv natEq)
    ⟨false, false, 0, true, 1⟩ [()] (fun _ => true) none (fun _ _ => .ok [("x", vec [5, 6])]) natView⟩

/-- An axis that holds `NaT` does not start with itself for numpy: the values of the user are
lost when a record is appended. -/
theorem C37_counterexample_nat : ¬ C37_kept := by
  intro h
  let e := smallEnv natEq
  obtain ⟨st2, r2, hpart, hs2⟩ := natReach
  let st3 : State Bool Unit Nat (List Nat) :=
    { st2 with files := oneFile (st2.files true ()) (some (onlyTime [0, 1, 2])) }
  have r3 : Reach e true st3 := .reference st2 _ r2 (fun _ => rfl) (onlyTime_good _ _ _)
  obtain ⟨v, hv1, hv2, hv3⟩ := hpart
  have hs1 : st3.files = oneFile (some ⟨[v], some ⟨[0, 1], "time", [0, 1]⟩⟩)
      (some (onlyTime [0, 1, 2])) := by
    rw [← hv1]
  have hv1 : st3.files true () = some ⟨[v], some ⟨[0, 1], "time", [0, 1]⟩⟩ := hv1
  have hs2 : st3.metas = [xMeta] ∧ st3.saved = [xMeta] := hs2
  clear_value st3
  have hst3 : st3 = ⟨oneFile (some ⟨[v], some ⟨[0, 1], "time", [0, 1]⟩⟩)
      (some (onlyTime [0, 1, 2])), [xMeta], [xMeta]⟩ := by
    obtain ⟨a, b, c⟩ := st3
    have hs1 : a = _ := hs1
    obtain ⟨hb, hc⟩ : b = [xMeta] ∧ c = [xMeta] := hs2
    rw [hs1, hb, hc]
  have hres : ∃ w, (sync e [()] none st3).1.files true () =
      some ⟨[w], some ⟨[0, 1, 2], "time", [0, 1, 2]⟩⟩ ∧ w.array.get [0] = some 9 := by
    rw [hst3]
    exact ⟨_, rfl, rfl⟩
  obtain ⟨w, hw1, hw2⟩ := hres
  obtain ⟨part', h1, h2⟩ := h Bool Unit Nat (List Nat) e [()] none st3 (sync e [()] none st3).1
    [()] (by decide) (by simp) r3 (fun p part c l d _ _ _ h => h) (by rw [hst3]; rfl) () (by simp) _ _ hv1
    rfl [2] "time" (by rw [hst3]; exact onlyTime_axis _ _)
  have h1 : (sync e [()] none st3).1.files true () = some part' := h1
  rw [hw1] at h1
  cases h1
  obtain ⟨v', h3, h4⟩ := h2 0 v rfl
  cases h3
  have := h4.kept [0] (by rw [hv2]; exact (inBounds_iff _ _).mp rfl)
  rw [hw2, hv3] at this
  cases this

/-- The metadata of a variable with two dimensions. -/
def zMeta : VarMeta Nat := ⟨"z", ["time", "y"], none, 0⟩

/-- A view of a collection with two dimensions. -/
def wideEnv : Env Bool Nat (List Nat) := { smallEnv (· == ·) with refMeta := [timeMeta, zMeta] }

/-- A partition of a collection with two dimensions. -/
def withZ (l : List Nat) (k : Nat) : Part Nat (List Nat) :=
  { vars := (onlyTime l).vars ++ [⟨"z", false, ["time", "y"],
              tabulate [l.length, k] (fun _ => 0), none, 0⟩]
    check := none }

theorem withZ_axis (l : List Nat) (k : Nat) : HasAxis wideEnv (some (withZ l k)) l "time" :=
  ⟨_, rfl, _, rfl, rfl, fun _ _ h => h, rfl⟩

theorem withZ_good (view : Option (Part Nat (List Nat))) (l : List Nat) (k : Nat) :
    GoodRef wideEnv (oneFile view (some (withZ l k))) := by
  constructor
  · intro p r hr
    cases hr
    refine ⟨fun l' dim ha v hv ax hax => ?_, fun m hm v hv => ?_⟩
    · obtain ⟨rfl, rfl⟩ := hasAxis_unique ha (withZ_axis l k)
      simp only [withZ, onlyTime, List.cons_append, List.nil_append, List.mem_cons,
        List.not_mem_nil, or_false] at hv
      rcases hv with rfl | rfl <;> cases hax <;> rfl
    · simp only [wideEnv, List.mem_cons, List.not_mem_nil, or_false] at hm
      rcases hm with rfl | rfl <;> cases hv <;> rfl
  · intro p l' d ha
    exact (hasAxis_unique ha (withZ_axis l k)).2

/-- The partition of the reference is written again with the same axis and another size of
the other dimension: the view is left as it was. -/
theorem C37_counterexample_shape : ¬ C37_aligned := by
  intro h
  let e := wideEnv
  let st0 := (create e [()] none (oneFile none (some (withZ [1, 2] 3)))).1
  have r0 : Reach e true st0 := .created [()] none _ (fun _ => rfl) (withZ_good _ _ _) (by simp)
  let st1 := (addVariable e [()] ["time", "y"] ⟨"x", ["time", "y"], some 9, 0⟩ st0).1
  have r1 : Reach e true st1 := .add st0 [()] _ _ r0 (by simp) (fun _ p _ _ =>
    ⟨⟨[], some ⟨[1, 2], "time", [1, 2]⟩⟩, _, [1, 2], "time", rfl, rfl,
      withZ_axis _ _, rfl, rfl, fun v hv => by simp at hv⟩)
  let st2 : State Bool Unit Nat (List Nat) :=
    { st1 with files := oneFile (st1.files true ()) (some (withZ [1, 2] 4)) }
  have r2 : Reach e true st2 := .reference st1 _ r1 (fun _ => rfl) (withZ_good _ _ _)
  have hres : ∃ w, (sync e [()] none st2).1.files true () =
      some ⟨[w], some ⟨[1, 2], "time", [1, 2]⟩⟩ ∧ w.array.shape = [2, 3] ∧
      w.dims = ["time", "y"] := ⟨_, rfl, rfl, rfl⟩
  obtain ⟨w, hw1, hw2, hw3⟩ := hres
  have := h Bool Unit Nat (List Nat) e [()] none st2 (sync e [()] none st2).1
    [] (by decide) (by simp) r2 (fun p part c l d _ _ _ h => h) rfl () (by simp) _ (withZ [1, 2] 4)
    hw1 rfl w (List.mem_singleton.mpr rfl) _
    (List.mem_append_right _ (List.mem_singleton.mpr rfl)) hw3.symm
  rw [hw2] at this
  cases this

theorem C37_counterexample : ¬ C37_full := fun h => C37_counterexample_nat h.1

/-! ### C38 -/

/-- C38: `is_synced` changes nothing. -/
theorem C38_dry (e : Env D V H) (listing : List P) (hn : listing.Nodup) (st : State D P V H) :
    (isSynced e listing st).1 = st := by
  unfold isSynced
  split
  · rfl
  · have hf := runTasks_files e (syncOne e true st.metas) listing hn st.files
    have hq : (runTasks e (syncOne e true st.metas) st.files listing).1 = st.files := by
      funext d p
      rw [hf]
      split
      · next hp => rw [syncOne_dry, hp.1]
      · rfl
    split <;> next hr => rw [hr] at hq; cases hq; rfl

/-- C38: the partitions that the reference does not have are left as they are. -/
theorem C38_outside (e : Env D V H) (hd : e.base ≠ e.refDir) (listing : List P)
    (hn : listing.Nodup) (filters : Option (P → Bool)) (st st' : State D P V H) (done : List P)
    (hr : Reach e true st) (hc : NoCollision e st.files)
    (h : sync e listing filters st = (st', .ok done)) (p : P) (hp : p ∉ listing) :
    st'.files e.base p = st.files e.base p := by
  have hg := reach_good e hd st hr
  obtain ⟨st1, b1, b2, b3, b4, hl, hmeta, href, hout, hin, hsel⟩ :=
    sync_outcome e hd listing hn filters st st' done hg.metas hg.sound hc h
  rw [hout p hp]
  rcases b2 p with hb | ⟨_, hb, _⟩
  · exact hb
  · exact absurd hb hp

/-- C38: the partitions reported are exactly the partitions of the view whose axis differed
from the one of the reference, and the ones that were created with their variables; the other
ones did not change. -/
theorem C38_reported (e : Env D V H) (hd : e.base ≠ e.refDir) (listing : List P)
    (hn : listing.Nodup) (filters : Option (P → Bool)) (st st' : State D P V H) (done : List P)
    (hr : Reach e true st) (hc : NoCollision e st.files)
    (h : sync e listing filters st = (st', .ok done)) (p : P) (hp : p ∈ listing)
    (part : Part V H) (hpart : st.files e.base p = some part) :
    (p ∈ done ↔ ∃ c l d, part.check = some c ∧ HasAxis e (st.files e.refDir p) l d ∧
      c.values ≠ l) ∧ (p ∉ done → st'.files e.base p = some part) := by
  have hg := reach_good e hd st hr
  obtain ⟨st1, b1, b2, b3, b4, hl, hmeta, href, hout, hin, hsel⟩ :=
    sync_outcome e hd listing hn filters st st' done hg.metas hg.sound hc h
  have hcur : st1.files e.base p = some part := by
    rcases b2 p with hb | ⟨hb, _⟩
    · rw [hb, hpart]
    · rw [hpart] at hb; cases hb
  have hs := (hg.sound.view p part hpart)
  obtain ⟨b, ho, hdone⟩ := hin p hp
  rw [hcur] at ho
  generalize hfin : st'.files e.base p = fin at ho
  cases ho with
  | same part0 c0 l d h1 h2 h3 h4 =>
    cases h1
    have hno : p ∉ done := fun hx => by cases hdone.mpr hx
    refine ⟨⟨fun hx => absurd hx hno, ?_⟩, fun _ => rfl⟩
    rintro ⟨c, l', d', a1, a2, a3⟩
    rw [h2] at a1; cases a1
    obtain ⟨rfl, rfl⟩ := hasAxis_unique h3 a2
    exact absurd (hc p part c0 _ _ hpart h2 h3 ((hs.sum c0 h2).symm.trans h4)) a3
  | extend part0 part' c0 l d h1 h2 h3 h4 h5 h6 h7 =>
    cases h1
    have hy : p ∈ done := hdone.mp rfl
    refine ⟨⟨fun _ => ⟨c0, l, d, h2, h3, fun hx => ?_⟩, fun _ => hy⟩, fun hx => absurd hy hx⟩
    exact h4 (by rw [hs.sum c0 h2, hx])
  | reset g part' l d h1 h2 h3 h4 h5 h6 h7 =>
    have hy : p ∈ done := hdone.mp rfl
    rcases h1 with h1 | ⟨part0, c0, h1, h2', h3', h4'⟩
    · cases h1
    · cases h1
      refine ⟨⟨fun _ => ⟨c0, l, d, h2', h3, fun hx => ?_⟩, fun _ => hy⟩, fun hx => absurd hy hx⟩
      exact h3' (by rw [hs.sum c0 h2', hx])

/-- C38, what is true of the partitions the view does not have.  Those the filters do not
select, or all of them without filters, are created with all the variables of the view, filled
with their fill values; those the filters select are created without any variable. -/
theorem C38_missing_partial (e : Env D V H) (hd : e.base ≠ e.refDir) (listing : List P)
    (hn : listing.Nodup) (filters : Option (P → Bool)) (st st' : State D P V H) (done : List P)
    (hr : Reach e true st) (hc : NoCollision e st.files)
    (h : sync e listing filters st = (st', .ok done)) (p : P) (hp : p ∈ listing)
    (hmiss : st.files e.base p = none) :
    ((∀ f, filters = some f → f p = false) → p ∈ done ∧ ∃ g part',
      st.files e.refDir p = some g ∧ st'.files e.base p = some part' ∧
      (∀ n, n ∉ st.metas.map (·.name) → (part'.vars.find? fun w => decide (w.name = n)) = none) ∧
      ∀ m ∈ st.metas, ∃ v, (part'.vars.find? fun w => decide (w.name = m.name)) = some v ∧
        Reset g m v) ∧
    (∀ f, filters = some f → f p = true → p ∉ done ∧ ∃ part', st'.files e.base p = some part' ∧
      part'.vars = []) := by
  have hg := reach_good e hd st hr
  obtain ⟨st1, b1, b2, b3, b4, hl, hmeta, href, hout, hin, hsel⟩ :=
    sync_outcome e hd listing hn filters st st' done hg.metas hg.sound hc h
  obtain ⟨b, ho, hdone⟩ := hin p hp
  constructor
  · intro hf
    have hcur : st1.files e.base p = none := by
      rcases b2 p with hb | ⟨_, _, ⟨f, hf1, hf2⟩, _⟩
      · rw [hb, hmiss]
      · rw [hf f hf1] at hf2; cases hf2
    rw [hcur] at ho
    generalize hfin : st'.files e.base p = fin at ho
    cases ho with
    | same part0 c0 l d h1 => cases h1
    | extend part0 part' c0 l d h1 => cases h1
    | reset g part' l d h1 h2 h3 h4 h5 h6 h7 =>
      refine ⟨hdone.mp rfl, g, part', h2, rfl, h6, fun m hm => ?_⟩
      obtain ⟨v, hv, c1, c2, c3, c4, tm, htm, c5, t, ht, c6⟩ := h7 m hm
      refine ⟨v, hv, c1, c2, c3, c4, t, (getVar_some _ _ _ ht).1, by rw [c6]; rfl, ?_, ?_⟩
      · rw [(hg.ref.part p g h2).dims tm htm t ht, c5]
      · intro f hf
        rw [c6]
        refine ⟨rfl, fun idx hi => ?_⟩
        rw [tabulate_get _ _ _ hi, hf]
        rfl
  · intro f hf hfp
    have hcur : ∃ l dim, HasAxis e (st.files e.refDir p) l dim ∧
        st1.files e.base p = some ⟨[], some ⟨l, dim, e.hash l⟩⟩ := by
      rcases b2 p with hb | ⟨_, _, _, hb⟩
      · exact absurd (hb.trans hmiss) (hsel f hf p hp hfp)
      · exact hb
    obtain ⟨l, dim, ha, hcur⟩ := hcur
    rw [hcur] at ho
    generalize hfin : st'.files e.base p = fin at ho
    cases ho with
    | same part0 c0 l' d h1 => exact ⟨fun hx => (by cases hdone.mpr hx), _, rfl, rfl⟩
    | extend part0 part' c0 l' d h1 h2 h3 h4 =>
      cases h1; cases h2
      obtain ⟨rfl, rfl⟩ := hasAxis_unique h3 ha
      exact absurd rfl h4
    | reset g part' l' d h1 h2 h3 =>
      obtain ⟨rfl, rfl⟩ := hasAxis_unique h3 ha
      rcases h1 with h1 | ⟨part0, c0, h1, h2', h3', h4'⟩
      · cases h1
      · cases h1; cases h2'
        exact absurd rfl h3'

/-- C38 as stated, without filters: no partition is created. -/
def C38_none : Prop :=
  ∀ (D P V H : Type) [DecidableEq D] [DecidableEq P] [DecidableEq H] (e : Env D V H)
    (listing : List P) (st st' : State D P V H) (done : List P),
    e.base ≠ e.refDir → listing.Nodup → Reach e true st → NoCollision e st.files →
    sync e listing none st = (st', .ok done) →
    ∀ p, st.files e.base p = none → st'.files e.base p = none

/-- C38 as stated, with filters: the partitions selected are complete. -/
def C38_complete : Prop :=
  ∀ (D P V H : Type) [DecidableEq D] [DecidableEq P] [DecidableEq H] (e : Env D V H)
    (listing : List P) (f : P → Bool) (st st' : State D P V H) (done : List P),
    e.base ≠ e.refDir → listing.Nodup → Reach e true st → NoCollision e st.files →
    sync e listing (some f) st = (st', .ok done) →
    ∀ p ∈ listing, f p = true → ∃ part, st'.files e.base p = some part ∧
      ∀ m ∈ st.metas, ∃ v ∈ part.vars, v.name = m.name

/-- C38 as stated. -/
def C38_full : Prop := C38_none ∧ C38_complete

/-- A view created with filters that select nothing. -/
def emptyView : State Bool Unit Nat (List Nat) :=
  (create (smallEnv (· == ·)) [()] (some fun _ => false)
    (oneFile none (some (onlyTime [1, 2])))).1

theorem emptyView_reach : Reach (smallEnv (· == ·)) true emptyView :=
  .created [()] _ _ (fun _ => rfl) (onlyTime_good _ _ _) (by simp)

/-- Without filters the partition is created. -/
theorem C38_counterexample_created : ¬ C38_none := by
  intro h
  have := h Bool Unit Nat (List Nat) (smallEnv (· == ·)) [()] emptyView
    (sync (smallEnv (· == ·)) [()] none emptyView).1 [()] (by decide) (by simp) emptyView_reach
    (fun p part c l d _ _ _ h => h) rfl () rfl
  cases this

/-- With filters the partition is created without the variable of the view. -/
theorem C38_counterexample_selected : ¬ C38_complete := by
  intro h
  let e := smallEnv (· == ·)
  let st := (addVariable e [()] ["time"] xMeta emptyView).1
  have hr : Reach e true st := .add _ [()] _ _ emptyView_reach (by simp)
    (fun _ p _ hp => absurd rfl hp)
  obtain ⟨part, h1, h2⟩ := h Bool Unit Nat (List Nat) e [()] (fun _ => true) st
    (sync e [()] (some fun _ => true) st).1 [] (by decide) (by simp) hr
    (fun p part c l d _ _ _ h => h) rfl () (by simp) rfl
  cases h1
  obtain ⟨v, hv, _⟩ := h2 xMeta (List.mem_singleton.mpr rfl)
  cases hv

theorem C38_counterexample : ¬ C38_full := fun h => C38_counterexample_created h.1

/-- After that the view is said to be synchronised and cannot be loaded. -/
theorem C38_selected_not_loadable :
    let e := smallEnv (· == ·)
    let st := (sync e [()] (some fun _ => true)
      (addVariable e [()] ["time"] xMeta emptyView).1).1
    (isSynced e [()] st).2 = .ok true ∧
    load e (fun _ _ => true) [()] false (fun _ => true) none none st = .error .keyError :=
  ⟨rfl, rfl⟩

/-! ### The hypotheses can be met -/

/-- A view with a variable, in step with its reference. -/
def oneView (l : List Nat) : State Bool Unit Nat (List Nat) :=
  (addVariable (smallEnv (· == ·)) [()] ["time"] xMeta
    (create (smallEnv (· == ·)) [()] none (oneFile none (some (onlyTime l)))).1).1

/-- The view `oneView` after a change of the reference. -/
def changedView (l l' : List Nat) : State Bool Unit Nat (List Nat) :=
  { oneView l with files := oneFile ((oneView l).files true ()) (some (onlyTime l')) }

theorem changedView_reach : Reach (smallEnv (· == ·)) true (changedView [1, 2] [1, 2, 3]) ∧
    Reach (smallEnv (· == ·)) true (changedView [1, 2] [4, 2, 3]) := by
  have r0 : Reach (smallEnv (· == ·)) true (create (smallEnv (· == ·)) [()] none
      (oneFile none (some (onlyTime [1, 2])))).1 :=
    .created [()] none _ (fun _ => rfl) (onlyTime_good _ _ _) (by simp)
  have r1 : Reach (smallEnv (· == ·)) true (oneView [1, 2]) :=
    .add _ [()] _ _ r0 (by simp) (fun _ p _ _ =>
    ⟨⟨[], some ⟨[1, 2], "time", [1, 2]⟩⟩, _, [1, 2], "time", rfl, rfl,
      onlyTime_axis _ _, rfl, rfl, fun v hv => by simp at hv⟩)
  exact ⟨.reference _ _ r1 (fun _ => rfl) (onlyTime_good _ _ _),
    .reference _ _ r1 (fun _ => rfl) (onlyTime_good _ _ _)⟩

/-- `C37_append_partial`: a record was appended. -/
example : ∃ part', (sync (smallEnv (· == ·)) [()] none (changedView [1, 2] [1, 2, 3])).1.files
      true () = some part' ∧ part'.vars.length = 1 := by
  obtain ⟨part', h1, h2, _⟩ := C37_append_partial (smallEnv (· == ·)) (by decide) [()] (by simp) none
    (changedView [1, 2] [1, 2, 3]) _ [()] changedView_reach.1 (fun p part c l d _ _ _ h => h) rfl ()
    (by simp) _ ⟨[1, 2], "time", [1, 2]⟩ rfl rfl [3] (by simp) "time" (onlyTime_axis _ _)
    (by decide)
  exact ⟨part', h1, h2⟩

/-- `C37_reset`: the first value changed. -/
example : ∃ g part', (changedView [1, 2] [4, 2, 3]).files false () = some g ∧
    (sync (smallEnv (· == ·)) [()] none (changedView [1, 2] [4, 2, 3])).1.files true () =
      some part' := by
  obtain ⟨g, part', h1, h2, _⟩ := C37_reset (smallEnv (· == ·)) (by decide) [()] (by simp) none
    (changedView [1, 2] [4, 2, 3]) _ [()] changedView_reach.2 (fun p part c l d _ _ _ h => h) rfl ()
    (by simp) _ ⟨[1, 2], "time", [1, 2]⟩ rfl rfl [4, 2, 3] "time" (onlyTime_axis _ _)
    (fun extra h => by cases h) (fun x y h => by simpa [smallEnv] using h)
  exact ⟨g, part', h1, h2⟩

end Verif
