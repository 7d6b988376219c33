import Verif.Spec.View
import Verif.Lemmas.Update
import Verif.Lemmas.OverlapLoad
import Verif.Lemmas.Chunks

/-! Lemmas about views. -/

namespace Verif.Vw

open Nd Ds Upd Spec

variable {D P V H : Type} [DecidableEq D] [DecidableEq P]

theorem put_same (fs : Files D P V H) (d : D) (p : P) : put fs d p (fs d p) = fs := by
  funext d' p'
  simp only [put]
  split
  · next h => rw [h.1, h.2]
  · rfl

/-- What a transaction does: each task acts on its own partition. -/
theorem runTasks_files {α : Type} (e : Env D V H)
    (f : Option (Part V H) → Option (Part V H) → Option (Part V H) × Py α)
    (ps : List P) (hn : ps.Nodup) (fs : Files D P V H) (d : D) (q : P) :
    (runTasks e f fs ps).1 d q =
      if d = e.base ∧ q ∈ ps then (f (fs e.refDir q) (fs e.base q)).1 else fs d q := by
  induction ps generalizing fs with
  | nil => simp [runTasks]
  | cons p t ih =>
    have hstep : (runTasks e f fs (p :: t)).1 =
        (runTasks e f (put fs e.base p (f (fs e.refDir p) (fs e.base p)).1) t).1 := by
      simp only [runTasks]
      split <;> rfl
    rw [hstep, ih (List.nodup_cons.mp hn).2]
    have hp := (List.nodup_cons.mp hn).1
    by_cases hdb : d = e.base
    · subst hdb
      by_cases hq : q ∈ t
      · have : q ≠ p := fun h => hp (h ▸ hq)
        simp [hq, put, this]
      · by_cases hqp : q = p
        · subst hqp; simp [hq, put]
        · simp [hq, hqp, put]
    · simp [hdb, put]

/-- The result of a transaction. -/
theorem runTasks_result {α : Type} (e : Env D V H)
    (f : Option (Part V H) → Option (Part V H) → Option (Part V H) × Py α)
    (ps : List P) (hn : ps.Nodup) (fs : Files D P V H) :
    (∀ l, (runTasks e f fs ps).2 = .ok l → l.map (·.1) = ps ∧
      ∀ p x, (p, x) ∈ l → (f (fs e.refDir p) (fs e.base p)).2 = .ok x) ∧
    ((∀ p ∈ ps, ∃ x, (f (fs e.refDir p) (fs e.base p)).2 = .ok x) →
      ∃ l, (runTasks e f fs ps).2 = .ok l) := by
  induction ps generalizing fs with
  | nil =>
    refine ⟨fun l h => ?_, fun _ => ⟨[], rfl⟩⟩
    simp only [runTasks] at h
    cases h
    exact ⟨rfl, fun p x h => by simp at h⟩
  | cons p t ih =>
    have hp := (List.nodup_cons.mp hn).1
    have ih := ih (List.nodup_cons.mp hn).2 (put fs e.base p (f (fs e.refDir p) (fs e.base p)).1)
    have other : ∀ q ∈ t, put fs e.base p (f (fs e.refDir p) (fs e.base p)).1 e.refDir q =
        fs e.refDir q ∧ put fs e.base p (f (fs e.refDir p) (fs e.base p)).1 e.base q =
        fs e.base q := by
      intro q hq
      have : q ≠ p := fun h => hp (h ▸ hq)
      simp [put, this]
    constructor
    · intro l h
      simp only [runTasks] at h
      split at h
      · cases h
      · cases h
      · next x xs hx hxs =>
        cases h
        have := ih.1 xs hxs
        refine ⟨by rw [List.map_cons, this.1], fun q y hy => ?_⟩
        rcases List.mem_cons.mp hy with h | h
        · cases h; exact hx
        · have hqt : q ∈ t := by
            rw [← this.1]; exact List.mem_map.mpr ⟨_, h, rfl⟩
          have := this.2 q y h
          rw [(other q hqt).1, (other q hqt).2] at this
          exact this
    · intro h
      obtain ⟨x, hx⟩ := h p (List.mem_cons_self ..)
      obtain ⟨xs, hxs⟩ := ih.2 fun q hq => by
        rw [(other q hq).1, (other q hq).2]
        exact h q (List.mem_cons_of_mem _ hq)
      exact ⟨(p, x) :: xs, by simp only [runTasks, hx, hxs]⟩

/-- The results of a successful transaction. -/
theorem runTasks_ok {α : Type} (e : Env D V H)
    (f : Option (Part V H) → Option (Part V H) → Option (Part V H) × Py α)
    (ps : List P) (hn : ps.Nodup) (fs : Files D P V H)
    (l : List (P × α)) (h : (runTasks e f fs ps).2 = .ok l) (p : P) (hp : p ∈ ps) :
    ∃ x, (p, x) ∈ l ∧ (f (fs e.refDir p) (fs e.base p)).2 = .ok x := by
  obtain ⟨h1, h2⟩ := (runTasks_result e f ps hn fs).1 l h
  rw [← h1] at hp
  obtain ⟨⟨q, x⟩, hx, rfl⟩ := List.mem_map.mp hp
  exact ⟨x, hx, h2 q x hx⟩

omit [DecidableEq D] [DecidableEq P]

/-! ### The axis -/

theorem axisValues_spec (a : Arr V) (l : List V) (h : axisValues a = .ok l) :
    a.shape = [l.length] ∧
      ∀ (i : Nat) (x : V), l[i]? = some x → a.get [i] = some x := by
  unfold axisValues at h
  split at h
  · next n hn =>
    obtain ⟨h1, h2⟩ := mapPy_spec _ _ _ h
    rw [List.length_range] at h1
    refine ⟨by rw [hn, h1], fun i x hx => ?_⟩
    have hi : i < n := by
      have := (List.getElem?_eq_some_iff.mp hx).1
      omega
    obtain ⟨y, hy, hf⟩ := h2 i i (by simp [hi])
    rw [hx] at hy
    cases hy
    split at hf
    · cases hf
    · next v hv => cases hf; exact hv
  · cases h

theorem axisValues_ok (a : Arr V) (l : List V) (hs : a.shape = [l.length])
    (hv : ∀ (i : Nat) (x : V), l[i]? = some x → a.get [i] = some x) : axisValues a = .ok l := by
  have : ∃ r, axisValues a = .ok r := by
    unfold axisValues
    split
    · next n hn =>
      rw [hs] at hn
      cases hn
      apply mapPy_exists
      intro i hi
      have hi : i < l.length := by simpa using hi
      exact ⟨l[i], by simp only [hv i l[i] (by simp [hi])]⟩
    · next hn => exact absurd hs (hn _)
  obtain ⟨r, hr⟩ := this
  rw [hr]
  obtain ⟨h1, h2⟩ := axisValues_spec a r hr
  rw [hs] at h1
  have hlen : l.length = r.length := by simpa using h1
  congr 1
  apply List.ext_getElem?
  intro i
  by_cases hi : i < l.length
  · have := h2 i r[i] (by simp [← hlen, hi])
    rw [hv i l[i] (by simp [hi])] at this
    rw [List.getElem?_eq_getElem hi, List.getElem?_eq_getElem (by omega)]
    exact this.symm
  · rw [List.getElem?_eq_none (by omega), List.getElem?_eq_none (by omega)]

theorem axisRef_spec (e : Env D V H) (ref : Option (Part V H)) (a : AxisRef V H)
    (h : axisRef e ref = .ok a) :
    HasAxis e ref a.values a.dim ∧ a.sum = e.hash a.values := by
  unfold axisRef at h
  split at h
  · cases h
  · next r =>
    split at h
    · cases h
    · next v hv =>
      simp only [bind, Except.bind] at h
      split at h
      · cases h
      · next l hl =>
        split at h
        · cases h
        · next dim rest hd =>
          cases h
          obtain ⟨h1, h2⟩ := axisValues_spec _ _ hl
          exact ⟨⟨r, rfl, v, hv, h1, h2, by rw [hd]; rfl⟩, rfl⟩

theorem axisRef_ok (e : Env D V H) (ref : Option (Part V H)) (l : List V) (dim : String)
    (h : HasAxis e ref l dim) : axisRef e ref = .ok ⟨l, dim, e.hash l⟩ := by
  obtain ⟨r, rfl, v, hv, h1, h2, h3⟩ := h
  have hv' : getVar r.vars e.axis = some v := hv
  simp only [axisRef, hv', axisValues_ok _ _ h1 h2, bind, Except.bind]
  cases hd : v.dims with
  | nil => rw [hd] at h3; cases h3
  | cons d t =>
    rw [hd] at h3
    cases h3
    rfl

theorem hasAxis_unique {e : Env D V H} {ref : Option (Part V H)} {l l' : List V}
    {d d' : String} (h : HasAxis e ref l d) (h' : HasAxis e ref l' d') : l = l' ∧ d = d' := by
  have := (axisRef_ok e ref l d h).symm.trans (axisRef_ok e ref l' d' h')
  cases this
  exact ⟨rfl, rfl⟩

/-! ### The variables of a partition -/

theorem getVar_setVar (vars : List (Var V)) (v : Var V) (n : String) :
    getVar (setVar vars v) n = if v.name = n then some v else getVar vars n := by
  induction vars with
  | nil => by_cases h : v.name = n <;> simp [setVar, getVar, h]
  | cons w t ih =>
    simp only [setVar]
    split
    · next hw => rw [getVar_cons, getVar_cons, hw]; split <;> rfl
    · next hw =>
      rw [getVar_cons, getVar_cons, ih]
      by_cases h1 : w.name = n
      · have : v.name ≠ n := fun h => hw (h1.trans h.symm)
        simp [h1, this]
      · simp [h1]

/-- A variable created for the metadata `m`. -/
def Created (e : Env D V H) (group : List (Var V)) (m : VarMeta V) (v : Var V) : Prop :=
  v.name = m.name ∧ v.dims = m.dims ∧ v.fill = m.fill ∧ v.props = m.props ∧
  ∃ tm ∈ e.refMeta, tm.dims = m.dims ∧ ∃ t, getVar group tm.name = some t ∧
    v.array = tabulate t.array.shape (blank e m.fill)

theorem template_spec (e : Env D V H) (m : VarMeta V) (n : String) (h : template e m = .ok n) :
    ∃ tm ∈ e.refMeta, tm.dims = m.dims ∧ tm.name = n := by
  unfold template at h
  split at h
  · cases h
  · next t ht =>
    cases h
    exact ⟨t, List.mem_of_find?_eq_some ht, by simpa using List.find?_some ht, rfl⟩

theorem createArray_spec (e : Env D V H) (group : List (Var V)) (tmpl : String) (m : VarMeta V)
    (part part' : Part V H) (h : createArray e group tmpl m part = .ok part') :
    part'.check = part.check ∧ ∃ v t, part'.vars = setVar part.vars v ∧
      getVar group tmpl = some t ∧ v.name = m.name ∧ v.dims = m.dims ∧ v.fill = m.fill ∧
      v.props = m.props ∧ v.array = tabulate t.array.shape (blank e m.fill) := by
  unfold createArray at h
  split at h
  · cases h
  · next t ht =>
    cases h
    exact ⟨rfl, _, t, rfl, ht, rfl, rfl, rfl, rfl, rfl⟩

theorem createAll_spec (e : Env D V H) (group : List (Var V)) (metas : List (VarMeta V))
    (hn : (metas.map (·.name)).Nodup) (part part' : Part V H)
    (h : createAll e group metas part = .ok part') :
    part'.check = part.check ∧
    ((part.vars.map (·.name)).Nodup → (part'.vars.map (·.name)).Nodup) ∧
    (∀ n, n ∉ metas.map (·.name) → getVar part'.vars n = getVar part.vars n) ∧
    (∀ m ∈ metas, ∃ v, getVar part'.vars m.name = some v ∧ Created e group m v) := by
  induction metas generalizing part with
  | nil =>
    simp only [createAll] at h
    cases h
    exact ⟨rfl, id, fun _ _ => rfl, fun m hm => by simp at hm⟩
  | cons m t ih =>
    simp only [createAll, bind, Except.bind] at h
    split at h
    · cases h
    · next tmpl ht =>
      split at h
      · cases h
      · next part1 hp =>
        obtain ⟨hm, hnt⟩ := List.nodup_cons.mp hn
        obtain ⟨i1, i2, i3, i4⟩ := ih hnt part1 h
        obtain ⟨c1, v, tv, c2, c3, c4, c5, c6, c7, c8⟩ := createArray_spec e group tmpl m part part1 hp
        obtain ⟨tm, htm, hdims, rfl⟩ := template_spec e m tmpl ht
        refine ⟨i1.trans c1, fun h => i2 (by rw [c2]; exact setVar_nodup _ _ h),
          fun n hnn => ?_, fun m' hm' => ?_⟩
        · simp only [List.map_cons, List.mem_cons, not_or] at hnn
          rw [i3 n hnn.2, c2, getVar_setVar, if_neg]
          rw [c4]; exact fun h => hnn.1 h.symm
        · rcases List.mem_cons.mp hm' with rfl | hmt
          · refine ⟨v, ?_, c4, c5, c6, c7, tm, htm, hdims, tv, c3, c8⟩
            rw [i3 _ hm, c2, getVar_setVar, if_pos c4]
          · exact i4 m' hmt

/-- Creating the variables does not fail when the reference stores a variable for each of its
metadata, and has one with the same dimensions. -/
theorem createAll_ok (e : Env D V H) (group : List (Var V)) (metas : List (VarMeta V))
    (hg : ∀ m ∈ e.refMeta, m.name ∈ group.map (·.name))
    (ht : ∀ m ∈ metas, ∃ tm ∈ e.refMeta, tm.dims = m.dims) (part : Part V H) :
    ∃ part', createAll e group metas part = .ok part' := by
  induction metas generalizing part with
  | nil => exact ⟨part, rfl⟩
  | cons m t ih =>
    obtain ⟨tm, htm, hdims⟩ := ht m (List.mem_cons_self ..)
    have : ∃ n, template e m = .ok n := by
      unfold template
      split
      · next hf =>
        rw [List.find?_eq_none] at hf
        exact absurd (by simpa using hdims) (hf tm htm)
      · exact ⟨_, rfl⟩
    obtain ⟨n, hn⟩ := this
    obtain ⟨tm', htm', _, rfl⟩ := template_spec e m n hn
    have hsome := (getVar_isSome group tm'.name).mpr (hg tm' htm')
    obtain ⟨tv, htv⟩ := Option.isSome_iff_exists.mp hsome
    have : ∃ part1, createArray e group tm'.name m part = .ok part1 := by
      simp only [createArray, htv]
      exact ⟨_, rfl⟩
    obtain ⟨part1, hp⟩ := this
    obtain ⟨part', h⟩ := ih (fun m hm => ht m (List.mem_cons_of_mem _ hm)) part1
    exact ⟨part', by simp only [createAll, bind, Except.bind, hn, hp, h]⟩

theorem tabulate_arrOk (shape : List Nat) (f : List Nat → V) : ArrOk (tabulate shape f) := by
  intro idx
  show (∃ v, (if inBounds idx shape then some (f idx) else none) = some v) ↔ _
  rw [← inBounds_iff]
  show _ ↔ inBounds idx shape = true
  split <;> simp_all

theorem tabulate_get (shape : List Nat) (f : List Nat → V) (idx : List Nat)
    (h : Inside shape idx) : (tabulate shape f).get idx = some (f idx) := by
  show (if inBounds idx shape then some (f idx) else none) = _
  rw [if_pos ((inBounds_iff idx shape).mpr h)]

/-! ### Synchronising a partition -/

theorem syncPartition_spec (e : Env D V H) (metas : List (VarMeta V))
    (hn : (metas.map (·.name)).Nodup) (ref c : Option (Part V H)) (r : Py Unit)
    (h : syncPartition e metas ref = (c, r)) :
    (r = .ok () → ∃ g part l dim, ref = some g ∧ c = some part ∧ HasAxis e ref l dim ∧
      part.check = some ⟨l, dim, e.hash l⟩ ∧
      (part.vars.map (·.name)).Nodup ∧
      (∀ n, n ∉ metas.map (·.name) → getVar part.vars n = none) ∧
      (∀ m ∈ metas, ∃ v, getVar part.vars m.name = some v ∧ Created e g.vars m v)) ∧
    (∀ err, r = .error err → c = none) := by
  unfold syncPartition at h
  split at h
  · cases h
    exact ⟨fun h => (by cases h), fun _ _ => rfl⟩
  · next g =>
    split at h
    · cases h
      exact ⟨fun h => (by cases h), fun _ _ => rfl⟩
    · next part hp =>
      cases h
      refine ⟨fun _ => ?_, fun _ h => by cases h⟩
      simp only [bind, Except.bind] at hp
      split at hp
      · cases hp
      · next part1 h1 =>
        split at hp
        · cases hp
        · next a ha =>
          obtain ⟨c1, c2, c3, c4⟩ := createAll_spec e g.vars metas hn _ _ h1
          obtain ⟨a1, a2⟩ := axisRef_spec e _ a ha
          have c1' : part1.check = none := c1
          simp only [writeCheck, c1'] at hp
          cases hp
          refine ⟨g, _, a.values, a.dim, rfl, rfl, a1, ?_, c2 (by simp), fun n hn => ?_, c4⟩
          · rw [← a2]
          · exact c3 n hn

theorem syncPartition_ok (e : Env D V H) (metas : List (VarMeta V)) (g : Part V H)
    (hg : ∀ m ∈ e.refMeta, m.name ∈ g.vars.map (·.name))
    (ht : ∀ m ∈ metas, ∃ tm ∈ e.refMeta, tm.dims = m.dims)
    (l : List V) (dim : String) (ha : HasAxis e (some g) l dim) :
    ∃ c, syncPartition e metas (some g) = (c, .ok ()) := by
  cases hp : (do
      let part ← createAll e g.vars metas { vars := [], check := none }
      let a ← axisRef e (some g)
      writeCheck part a) with
  | ok part => exact ⟨some part, by simp only [syncPartition, hp]⟩
  | error err =>
    exfalso
    obtain ⟨part1, h1⟩ := createAll_ok e g.vars metas hg ht ⟨[], none⟩
    simp only [bind, Except.bind, h1, axisRef_ok e _ l dim ha, writeCheck] at hp
    split at hp
    · cases hp
    · next c hc =>
      -- the new partition has no checksum
      have : ∀ (ms : List (VarMeta V)) (p p' : Part V H), createAll e g.vars ms p = .ok p' →
          p'.check = p.check := by
        intro ms
        induction ms with
        | nil => intro p p' h; simp only [createAll] at h; cases h; rfl
        | cons m t ih =>
          intro p p' h
          simp only [createAll, bind, Except.bind] at h
          split at h
          · cases h
          · split at h
            · cases h
            · next p1 hp1 => exact (ih _ _ h).trans (createArray_spec e _ _ _ _ _ hp1).1
      rw [this _ _ _ h1] at hc
      cases hc

/-! ### Extending a partition -/

theorem resized_length (e : Env D V H) (l : List V) (n : Nat) : (resized e l n).length = n := by
  simp only [resized, List.length_take, List.length_append, List.length_map, List.length_range]
  omega

theorem inside_set (shape idx : List Nat) (ax n m : Nat) (hn : shape[ax]? = some n) (hle : n ≤ m)
    (h : Inside shape idx) : Inside (shape.set ax m) idx := by
  refine ⟨by simpa using h.1, fun i x k hx hk => ?_⟩
  rw [List.getElem?_set] at hk
  split at hk
  · next hi =>
    subst hi
    split at hk
    · cases hk
      have := h.2 ax x n hx hn
      omega
    · cases hk
  · exact h.2 i x k hx hk

theorem extendVar_spec (e : Env D V H) (a : AxisRef V H) (v v' : Var V) (n : Nat)
    (ha : ArrOk v.array) (hlen : ∀ ax, v.dims.idxOf? a.dim = some ax → v.array.shape[ax]? = some n)
    (hle : n ≤ a.values.length) (h : extendVar e a v = .ok v') :
    Extended a.dim a.values.length v v' ∧ ArrOk v'.array := by
  unfold extendVar at h
  split at h
  · next hx =>
    cases h
    exact ⟨⟨⟨rfl, rfl, rfl, rfl⟩, fun _ => rfl, fun ax h => (by rw [hx] at h; cases h),
      fun _ _ => rfl, fun idx h1 h2 => absurd h1 h2⟩, ha⟩
  · next ax hx =>
    split at h
    · next hlt =>
      cases h
      refine ⟨⟨⟨rfl, rfl, rfl, rfl⟩, fun hd => ?_, fun ax' h' => ?_, fun idx hi => ?_,
        fun idx hi hni f hf => ?_⟩, tabulate_arrOk _ _⟩
      · rw [List.idxOf?_eq_none_iff.mpr hd] at hx
        cases hx
      · rw [hx] at h'; cases h'; rfl
      · obtain ⟨x, hxv⟩ := (ha idx).mpr hi
        show (tabulate _ _).get idx = _
        rw [tabulate_get _ _ _ (inside_set _ _ _ n _ (hlen ax hx) hle hi), hxv]
      · have hi : Inside (v.array.shape.set ax a.values.length) idx := hi
        show (tabulate _ _).get idx = _
        rw [tabulate_get _ _ _ hi]
        cases hg : v.array.get idx with
        | none => simp only [blank, hf]
        | some x => exact absurd ((ha idx).mp ⟨x, hg⟩) hni
    · cases h

theorem extendPartition_spec (e : Env D V H) (part : Part V H) (chk a : AxisRef V H)
    (c : Option (Part V H)) (r : Py Unit) (hc : part.check = some chk) (hd : chk.dim = a.dim)
    (h : extendPartition e part a = (c, r)) :
    (r = .ok () → ∃ part', c = some part' ∧ part'.check = some ⟨a.values, a.dim, a.sum⟩ ∧
      mapPy (extendVar e a) part.vars = .ok part'.vars) ∧ (∀ err, r = .error err → c = none) := by
  unfold extendPartition at h
  split at h
  · cases h
    exact ⟨fun h => (by cases h), fun _ _ => rfl⟩
  · next part' hp =>
    cases h
    refine ⟨fun _ => ?_, fun _ h => by cases h⟩
    simp only [bind, Except.bind] at hp
    split at hp
    · cases hp
    · next vars hv =>
      simp only [writeCheck, hc, Option.map_some, extendCheck, hd, if_true, resized_length] at hp
      cases hp
      exact ⟨_, rfl, rfl, hv⟩

theorem extendPartition_ok (e : Env D V H) (part : Part V H) (chk a : AxisRef V H)
    (hc : part.check = some chk) (hd : chk.dim = a.dim)
    (hl : Long a.dim chk.values.length part.vars) :
    ∃ c, extendPartition e part a = (c, .ok ()) := by
  obtain ⟨vars, hv⟩ := mapPy_exists (extendVar e a) part.vars (by
    intro v hv
    unfold extendVar
    split
    · exact ⟨_, rfl⟩
    · next ax hx =>
      have := (List.getElem?_eq_some_iff.mp (hl v hv ax hx)).1
      rw [if_pos this]
      exact ⟨_, rfl⟩)
  refine ⟨some ⟨vars, some ⟨a.values, a.dim, a.sum⟩⟩, ?_⟩
  · simp only [extendPartition, bind, Except.bind, hv, writeCheck, hc, Option.map_some,
      extendCheck, hd, if_true, resized_length]

/-! ### One partition -/

/-- What `_sync` did to a partition. -/
inductive Outcome (e : Env D V H) (metas : List (VarMeta V)) (ref cur : Option (Part V H)) :
    Option (Part V H) → Bool → Prop where
  /-- nothing: the checksums are equal -/
  | same (part : Part V H) (c : AxisRef V H) (l : List V) (dim : String) :
      cur = some part → part.check = some c → HasAxis e ref l dim → c.sum = e.hash l →
      Outcome e metas ref cur cur false
  /-- the partition was created or reset -/
  | reset (g part' : Part V H) (l : List V) (dim : String) :
      (cur = none ∨ ∃ part c, cur = some part ∧ part.check = some c ∧ c.sum ≠ e.hash l ∧
        startsWith e c.values l = false) →
      ref = some g → HasAxis e ref l dim → part'.check = some ⟨l, dim, e.hash l⟩ →
      (part'.vars.map (·.name)).Nodup →
      (∀ n, n ∉ metas.map (·.name) → getVar part'.vars n = none) →
      (∀ m ∈ metas, ∃ v, getVar part'.vars m.name = some v ∧ Created e g.vars m v) →
      Outcome e metas ref cur (some part') true
  /-- the partition was extended -/
  | extend (part part' : Part V H) (c : AxisRef V H) (l : List V) (dim : String) :
      cur = some part → part.check = some c → HasAxis e ref l dim → c.sum ≠ e.hash l →
      startsWith e c.values l = true → part'.check = some ⟨l, dim, e.hash l⟩ →
      mapPy (extendVar e ⟨l, dim, e.hash l⟩) part.vars = .ok part'.vars →
      Outcome e metas ref cur (some part') true

section
variable [DecidableEq H]

theorem syncOne_spec (e : Env D V H) (metas : List (VarMeta V))
    (hn : (metas.map (·.name)).Nodup) (ref cur c' : Option (Part V H)) (b : Bool)
    (hdim : ∀ part c l d, cur = some part → part.check = some c → HasAxis e ref l d → c.dim = d)
    (h : syncOne e false metas ref cur = (c', .ok b)) : Outcome e metas ref cur c' b := by
  unfold syncOne at h
  split at h
  · simp only [Bool.false_eq_true, if_false] at h
    split at h
    · next c hs =>
      cases h
      obtain ⟨g, part, l, dim, h1, rfl, h3, h4, h5, h6, h7⟩ := (syncPartition_spec e metas hn _ _ _ hs).1 rfl
      exact .reset g part l dim (.inl rfl) h1 h3 h4 h5 h6 h7
    · cases h
  · next part =>
    split at h
    · cases h
    · next c hc =>
      split at h
      · cases h
      · next a ha =>
        obtain ⟨a1, a2⟩ := axisRef_spec e ref a ha
        split at h
        · next hsum =>
          have hsum : c.sum ≠ e.hash a.values := fun h => hsum (a2.trans h.symm)
          split at h
          · next hst =>
            simp only [Bool.false_eq_true, if_false] at h
            split at h
            · next c2 hx =>
              cases h
              obtain ⟨part', rfl, h2, h3⟩ := (extendPartition_spec e part c a _ _ hc
                (hdim part c _ _ rfl hc a1) hx).1 rfl
              obtain ⟨l, d, s⟩ := a
              have a2 : s = e.hash l := a2
              subst a2
              exact .extend part part' c l d rfl hc a1 hsum hst h2 h3
            · cases h
          · next hst =>
            simp only [Bool.false_eq_true, if_false] at h
            split at h
            · next c2 hs =>
              cases h
              obtain ⟨g, part', l, dim, h1, rfl, h3, h4, h5, h6, h7⟩ :=
                (syncPartition_spec e metas hn _ _ _ hs).1 rfl
              obtain ⟨rfl, rfl⟩ := hasAxis_unique h3 a1
              exact .reset g part' _ _ (.inr ⟨part, c, rfl, hc, hsum, by simpa using hst⟩)
                h1 h3 h4 h5 h6 h7
            · cases h
        · next hsum =>
          have hsum : c.sum = e.hash a.values := by
            have := Decidable.not_not.mp hsum
            rw [← this, a2]
          cases h
          exact .same part c a.values a.dim rfl hc a1 hsum

/-- A dry run changes nothing. -/
theorem syncOne_dry (e : Env D V H) (metas : List (VarMeta V)) (ref cur : Option (Part V H)) :
    (syncOne e true metas ref cur).1 = cur := by
  unfold syncOne
  split
  · rfl
  · split
    · rfl
    · split
      · rfl
      · split
        · split <;> rfl
        · rfl

/-- A partition with the right checksum is left as it is. -/
theorem syncOne_same (e : Env D V H) (dry : Bool) (metas : List (VarMeta V))
    (ref : Option (Part V H)) (part : Part V H) (c : AxisRef V H) (l : List V) (dim : String)
    (hc : part.check = some c) (ha : HasAxis e ref l dim) (hs : c.sum = e.hash l) :
    syncOne e dry metas ref (some part) = (some part, .ok false) := by
  simp only [syncOne, hc, axisRef_ok e ref l dim ha, hs, ne_eq, not_true, if_false]

/-- The result of a dry run tells whether there is something to do. -/
theorem syncOne_dry_result (e : Env D V H) (metas : List (VarMeta V)) (ref cur : Option (Part V H))
    (b : Bool) (h : (syncOne e true metas ref cur).2 = .ok b) :
    b = false ↔ ∃ part c l dim, cur = some part ∧ part.check = some c ∧ HasAxis e ref l dim ∧
      c.sum = e.hash l := by
  constructor
  · intro hb
    subst hb
    unfold syncOne at h
    split at h
    · cases h
    · next part =>
      split at h
      · cases h
      · next c hc =>
        split at h
        · cases h
        · next a ha =>
          obtain ⟨a1, a2⟩ := axisRef_spec e ref a ha
          split at h
          · split at h <;> cases h
          · next hsum =>
            exact ⟨part, c, _, _, rfl, hc, a1, by
              rw [← Decidable.not_not.mp hsum, a2]⟩
  · rintro ⟨part, c, l, dim, rfl, hc, ha, hs⟩
    rw [syncOne_same e true metas ref part c l dim hc ha hs] at h
    cases h
    rfl

theorem syncOne_ok (e : Env D V H) (metas : List (VarMeta V)) (g : Part V H)
    (cur : Option (Part V H)) (l : List V) (dim : String)
    (hg : ∀ m ∈ e.refMeta, m.name ∈ g.vars.map (·.name))
    (ht : ∀ m ∈ metas, ∃ tm ∈ e.refMeta, tm.dims = m.dims)
    (ha : HasAxis e (some g) l dim)
    (hcur : ∀ part, cur = some part → ∃ c, part.check = some c ∧ c.dim = dim ∧
      Long dim c.values.length part.vars) :
    ∃ c' b, syncOne e false metas (some g) cur = (c', .ok b) := by
  obtain ⟨c, hs⟩ := syncPartition_ok e metas g hg ht l dim ha
  unfold syncOne
  split
  · exact ⟨c, true, by simp only [Bool.false_eq_true, if_false, hs]⟩
  · next part =>
    obtain ⟨chk, h1, h2, h3⟩ := hcur part rfl
    obtain ⟨c2, hx⟩ := extendPartition_ok e part chk ⟨l, dim, e.hash l⟩ h1 h2 h3
    simp only [h1, axisRef_ok e _ l dim ha, Bool.false_eq_true, if_false, hs, hx]
    split
    · split
      · exact ⟨_, _, rfl⟩
      · exact ⟨_, _, rfl⟩
    · exact ⟨_, _, rfl⟩

end

end Verif.Vw
