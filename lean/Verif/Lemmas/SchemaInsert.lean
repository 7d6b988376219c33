import Verif.Lemmas.Schema
import Verif.Props.Schema
import Verif.Props.Arguments
import Verif.Props.Dataset

/-! Insertions keep the schema of a collection. -/

namespace Verif

open Nd Ds Upd Spec Sch

variable {P V : Type} [DecidableEq P]

/-- The arrays have one axis for each dimension. -/
def Ranked (vars : List (Var V)) : Prop :=
  ∀ v ∈ vars, v.array.shape.length = v.dims.length

theorem consistent_sizes {ds : Dataset V} (hc : Consistent ds) (hr : Ranked ds.vars) :
    ∃ size : String → Nat, ∀ v ∈ ds.vars, v.array.shape = v.dims.map size := by
  refine ⟨fun d => match ds.dims.lookup d with | some n => n | none => 0, ?_⟩
  intro v hv
  apply List.ext_getElem?
  intro i
  rw [List.getElem?_map]
  cases hd : v.dims[i]? with
  | none =>
    have := List.getElem?_eq_none_iff.1 hd
    rw [← hr v hv] at this
    simpa using this
  | some d =>
    obtain ⟨n, h1, h2⟩ := hc.sizes v hv i d hd
    simp only [h1, Option.map_some, h2]

/-! ### A complete dataset -/

/-- The variables of a dataset are those of the metadata. -/
structure Whole (o : Obj V) (vars : List (Var V)) : Prop where
  nodup : (vars.map (·.name)).Nodup
  names : ∀ n, n ∈ vars.map (·.name) ↔ n ∈ o.metas.map (·.name)
  dims : ∀ v ∈ vars, ∀ m ∈ o.metas, m.name = v.name → v.dims = m.dims
  ranks : Ranked vars

theorem sizes_length (dims : List (String × Nat)) (l : List String)
    (h : ¬ ∃ d ∈ l, dims.lookup d = none) : (sizes dims l).length = l.length := by
  induction l with
  | nil => rfl
  | cons d t ih =>
    have hd : ∃ n, dims.lookup d = some n := by
      cases hl : dims.lookup d with
      | none => exact absurd ⟨d, List.mem_cons_self, hl⟩ h
      | some n => exact ⟨n, rfl⟩
    obtain ⟨n, hn⟩ := hd
    have := ih fun ⟨x, hx, e⟩ => h ⟨x, List.mem_cons_of_mem _ hx, e⟩
    simp only [sizes, List.filterMap_cons, hn, List.length_cons]
    simp only [sizes] at this
    rw [this]

omit [DecidableEq P] in
theorem complete_whole {w : World P V} {o : Obj V} (hm : (o.metas.map (·.name)).Nodup)
    {ms : List (VarMeta V)} (hms : ∀ m ∈ ms, m ∈ o.metas) (hnd : (ms.map (·.name)).Nodup)
    {ds ds' : Dataset V} (hc : Consistent ds) (hr : Ranked ds.vars)
    (hnew : ∀ m ∈ ms, m.name ∉ ds.vars.map (·.name))
    (hd : ∀ v ∈ ds.vars, ∀ m ∈ o.metas, m.name = v.name → v.dims = m.dims)
    (h : complete w ds ms = (ds', .ok ())) :
    Consistent ds' ∧ Ranked ds'.vars ∧
    (∀ v ∈ ds'.vars, ∀ m ∈ o.metas, m.name = v.name → v.dims = m.dims) ∧
    ∀ n, n ∈ ds'.vars.map (·.name) ↔ n ∈ ds.vars.map (·.name) ∨ n ∈ ms.map (·.name) := by
  induction ms generalizing ds with
  | nil =>
    simp only [complete] at h
    cases h
    exact ⟨hc, hr, hd, fun n => by simp⟩
  | cons m t ih =>
    rw [List.map_cons, List.nodup_cons] at hnd
    have hmn := hnew m List.mem_cons_self
    simp only [complete] at h
    have hcons := C44_add_variable_partial ds hc m w.noneValue none (fun a ha => by cases ha)
    split at h
    · next ds1 heq =>
      rw [heq] at hcons
      have hv : ∃ v : Var V, v.name = m.name ∧ v.dims = m.dims ∧
          v.array.shape.length = v.dims.length ∧ ds1.vars = ds.vars ++ [v] := by
        unfold Ds.addVariable at heq
        split at heq
        · cases heq
        · next hdims =>
          simp only at heq
          split at heq
          · cases heq
          · next a ha =>
            let v : Var V := { name := m.name, delayed := ds.delayed, dims := m.dims, array := a,
                               fill := m.fill, props := m.props }
            have hvars : ds1.vars = setVar ds.vars v := by
              have := congrArg (fun r => r.1.vars) heq
              exact this.symm
            rw [setVar_new ds.vars v hmn] at hvars
            refine ⟨v, rfl, rfl, ?_, hvars⟩
            simp only [bind, Except.bind] at ha
            have hsh : a.shape = sizes ds.dims m.dims := by
              cases hf : m.fill with
              | some x => rw [hf] at ha; cases ha; rfl
              | none =>
                rw [hf] at ha
                simp only at ha
                cases hnv : w.noneValue with
                | error e => rw [hnv] at ha; cases ha
                | ok x => rw [hnv] at ha; cases ha; rfl
            show a.shape.length = m.dims.length
            rw [hsh, sizes_length _ _ hdims]
      obtain ⟨v, v1, v2, v3, v4⟩ := hv
      obtain ⟨i1, i2, i3, i4⟩ := ih (fun x hx => hms x (List.mem_cons_of_mem _ hx)) hnd.2
        (ds := ds1) hcons
        (by
          intro x hx
          rw [v4, List.mem_append, List.mem_singleton] at hx
          rcases hx with hx | rfl
          · exact hr x hx
          · exact v3)
        (by
          intro x hx hcon
          rw [v4, List.map_append, List.mem_append] at hcon
          rcases hcon with hcon | hcon
          · exact hnew x (List.mem_cons_of_mem _ hx) hcon
          · simp only [List.map_cons, List.map_nil, List.mem_singleton] at hcon
            exact hnd.1 (List.mem_map.2 ⟨x, hx, by rw [hcon, v1]⟩))
        (by
          intro x hx y hy he
          rw [v4, List.mem_append, List.mem_singleton] at hx
          rcases hx with hx | rfl
          · exact hd x hx y hy he
          · rw [v2, metas_unique hm hy (hms m List.mem_cons_self) (by rw [he, v1])])
        h
      refine ⟨i1, i2, i3, fun n => ?_⟩
      rw [i4 n, v4]
      simp only [List.map_append, List.map_cons, List.map_nil, List.mem_append,
        List.mem_cons, List.not_mem_nil, or_false, v1]
      constructor
      · rintro ((h | h) | h)
        · exact .inl h
        · exact .inr (.inl h)
        · exact .inr (.inr h)
      · rintro (h | h | h)
        · exact .inl (.inl h)
        · exact .inl (.inr h)
        · exact .inr h
    · cases h

omit [DecidableEq P] in
/-- The dataset that is written. -/
theorem whole_of_insertable {w : World P V} {o : Obj V} (hm : (o.metas.map (·.name)).Nodup)
    {ds ds1 zds : Dataset V} {ms : List (VarMeta V)} (hi : Insertable o ds)
    (h1 : missing o.metas ds = .ok ms) (h2 : complete w ds ms = (ds1, .ok ()))
    (h3 : setForInsertion ds1 = .ok zds) : Whole o zds.vars ∧ Consistent zds := by
  unfold missing at h1
  split at h1
  · cases h1
  · next hex =>
    cases h1
    obtain ⟨c1, c2, c3, c4⟩ := complete_whole hm
      (ms := o.metas.filter fun m => decide (m.name ∉ ds.vars.map (·.name)))
      (fun m h => (List.mem_filter.1 h).1)
      (hm.sublist (List.Sublist.map _ List.filter_sublist)) hi.consistent hi.ranks
      (fun m hmem => by simpa using (List.mem_filter.1 hmem).2) hi.dims h2
    obtain ⟨m1, m2, _⟩ := mk_spec _ _ _ _ _ _ h3
    have hv : zds.vars = ds1.vars := by
      rw [m2]
      have := foldl_setVar_id ds1.vars [] (by simpa using c1.names)
      simpa using this
    rw [hv]
    refine ⟨⟨c1.names, fun n => ?_, c3, c2⟩, m1⟩
    rw [c4 n]
    constructor
    · rintro (h | h)
      · obtain ⟨v, hv, rfl⟩ := List.mem_map.1 h
        exact Classical.byContradiction fun hc => hex ⟨v, hv, hc⟩
      · obtain ⟨m, hmem, rfl⟩ := List.mem_map.1 h
        exact List.mem_map_of_mem (List.mem_filter.1 hmem).1
    · intro h
      obtain ⟨m, hmem, rfl⟩ := List.mem_map.1 h
      by_cases hc : m.name ∈ ds.vars.map (·.name)
      · exact .inl hc
      · exact .inr (List.mem_map_of_mem (List.mem_filter.2 ⟨hmem, by simpa using hc⟩))

/-! ### The variables that are split -/

/-- The variables of a dataset are those of the metadata that are split. -/
structure Part (o : Obj V) (ds : Dataset V) : Prop where
  consistent : Consistent ds
  names : ∀ n, n ∈ ds.vars.map (·.name) ↔ ∃ m ∈ o.metas, m.name = n ∧ o.dim ∈ m.dims
  dims : ∀ v ∈ ds.vars, ∀ m ∈ o.metas, m.name = v.name → v.dims = m.dims
  ranks : Ranked ds.vars

theorem selectByDims_vars {ds ds' : Dataset V} (hc : Consistent ds) {d : String} {b : Bool}
    (h : selectByDims ds [d] b = .ok ds') :
    Consistent ds' ∧ ds'.vars = ds.vars.filter fun v => decide (d ∈ v.dims) == b := by
  obtain ⟨m1, m2, _⟩ := mk_spec _ _ _ _ _ _ h
  refine ⟨m1, ?_⟩
  rw [m2]
  have hf : (ds.vars.filter fun v : Var V =>
      if [d] = [] then v.dims.isEmpty == b else (v.dims.any fun x => decide (x ∈ [d])) == b) =
      ds.vars.filter fun v => decide (d ∈ v.dims) == b := by
    apply List.filter_congr
    intro v _
    rw [if_neg (by simp)]
    congr 1
    rw [Bool.eq_iff_iff]
    simp
  rw [hf]
  have := foldl_setVar_id (ds.vars.filter fun v => decide (d ∈ v.dims) == b) []
    (by simpa using filter_nodup _ _ _ hc.names)
  simpa using this

theorem filter_part {o : Obj V} {vars : List (Var V)}
    (hw : Whole o vars) (b : Bool) (n : String) :
    n ∈ (vars.filter fun v => decide (o.dim ∈ v.dims) == b).map (·.name) ↔
      ∃ m ∈ o.metas, m.name = n ∧ (decide (o.dim ∈ m.dims) == b) = true := by
  constructor
  · intro h
    obtain ⟨v, hv, rfl⟩ := List.mem_map.1 h
    obtain ⟨h1, h2⟩ := List.mem_filter.1 hv
    obtain ⟨m, hmem, he⟩ := List.mem_map.1 ((hw.names v.name).1 (List.mem_map_of_mem h1))
    refine ⟨m, hmem, he, ?_⟩
    rw [← hw.dims v h1 m hmem he]
    exact h2
  · rintro ⟨m, hmem, rfl, h2⟩
    obtain ⟨v, hv, he⟩ := List.mem_map.1 ((hw.names m.name).2 (List.mem_map_of_mem hmem))
    refine List.mem_map.2 ⟨v, List.mem_filter.2 ⟨hv, ?_⟩, he⟩
    rw [hw.dims v hv m hmem he.symm]
    exact h2

omit [DecidableEq P] in
/-- The immutable dataset is written, and the others are kept. -/
theorem takeImmutable_spec {o : Obj V} (haxis : o.imm = true → o.axis = o.dim)
    {fs fs' : Files P V} (hs : Aligned o fs) {zds : Dataset V} (hw : Whole o zds.vars)
    (hc : Consistent zds) {r : Py (Dataset V)} (h : takeImmutable o zds fs = (fs', r)) :
    Aligned o fs' ∧ fs'.parts = fs.parts ∧ fs'.config = fs.config ∧
    (∀ iv, fs.imm = some iv → fs'.imm = some iv) ∧
    ∀ zds', r = .ok zds' → Part o zds' ∧ (o.imm = true → fs'.imm ≠ none) := by
  unfold takeImmutable at h
  split at h
  · next himm =>
    have ha := haxis himm
    have hpart : ∀ zds', selectByDims zds [o.axis] true = .ok zds' → Part o zds' := by
      intro zds' hz
      rw [ha] at hz
      obtain ⟨z1, z2⟩ := selectByDims_vars hc hz
      refine ⟨z1, fun n => ?_, ?_, ?_⟩
      · rw [z2, filter_part hw true n]
        simp
      · intro v hv
        rw [z2] at hv
        exact hw.dims v (List.mem_filter.1 hv).1
      · intro v hv
        rw [z2] at hv
        exact hw.ranks v (List.mem_filter.1 hv).1
    split at h
    · next iv hiv =>
      cases h
      exact ⟨hs, rfl, rfl, fun _ h => h, fun zds' hz => ⟨hpart zds' hz, fun _ => by
        rw [hiv]; simp⟩⟩
    · next hiv =>
      split at h
      · cases h
        exact ⟨hs, rfl, rfl, fun _ h => h, fun _ hz => by cases hz⟩
      · next ids hids =>
        split at h
        · cases h
          exact ⟨hs, rfl, rfl, fun _ h => h, fun _ hz => by cases hz⟩
        · cases h
          rw [ha] at hids
          obtain ⟨z1, z2⟩ := selectByDims_vars hc hids
          refine ⟨⟨hs.nodup, hs.keys, hs.config, hs.parts, hs.immutable, fun _ _ => by simp, ?_, hs.bounded⟩,
            rfl, rfl, (fun iv h => by rw [hiv] at h; cases h),
            fun zds' hz => ⟨hpart zds' hz, fun _ => by simp⟩⟩
          intro iv he n
          cases he
          rw [z2, filter_part hw false n]
          simp
  · next himm =>
    cases h
    refine ⟨hs, rfl, rfl, fun _ h => h, fun zds' hz => ?_⟩
    cases hz
    refine ⟨⟨hc, fun n => ?_, hw.dims, hw.ranks⟩, fun h => absurd h himm⟩
    rw [hw.names n]
    constructor
    · intro h
      obtain ⟨m, hmem, rfl⟩ := List.mem_map.1 h
      exact ⟨m, hmem, rfl, Classical.byContradiction fun hc => himm (hs.immutable.2 ⟨m, hmem, hc⟩)⟩
    · rintro ⟨m, hmem, rfl, _⟩
      exact List.mem_map_of_mem hmem

/-! ### One partition -/

theorem isel_part {o : Obj V} {ds ds' : Dataset V} (hp : Part o ds) {d : String} {s : Slice}
    (h : isel ds [(d, .slice s)] = .ok ds') : Part o ds' := by
  have hcons := (C44_derived ds ds').1 _ h
  unfold isel at h
  split at h
  · cases h
  · simp only [bind, Except.bind] at h
    split at h
    · cases h
    · next vars hvars =>
      obtain ⟨_, m2, _⟩ := mk_spec _ _ _ _ _ _ h
      -- each variable keeps its name, dimensions and rank
      have hkeep : vars.map (fun v => (v.name, v.dims)) = ds.vars.map (fun v => (v.name, v.dims)) ∧
          Ranked vars := by
        have hr := hp.ranks
        clear hp h hcons m2
        revert vars
        generalize ds.vars = l at hr
        intro vars hvars
        induction l generalizing vars with
        | nil => simp only [mapPy] at hvars; cases hvars; exact ⟨rfl, fun v hv => by simp at hv⟩
        | cons v t ih =>
          simp only [mapPy, bind, Except.bind] at hvars
          split at hvars
          · cases hvars
          · next y hy =>
            split at hvars
            · cases hvars
            · next ys hys =>
              cases hvars
              obtain ⟨i1, i2⟩ := ih (fun x hx => hr x (List.mem_cons_of_mem _ hx)) ys hys
              simp only [Var.isel, bind, Except.bind] at hy
              split at hy
              · cases hy
              · next a ha =>
                cases hy
                refine ⟨by simp only [List.map_cons, i1], ?_⟩
                intro x hx
                rcases List.mem_cons.1 hx with rfl | hx
                · have hkey : v.dims.map (sliceOf [(d, .slice s)]) =
                      (v.dims.map fun e => if e = d then s else Slice.all).map Ix.slice := by
                    rw [List.map_map]
                    apply List.map_congr_left
                    intro e _
                    simp only [sliceOf, List.lookup, Function.comp]
                    by_cases he : e = d
                    · subst he; simp
                    · have : (e == d) = false := by simpa using he
                      rw [this, if_neg he]
                  rw [hkey] at ha
                  obtain ⟨_, _, _, hl, _⟩ := getitem_slices _ _ _ _ ha
                  show a.shape.length = v.dims.length
                  rw [hl]
                  exact hr v List.mem_cons_self
                · exact i2 x hx
      obtain ⟨hk1, hk2⟩ := hkeep
      have hnames : vars.map (·.name) = ds.vars.map (·.name) := by
        have := congrArg (List.map (·.1)) hk1
        simpa [List.map_map, Function.comp_def] using this
      have hv : ds'.vars = vars := by
        rw [m2]
        have := foldl_setVar_id vars [] (by
          simp only [List.nil_append]
          rw [hnames]
          exact hp.consistent.names)
        simpa using this
      refine ⟨hcons, fun n => ?_, ?_, ?_⟩
      · rw [hv, hnames]
        exact hp.names n
      · intro v hvm m hmem he
        rw [hv] at hvm
        have : (v.name, v.dims) ∈ vars.map (fun v => (v.name, v.dims)) := List.mem_map_of_mem hvm
        rw [hk1] at this
        obtain ⟨x, hx, e⟩ := List.mem_map.1 this
        simp only [Prod.mk.injEq] at e
        rw [← e.2]
        exact hp.dims x hx m hmem (by rw [he, e.1])
      · rw [hv]
        exact hk2

theorem part_fits {o : Obj V} {ds : Dataset V} (hp : Part o ds) : Fits o ds.vars :=
  ⟨hp.consistent.names, hp.names, hp.dims, consistent_sizes hp.consistent hp.ranks⟩

/-- Two lists of variables that follow the metadata have the same variables. -/
theorem schema_eq {o : Obj V} {a b : List (Var V)} (ha : Fits o a) (hb : Fits o b) (n : String) :
    (getVar a n).map (·.dims) = (getVar b n).map (·.dims) := by
  cases h1 : getVar a n with
  | none =>
    cases h2 : getVar b n with
    | none => rfl
    | some w =>
      rw [getVar_none] at h1
      obtain ⟨hw, rfl⟩ := getVar_some _ _ _ h2
      exact absurd ((ha.names _).2 ((hb.names _).1 (List.mem_map_of_mem hw))) h1
  | some v =>
    obtain ⟨hv, rfl⟩ := getVar_some _ _ _ h1
    obtain ⟨m, hm, hmn, hmd⟩ := (ha.names _).1 (List.mem_map_of_mem hv)
    cases h2 : getVar b v.name with
    | none =>
      rw [getVar_none] at h2
      exact absurd ((hb.names _).2 ⟨m, hm, hmn, hmd⟩) h2
    | some w =>
      obtain ⟨hw, hwn⟩ := getVar_some _ _ _ h2
      simp only [Option.map_some]
      rw [ha.dims v hv m hm hmn, hb.dims w hw m hm (by rw [hwn]; exact hmn)]

theorem isel_delayed {ds ds' : Dataset V} {slices : List (String × Ix)}
    (h : isel ds slices = .ok ds') : ds'.delayed = ds.delayed := by
  unfold isel at h
  split at h
  · cases h
  · simp only [bind, Except.bind] at h
    split at h
    · cases h
    · exact (mk_spec _ _ _ _ _ _ h).2.2.2.2.2 _ rfl

/-- One task keeps the schema of the partitions. -/
theorem insertTask_fits {o : Obj V} {merge : Option (Merge V)}
    (hmerge : ∀ f, merge = some f → KeepsSchema f) {faults : Faults P} {zds : Dataset V}
    (hp : Part o zds) {st st' : Store P V} {piece : P × (Nat × Nat)}
    (hst : ∀ p vars, st p = some vars → Fits o vars) (hb : Bounded st)
    (h : insertTask merge faults o.dim zds st piece = .ok st') :
    (∀ p vars, st' p = some vars → Fits o vars) ∧ Bounded st' := by
  simp only [insertTask, bind, Except.bind] at h
  split at h
  · cases h
  · next ds hds =>
    have hsel := hds
    have hds := isel_part hp hds
    have hfin : ∀ new : List (Var V), Fits o new →
        (if faults.write piece.1 = true then (Except.error PyErr.osError : Py (Store P V))
          else .ok (setPart st piece.1 new)) = .ok st' →
        (∀ p vars, st' p = some vars → Fits o vars) ∧ Bounded st' := by
      intro new hfit h
      split at h
      · cases h
      · cases h
        constructor
        · intro p vars hpv
          simp only [setPart] at hpv
          split at hpv
          · cases hpv; exact hfit
          · exact hst p vars hpv
        · obtain ⟨l, hl⟩ := hb
          refine ⟨piece.1 :: l, fun p hp => ?_⟩
          simp only [setPart] at hp
          split at hp
          · next he => rw [he]; exact List.mem_cons_self
          · exact List.mem_cons_of_mem _ (hl p hp)
    cases hold : st piece.1 with
    | none =>
      rw [hold] at h
      exact hfin ds.vars (part_fits hds) h
    | some old =>
      rw [hold] at h
      simp only at h
      cases hmg : merge with
      | none =>
        rw [hmg] at h
        exact hfin ds.vars (part_fits hds) h
      | some f =>
        rw [hmg] at h
        simp only [perform, bind, Except.bind] at h
        cases hod : openGroup zds.delayed none old with
        | error e => rw [hod] at h; cases h
        | ok ods =>
          rw [hod] at h
          simp only at h
          cases hr : f ods ds with
          | error e => rw [hr] at h; cases h
          | ok r =>
            rw [hr] at h
            refine hfin r.vars ?_ h
            have hfit := hst _ _ hold
            have hgo : ods.vars = old.map fun v => { v with delayed := zds.delayed } := by
              obtain ⟨_, m2, _⟩ := mk_spec _ _ _ _ _ _ hod
              rw [m2]
              have := foldl_setVar_id ((old.filter fun _ => true).map fun v =>
                { v with delayed := zds.delayed }) [] (by
                  simp only [List.nil_append, List.map_map, Function.comp_def]
                  rw [List.filter_eq_self.2 fun _ _ => rfl]
                  exact hfit.nodup)
              rw [List.filter_eq_self.2 fun _ _ => rfl] at this ⊢
              simpa using this
            have hda : ods.delayed = zds.delayed := (mk_spec _ _ _ _ _ _ hod).2.2.2.2.2 _ rfl
            have hsd : ∀ n, (getVar ods.vars n).map (·.dims) = (getVar ds.vars n).map (·.dims) := by
              intro n
              rw [hgo, getVar_map (f := fun v => { v with delayed := zds.delayed }) fun _ => rfl,
                ← schema_eq hfit (part_fits hds) n]
              cases getVar old n <;> rfl
            obtain ⟨k1, k2, k3⟩ := hmerge f hmg (fun n => (getVar ds.vars n).map (·.dims)) ods ds r
              ⟨(mk_spec _ _ _ _ _ _ hod).1, by
                intro v hv
                rw [hgo] at hv
                obtain ⟨w, hw, rfl⟩ := List.mem_map.1 hv
                obtain ⟨size, hsz⟩ := hfit.sizes
                simp only [hsz w hw, List.length_map], hsd⟩
              ⟨hds.consistent, hds.ranks, fun _ => rfl⟩ (hda.trans (isel_delayed hsel).symm) hr
            refine ⟨k1, ?_, ?_, k3⟩
            · intro n
              rw [← hds.names n, ← getVar_isSome, ← getVar_isSome]
              have := k2 n
              cases h1 : getVar r.vars n <;> cases h2 : getVar ds.vars n <;> simp_all
            · intro v hv m hmem he
              have hk := k2 v.name
              rw [getVar_of_mem _ k1 v hv] at hk
              cases hg : getVar ds.vars v.name with
              | none => simp [hg] at hk
              | some x =>
                obtain ⟨hx, hxn⟩ := getVar_some _ _ _ hg
                simp only [hg, Option.map_some, Option.some.injEq] at hk
                rw [hk]
                exact hds.dims x hx m hmem (by rw [he, hxn])

theorem insertBatch_fits {o : Obj V} {merge : Option (Merge V)}
    (hmerge : ∀ f, merge = some f → KeepsSchema f) {faults : Faults P} {zds : Dataset V}
    (hp : Part o zds) (l : List (P × (Nat × Nat))) (st : Store P V)
    (hst : ∀ p vars, st p = some vars → Fits o vars) (hb : Bounded st) :
    (∀ p vars, (insertBatch merge faults o.dim zds st l).1 p = some vars → Fits o vars) ∧
      Bounded (insertBatch merge faults o.dim zds st l).1 := by
  induction l generalizing st with
  | nil => exact ⟨hst, hb⟩
  | cons x t ih =>
    simp only [insertBatch]
    split
    · next st' h =>
      obtain ⟨h1, h2⟩ := insertTask_fits hmerge hp hst hb h
      exact ih st' h1 h2
    · exact ih st hst hb

theorem insertAll_fits {o : Obj V} {merge : Option (Merge V)}
    (hmerge : ∀ f, merge = some f → KeepsSchema f) {faults : Faults P} {zds : Dataset V}
    (hp : Part o zds) (l : List (List (P × (Nat × Nat)))) (st : Store P V)
    (hst : ∀ p vars, st p = some vars → Fits o vars) (hbd : Bounded st) :
    (∀ p vars, (insertAll merge faults o.dim zds st l).1 p = some vars → Fits o vars) ∧
      Bounded (insertAll merge faults o.dim zds st l).1 := by
  induction l generalizing st with
  | nil => exact ⟨hst, hbd⟩
  | cons b t ih =>
    have hb := insertBatch_fits hmerge (faults := faults) hp b st hst hbd
    simp only [insertAll]
    split
    · next st' h => rw [h] at hb; exact ih st' hb.1 hb.2
    · next st' e h => rw [h] at hb; exact hb

/-- An insertion, whatever happens, keeps the collection in step. -/
theorem insert_aligned {w : World P V} {o : Obj V} {faults : Faults P} {validate : Bool}
    {n : Option Int} {merge : Option (Merge V)} (hmerge : ∀ f, merge = some f → KeepsSchema f)
    (haxis : o.imm = true → o.axis = o.dim) {ds : Dataset V} (hi : Insertable o ds)
    {fs : Files P V} (hs : Aligned o fs) :
    Aligned o (Sch.insert w o faults validate n merge ds fs).2.1 := by
  unfold Sch.insert
  split
  · exact hs
  · next ms hms =>
    split
    · exact hs
    · next ds1 hcomp =>
      split
      · exact hs
      · split
        · exact hs
        · next zds hz =>
          obtain ⟨hw, hc⟩ := whole_of_insertable hs.nodup hi hms hcomp hz
          unfold insertReady
          split
          · next fs1 e hti => exact (takeImmutable_spec haxis hs hw hc hti).1
          · next fs1 zds1 hti =>
            obtain ⟨a1, a2, a3, a4, a5⟩ := takeImmutable_spec haxis hs hw hc hti
            obtain ⟨hpart, himm⟩ := a5 zds1 rfl
            split
            · exact a1
            · next pieces _ =>
              split
              · exact a1
              · next batches _ =>
                have hfit := insertAll_fits hmerge (faults := faults) hpart batches fs1.parts
                  a1.parts a1.bounded
                have hfin : ∀ st : Store P V, (∀ p vars, st p = some vars → Fits o vars) ∧ Bounded st →
                    Aligned o { fs1 with parts := st } := fun st hst =>
                  ⟨a1.nodup, a1.keys, a1.config, hst.1, a1.immutable, fun h _ => himm h,
                    a1.immNames, hst.2⟩
                split
                · next st h => rw [h] at hfit; exact hfin st hfit
                · next st e h => rw [h] at hfit; exact hfin st hfit

end Verif
