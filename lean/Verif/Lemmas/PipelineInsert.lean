import Verif.Lemmas.Pipeline
import Verif.Lemmas.Load

/-! The insertion of a dataset, partition by partition. -/

namespace Verif

open Spec Nd Ds Sch Pipe

variable {P V : Type} [DecidableEq P]

/-! ### The tasks -/

/-- One task changes one partition. -/
theorem insertTask_effect {merge : Option (Sch.Merge V)} {faults : Faults P} {dim : String}
    {zds : Dataset V} (hc : Consistent zds) (hok : ∀ v ∈ zds.vars, ArrOk v.array ∧ v.dims.Nodup)
    {n : Nat} (hd : zds.dims.lookup dim = some n) {st st' : Upd.Store P V} {p : P × (Nat × Nat)}
    (h1 : p.2.1 ≤ p.2.2) (h2 : p.2.2 ≤ n)
    (h : insertTask merge faults dim zds st p = .ok st') :
    (∀ q, q ≠ p.1 → st' q = st q) ∧
      EffectOn merge zds.delayed (st p.1) (zds.vars.map (pieceVar dim p.2)) (st' p.1) := by
  obtain ⟨dims, hisel⟩ := isel_piece zds hc hok dim n hd p.2 h1 h2
  simp only [insertTask, bind, Except.bind, hisel] at h
  have hfin : ∀ new : List (Var V),
      (if faults.write p.1 = true then (Except.error PyErr.osError : Py (Upd.Store P V))
        else .ok (Upd.setPart st p.1 new)) = .ok st' →
      (∀ q, q ≠ p.1 → st' q = st q) ∧ st' p.1 = some new := by
    intro new h
    split at h
    · cases h
    · cases h
      constructor
      · intro q hq
        simp only [Upd.setPart]
        rw [if_neg hq]
      · simp [Upd.setPart]
  cases hst : st p.1 with
  | none =>
    rw [hst] at h
    exact hfin _ h
  | some old =>
    rw [hst] at h
    cases merge with
    | none => exact hfin _ h
    | some f =>
      simp only [perform, bind, Except.bind] at h
      cases ho : Upd.openGroup zds.delayed none old with
      | error e => rw [ho] at h; cases h
      | ok a =>
        rw [ho] at h
        simp only at h
        split at h
        · cases h
        · next r hr =>
          obtain ⟨r1, r2⟩ := hfin _ h
          exact ⟨r1, a, _, r, ho, rfl, (C44_derived zds _).1 _ hisel, rfl, hr, r2⟩

/-- A batch changes its partitions only. -/
theorem insertBatch_effect {merge : Option (Sch.Merge V)} {faults : Faults P} {dim : String}
    {zds : Dataset V} (eff : Option (List (Var V)) → P × (Nat × Nat) → Option (List (Var V)) → Prop)
    (l : List (P × (Nat × Nat)))
    (ht : ∀ p ∈ l, ∀ st st', insertTask merge faults dim zds st p = .ok st' →
      (∀ q, q ≠ p.1 → st' q = st q) ∧ eff (st p.1) p (st' p.1))
    (hn : (l.map (·.1)).Nodup) (st : Upd.Store P V) :
    (∀ q, q ∉ l.map (·.1) → (insertBatch merge faults dim zds st l).1 q = st q) ∧
    (∀ p ∈ l, (insertBatch merge faults dim zds st l).1 p.1 = st p.1 ∨
      eff (st p.1) p ((insertBatch merge faults dim zds st l).1 p.1)) ∧
    ((insertBatch merge faults dim zds st l).2 = .ok () → ∀ p ∈ l,
      eff (st p.1) p ((insertBatch merge faults dim zds st l).1 p.1)) := by
  induction l generalizing st with
  | nil => simp [insertBatch]
  | cons x t ih =>
    rw [List.map_cons, List.nodup_cons] at hn
    have ih := ih (fun p hp => ht p (List.mem_cons_of_mem _ hp)) hn.2
    simp only [insertBatch]
    cases hx : insertTask merge faults dim zds st x with
    | error e =>
      obtain ⟨i1, i2, i3⟩ := ih st
      simp only
      refine ⟨?_, ?_, fun h => by cases h⟩
      · intro q hq
        rw [List.map_cons, List.mem_cons, not_or] at hq
        exact i1 q hq.2
      · intro p hp
        rcases List.mem_cons.1 hp with rfl | hp
        · exact .inl (i1 _ hn.1)
        · exact i2 p hp
    | ok st1 =>
      obtain ⟨i1, i2, i3⟩ := ih st1
      obtain ⟨t1, t2⟩ := ht x List.mem_cons_self st st1 hx
      have hother : ∀ p ∈ t, st1 p.1 = st p.1 := by
        intro p hp
        apply t1
        intro he
        exact hn.1 (he ▸ List.mem_map_of_mem hp)
      simp only
      refine ⟨?_, ?_, ?_⟩
      · intro q hq
        rw [List.map_cons, List.mem_cons, not_or] at hq
        rw [i1 q hq.2]
        exact t1 q hq.1
      · intro p hp
        rcases List.mem_cons.1 hp with rfl | hp
        · rw [i1 _ hn.1]
          exact .inr t2
        · have := i2 p hp
          rw [hother p hp] at this
          exact this
      · intro h p hp
        rcases List.mem_cons.1 hp with rfl | hp
        · rw [i1 _ hn.1]
          exact t2
        · have := i3 h p hp
          rw [hother p hp] at this
          exact this

/-- The batches one after the other. -/
theorem insertAll_effect {merge : Option (Sch.Merge V)} {faults : Faults P} {dim : String}
    {zds : Dataset V} (eff : Option (List (Var V)) → P × (Nat × Nat) → Option (List (Var V)) → Prop)
    (bs : List (List (P × (Nat × Nat))))
    (ht : ∀ p ∈ bs.flatten, ∀ st st', insertTask merge faults dim zds st p = .ok st' →
      (∀ q, q ≠ p.1 → st' q = st q) ∧ eff (st p.1) p (st' p.1))
    (hn : (bs.flatten.map (·.1)).Nodup) (st : Upd.Store P V) :
    (∀ q, q ∉ bs.flatten.map (·.1) → (insertAll merge faults dim zds st bs).1 q = st q) ∧
    (∀ p ∈ bs.flatten, (insertAll merge faults dim zds st bs).1 p.1 = st p.1 ∨
      eff (st p.1) p ((insertAll merge faults dim zds st bs).1 p.1)) ∧
    ((insertAll merge faults dim zds st bs).2 = .ok () → ∀ p ∈ bs.flatten,
      eff (st p.1) p ((insertAll merge faults dim zds st bs).1 p.1)) := by
  induction bs generalizing st with
  | nil => simp [insertAll]
  | cons b t ih =>
    simp only [List.flatten_cons, List.map_append, List.nodup_append] at hn
    obtain ⟨n1, n2, n3⟩ := hn
    have ih := ih (fun p hp => ht p (by
      rw [List.flatten_cons]; exact List.mem_append_right _ hp)) n2
    obtain ⟨b1, b2, b3⟩ := insertBatch_effect eff b (fun p hp => ht p (by
      rw [List.flatten_cons]; exact List.mem_append_left _ hp)) n1 st
    have hdis : ∀ p ∈ t.flatten, p.1 ∉ b.map (·.1) := fun p hp hm =>
      n3 p.1 hm p.1 (List.mem_map_of_mem hp) rfl
    have hdis' : ∀ p ∈ b, p.1 ∉ t.flatten.map (·.1) := fun p hp hm =>
      n3 p.1 (List.mem_map_of_mem hp) p.1 hm rfl
    simp only [insertAll]
    cases hb : insertBatch merge faults dim zds st b with
    | mk st1 r =>
      rw [hb] at b1 b2 b3
      simp only at b1 b2 b3
      cases r with
      | error e =>
        simp only
        refine ⟨?_, ?_, fun h => by cases h⟩
        · intro q hq
          rw [List.flatten_cons, List.map_append, List.mem_append, not_or] at hq
          exact b1 q hq.1
        · intro p hp
          rw [List.flatten_cons] at hp
          rcases List.mem_append.1 hp with hp | hp
          · exact b2 p hp
          · exact .inl (b1 _ (hdis p hp))
      | ok u =>
        obtain ⟨i1, i2, i3⟩ := ih st1
        simp only
        refine ⟨?_, ?_, ?_⟩
        · intro q hq
          rw [List.flatten_cons, List.map_append, List.mem_append, not_or] at hq
          rw [i1 q hq.2]
          exact b1 q hq.1
        · intro p hp
          rw [List.flatten_cons] at hp
          rcases List.mem_append.1 hp with hp | hp
          · rw [i1 _ (hdis' p hp)]
            exact b2 p hp
          · have := i2 p hp
            rw [b1 _ (hdis p hp)] at this
            exact this
        · intro h p hp
          rw [List.flatten_cons] at hp
          rcases List.mem_append.1 hp with hp | hp
          · rw [i1 _ (hdis' p hp)]
            exact b3 rfl p hp
          · have := i3 h p hp
            rw [b1 _ (hdis p hp)] at this
            exact this

/-! ### The dataset that is split -/

theorem blankArray_arrOk (shape : List Nat) (v : V) : ArrOk (full shape v) := by
  intro idx
  have := Vw.tabulate_arrOk (V := V) shape (fun _ => v) idx
  exact this

omit [DecidableEq P] in
theorem complete_arrOk {w : World P V} (ms : List (VarMeta V)) {ds ds' : Dataset V}
    (hok : ∀ v ∈ ds.vars, ArrOk v.array) (h : complete w ds ms = (ds', .ok ())) :
    (∀ v ∈ ds'.vars, ArrOk v.array) ∧ ds'.delayed = ds.delayed := by
  induction ms generalizing ds with
  | nil => simp only [complete] at h; cases h; exact ⟨hok, rfl⟩
  | cons m t ih =>
    simp only [complete] at h
    split at h
    · next ds1 h1 =>
      have : (∀ v ∈ ds1.vars, ArrOk v.array) ∧ ds1.delayed = ds.delayed := by
        unfold Ds.addVariable at h1
        split at h1
        · cases h1
        · simp only at h1
          split at h1
          · cases h1
          · next a ha =>
            cases h1
            refine ⟨?_, rfl⟩
            intro v hv
            rcases mem_setVar _ _ _ hv with hv | hv
            · subst hv
              simp only [bind, Except.bind] at ha
              split at ha
              · cases ha
                exact blankArray_arrOk _ _
              · split at ha
                · cases ha
                · cases ha
                  exact blankArray_arrOk _ _
            · exact hok v hv
      obtain ⟨i1, i2⟩ := ih this.1 h
      exact ⟨i1, i2.trans this.2⟩
    · cases h

omit [DecidableEq P] in
theorem splitDataset_nonempty {sc : Scheme V} {zds : Dataset V}
    {ps : List (List Int × (Nat × Nat))} (h : splitDataset sc zds = .ok ps) : zds.vars ≠ [] := by
  intro he
  simp only [splitDataset, bind, Except.bind] at h
  cases hv : sc.variables with
  | nil =>
    simp only [hv, keyVars, List.map_nil] at h
    split at h
    · cases h
    · simp only [splitSequence, mapPy, hv, List.zip_nil_right, Split.sequenceSplit, List.map_nil,
        Split.vstackT, bind, Except.bind] at h
      cases h
  | cons a t =>
    simp only [hv, keyVars, getVarE, getVar, he, List.find?_nil, bind, Except.bind] at h
    cases h

/-- What an insertion does, whether it raises or not. -/
theorem insert_core {w : World (List Int) V} {o : Obj V} {sc : Scheme V}
    (hsplit : w.split = splitDataset sc) (hsc : GoodScheme sc)
    (haxis : o.imm = true → o.axis = o.dim) (hdims : ∀ m ∈ o.metas, m.dims.Nodup)
    {faults : Faults (List Int)} {validate : Bool} {np : Option Int} {merge : Option (Sch.Merge V)}
    {ds ds' : Dataset V} (hi : Insertable o ds) (hok : ∀ v ∈ ds.vars, ArrOk v.array)
    {fs fs' : Files (List Int) V} (hs : Aligned o fs) {r : Py (List (List Int))}
    (h : Sch.insert w o faults validate np merge ds fs = (ds', fs', r))
    (hsort : ds'.delayed = true ∨ KeysMonotone sc ds'.vars) :
    (fs'.parts = fs.parts ∧ ∃ e, r = .error e) ∨
    ∃ (zds : Dataset V) (pieces : List (List Int × (Nat × Nat))) (n : Nat),
      Consistent ds' ∧ (∀ v ∈ ds'.vars, ArrOk v.array ∧ v.dims.Nodup) ∧ Whole o ds'.vars ∧
      zds.vars = (ds'.vars.filter fun v => decide (o.dim ∈ v.dims)) ∧ Consistent zds ∧
      zds.delayed = ds'.delayed ∧ zds.dims.lookup o.dim = some n ∧ sc.variables ≠ [] ∧
      (∀ name ∈ sc.variables, ∃ v ∈ zds.vars, v.name = name ∧ v.dims = [o.dim] ∧
        v.array.shape = [n]) ∧
      Chain 0 n (pieces.map (·.2)) ∧ (pieces.map (·.1)).Pairwise (· < ·) ∧
      (∀ p ∈ pieces, ∀ i, p.2.1 ≤ i → i < p.2.2 → KeyAt sc zds.vars i p.1) ∧
      (∀ k, k ∉ pieces.map (·.1) → fs'.parts k = fs.parts k) ∧
      (∀ p ∈ pieces, fs'.parts p.1 = fs.parts p.1 ∨ EffectOn merge zds.delayed (fs.parts p.1)
        (zds.vars.map (pieceVar o.dim p.2)) (fs'.parts p.1)) ∧
      fs'.imm = (if o.imm then (match fs.imm with
        | some l => some l
        | none => some (ds'.vars.filter fun v => decide (o.dim ∉ v.dims))) else fs.imm) ∧
      ∀ l, r = .ok l → l = pieces.map (·.1) ∧ ∀ p ∈ pieces, EffectOn merge zds.delayed
        (fs.parts p.1) (zds.vars.map (pieceVar o.dim p.2)) (fs'.parts p.1) := by
  unfold Sch.insert at h
  split at h
  · cases h; exact .inl ⟨rfl, _, rfl⟩
  · next ms hms =>
    split at h
    · cases h; exact .inl ⟨rfl, _, rfl⟩
    · next ds1 hcomp =>
      split at h
      · cases h; exact .inl ⟨rfl, _, rfl⟩
      · split at h
        · cases h; exact .inl ⟨rfl, _, rfl⟩
        · next zds0 hz =>
          obtain ⟨hw, hc⟩ := whole_of_insertable hs.nodup hi hms hcomp hz
          obtain ⟨ha, hdel⟩ := complete_arrOk ms hok hcomp
          have hcons1 : Consistent ds1 := by
            unfold missing at hms
            split at hms
            · cases hms
            · cases hms
              exact (complete_whole hs.nodup
                (ms := o.metas.filter fun m => decide (m.name ∉ ds.vars.map (·.name)))
                (fun m h => (List.mem_filter.1 h).1)
                (hs.nodup.sublist (List.Sublist.map _ List.filter_sublist)) hi.consistent hi.ranks
                (fun m hmem => by simpa using (List.mem_filter.1 hmem).2) hi.dims hcomp).1
          have hvars0 : zds0.vars = ds1.vars := by
            obtain ⟨_, m2, _⟩ := mk_spec _ _ _ _ _ _ hz
            rw [m2]
            have := foldl_setVar_id ds1.vars [] (by simpa using hcons1.names)
            simpa using this
          rw [hvars0] at hw
          have hokd : ∀ v ∈ ds1.vars, ArrOk v.array ∧ v.dims.Nodup := by
            intro v hv
            refine ⟨ha v hv, ?_⟩
            obtain ⟨m, hm, he⟩ := List.mem_map.1 ((hw.names v.name).1 (List.mem_map_of_mem hv))
            rw [hw.dims v hv m hm he]
            exact hdims m hm
          simp only [Prod.mk.injEq] at h
          obtain ⟨rfl, h⟩ := h
          unfold insertReady at h
          cases hti : takeImmutable o zds0 fs with
          | mk fs1 rz =>
            rw [hti] at h
            obtain ⟨a1, a2, a3, a4, a5⟩ := takeImmutable_spec haxis hs
              (by rw [hvars0]; exact hw) hc hti
            cases rz with
            | error e =>
              cases h
              exact .inl ⟨a2, _, rfl⟩
            | ok zds =>
              simp only [hsplit] at h
              obtain ⟨hpart, himm⟩ := a5 zds rfl
              -- the variables that are split, and the others
              have hsel : zds.vars = (ds1.vars.filter fun v => decide (o.dim ∈ v.dims)) ∧
                  fs1.imm = (if o.imm then (match fs.imm with
                    | some l => some l
                    | none => some (ds1.vars.filter fun v => decide (o.dim ∉ v.dims)))
                    else fs.imm) := by
                unfold takeImmutable at hti
                cases hoi : o.imm with
                | true =>
                  simp only [hoi, if_true, haxis hoi] at hti
                  have hf : ∀ z, selectByDims zds0 [o.dim] true = .ok z →
                      z.vars = ds1.vars.filter fun v => decide (o.dim ∈ v.dims) := by
                    intro z hzz
                    obtain ⟨_, z2⟩ := selectByDims_vars hc hzz
                    rw [z2, hvars0]
                    simp
                  cases hfi : fs.imm with
                  | some l =>
                    rw [hfi] at hti
                    simp only [Prod.mk.injEq] at hti
                    obtain ⟨rfl, h2⟩ := hti
                    exact ⟨hf _ h2, by simp [hfi]⟩
                  | none =>
                    rw [hfi] at hti
                    simp only at hti
                    split at hti
                    · cases hti
                    · next ids hids =>
                      split at hti
                      · cases hti
                      · simp only [Prod.mk.injEq] at hti
                        obtain ⟨rfl, h2⟩ := hti
                        refine ⟨hf _ h2, ?_⟩
                        obtain ⟨_, z2⟩ := selectByDims_vars hc hids
                        simp only [if_true, z2, hvars0]
                        simp
                | false =>
                  simp only [hoi, Bool.false_eq_true, if_false, Prod.mk.injEq,
                    Except.ok.injEq] at hti
                  obtain ⟨rfl, rfl⟩ := hti
                  refine ⟨?_, by simp⟩
                  rw [hvars0]
                  symm
                  rw [List.filter_eq_self]
                  intro v hv
                  obtain ⟨m, hm, he⟩ := List.mem_map.1
                    ((hw.names v.name).1 (List.mem_map_of_mem hv))
                  rw [hw.dims v hv m hm he]
                  refine decide_eq_true (Classical.byContradiction fun hcn => ?_)
                  rw [hs.immutable.2 ⟨m, hm, hcn⟩] at hoi
                  cases hoi
              obtain ⟨hzv, himmv⟩ := hsel
              have hsub : ∀ v ∈ zds.vars, v ∈ ds1.vars ∧ o.dim ∈ v.dims := by
                intro v hv
                rw [hzv] at hv
                obtain ⟨x1, x2⟩ := List.mem_filter.1 hv
                exact ⟨x1, of_decide_eq_true x2⟩
              cases hsp : splitDataset sc zds with
              | error e =>
                rw [hsp] at h
                cases h
                exact .inl ⟨a2, _, rfl⟩
              | ok pieces =>
                rw [hsp] at h
                simp only at h
                have hne := splitDataset_nonempty hsp
                have hzdel : zds.delayed = ds1.delayed := by
                  obtain ⟨v, hv⟩ := List.exists_mem_of_ne_nil _ hne
                  rw [← hpart.consistent.kind v hv]
                  exact hcons1.kind v (hsub v hv).1
                have hmono : zds.delayed = true ∨ KeysMonotone sc zds.vars := by
                  rw [hzdel]
                  refine hsort.imp_right fun hm => ?_
                  have hup : ∀ i k, KeyAt sc zds.vars i k → KeyAt sc ds1.vars i k := by
                    intro i k hk
                    refine ⟨hk.1, fun j name hj => ?_⟩
                    obtain ⟨v, h1, h2⟩ := hk.2 j name hj
                    exact ⟨v, (hsub v h1).1, h2⟩
                  intro i j k l hij hk hl
                  exact hm i j k l hij (hup i k hk) (hup j l hl)
                obtain ⟨s0, n, s1, s2, s3, s4⟩ := splitDataset_spec hsc
                  (fun v hv => ha v (hsub v hv).1) hsp hmono
                have hdim1 : ∀ v ∈ zds.vars, v.array.shape = [n] → v.dims = [o.dim] ∧
                    zds.dims.lookup o.dim = some n := by
                  intro v hv hsh
                  have hr := hpart.ranks v hv
                  rw [hsh] at hr
                  obtain ⟨d, hd⟩ := List.length_eq_one_iff.1 hr.symm
                  have hin := (hsub v hv).2
                  rw [hd, List.mem_singleton] at hin
                  rw [hd, ← hin]
                  refine ⟨rfl, ?_⟩
                  obtain ⟨m, e1, e2⟩ := hpart.consistent.sizes v hv 0 o.dim (by rw [hd, hin]; rfl)
                  rw [hsh] at e1
                  cases e1
                  exact e2
                have hlook : zds.dims.lookup o.dim = some n := by
                  obtain ⟨name, hname⟩ := List.exists_mem_of_ne_nil _ s0
                  obtain ⟨v, h1, h2, h3⟩ := s1 name hname
                  exact (hdim1 v h1 h3).2
                have hokz : ∀ v ∈ zds.vars, ArrOk v.array ∧ v.dims.Nodup :=
                  fun v hv => hokd v (hsub v hv).1
                have hbound : ∀ p ∈ pieces, p.2.1 ≤ p.2.2 ∧ p.2.2 ≤ n := by
                  have : ∀ (l : List (Nat × Nat)) (a : Nat), Chain a n l →
                      a ≤ n ∧ ∀ c ∈ l, c.1 ≤ c.2 ∧ c.2 ≤ n := by
                    intro l
                    induction l with
                    | nil => intro a ha; exact ⟨Nat.le_of_eq ha, by simp⟩
                    | cons c t ih =>
                      intro a ha
                      obtain ⟨e1, e2, e3⟩ := ha
                      obtain ⟨j1, j2⟩ := ih _ e3
                      refine ⟨by omega, fun d hd => ?_⟩
                      rcases List.mem_cons.1 hd with rfl | hd
                      · exact ⟨Nat.le_of_lt e2, j1⟩
                      · exact j2 d hd
                  intro p hp
                  exact (this _ 0 s2).2 p.2 (List.mem_map_of_mem hp)
                cases hb : Batches.insertBatches pieces np with
                | error e =>
                  rw [hb] at h
                  cases h
                  exact .inl ⟨a2, _, rfl⟩
                | ok bs =>
                  rw [hb] at h
                  simp only at h
                  have hflat := batches_flatten pieces np bs hb
                  have heff := insertAll_effect (merge := merge) (faults := faults) (dim := o.dim)
                    (zds := zds) (fun old p new => EffectOn merge zds.delayed old
                      (zds.vars.map (pieceVar o.dim p.2)) new) bs
                    (fun p hp st st' ht => by
                      rw [hflat] at hp
                      exact insertTask_effect hpart.consistent hokz hlook (hbound p hp).1
                        (hbound p hp).2 ht)
                    (by rw [hflat]; exact s3.imp fun hlt he => by
                          rw [he] at hlt; exact List.lt_irrefl _ hlt)
                    fs1.parts
                  rw [hflat, a2] at heff
                  rw [a2] at h
                  cases hall : insertAll merge faults o.dim zds fs.parts bs with
                  | mk st rr =>
                    rw [hall] at h heff
                    simp only at heff
                    obtain ⟨e1, e2, e3⟩ := heff
                    refine .inr ⟨zds, pieces, n, hcons1, hokd, hw, hzv, hpart.consistent, hzdel,
                      hlook, s0, fun name hname => ?_, s2, s3, s4, ?_⟩
                    · obtain ⟨v, h1, h2, h3⟩ := s1 name hname
                      exact ⟨v, h1, h2, (hdim1 v h1 h3).1, h3⟩
                    · cases rr with
                      | error e =>
                        cases h
                        exact ⟨e1, e2, himmv, fun l hl => by cases hl⟩
                      | ok u =>
                        cases h
                        exact ⟨e1, e2, himmv, fun l hl => by cases hl; exact ⟨rfl, e3 rfl⟩⟩

end Verif
