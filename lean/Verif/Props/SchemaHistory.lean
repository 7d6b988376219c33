import Verif.Lemmas.SchemaInsert

/-! C30: opening a collection again, and histories of calls. -/

namespace Verif

open Nd Ds Upd Spec Sch

variable {P V : Type} [DecidableEq P]

/-! ### Opening again -/

omit [DecidableEq P] in
theorem aligned_congr {o o' : Obj V} {fs : Files P V} (h1 : o'.axis = o.axis)
    (h2 : o'.keys = o.keys) (h3 : o'.dims = o.dims) (h4 : o'.metas.Perm o.metas)
    (h5 : o'.dim = o.dim) (h6 : o'.imm = o.imm) (h : Aligned o fs) : Aligned o' fs := by
  have hmem : ∀ m, m ∈ o'.metas ↔ m ∈ o.metas := fun m => h4.mem_iff
  refine ⟨(h4.map _).nodup_iff.2 h.nodup, ?_, ?_, ?_, ?_, ?_, ?_, h.bounded⟩
  · intro k hk
    rw [h2] at hk
    obtain ⟨m, hm, he⟩ := h.keys k hk
    exact ⟨m, (hmem m).2 hm, he⟩
  · obtain ⟨c, hc, d1, d2, d3, d4⟩ := h.config
    exact ⟨c, hc, d1.trans h1.symm, d2.trans h2.symm, d3.trans h3.symm, d4.trans h4.symm⟩
  · intro p vars hp
    obtain ⟨f1, f2, f3, f4⟩ := h.parts p vars hp
    refine ⟨f1, fun n => ?_, fun v hv m hm => f3 v hv m ((hmem m).1 hm), f4⟩
    rw [f2 n, h5]
    simp only [hmem]
  · rw [h6, h.immutable, h5]
    simp only [hmem]
  · rw [h6]
    exact h.stored
  · intro iv hiv n
    rw [h.immNames iv hiv n, h5]
    simp only [hmem]

omit [DecidableEq P] in
/-- C30: a collection in step with its metadata, whose axis is kept, can be opened again in
both modes; nothing is written and the new object has the same axis, partitioning and
variables. -/
theorem C30_reopen (w : World P V) {o : Obj V} {fs : Files P V} (hs : Aligned o fs)
    (ha : AxisKept o) (readOnly : Bool) :
    ∃ o' : Obj V, fromConfig w readOnly fs = (fs, .ok o') ∧ o'.axis = o.axis ∧
      o'.keys = o.keys ∧ o'.dims = o.dims ∧ o'.metas.Perm o.metas ∧ o'.dim = o.dim ∧
      o'.imm = o.imm ∧ o'.readOnly = readOnly ∧ Aligned o' fs ∧ AxisKept o' := by
  obtain ⟨c, hc, d1, d2, d3, d4⟩ := hs.config
  obtain ⟨a, ham, han, had⟩ := ha
  have hmem : ∀ m, m ∈ c.metas ↔ m ∈ o.metas := fun m => d4.mem_iff
  have hfind : c.metas.find? (fun m => decide (m.name = c.axis)) = some a := by
    cases hf : c.metas.find? (fun m => decide (m.name = c.axis)) with
    | none =>
      rw [List.find?_eq_none] at hf
      exact absurd (by simpa [d1] using han) (hf a ((hmem a).2 ham))
    | some b =>
      have h1 := List.mem_of_find?_eq_some hf
      have h2 := List.find?_some hf
      have h2 : b.name = c.axis := by simpa using h2
      rw [metas_unique hs.nodup ((hmem b).1 h1) ham (by rw [h2, d1, han])]
  have hkeys : ¬ ∃ k ∈ c.keys, k ∉ metaNames c.metas := by
    rintro ⟨k, hk, hno⟩
    rw [d2] at hk
    obtain ⟨m, hm, he⟩ := hs.keys k hk
    exact hno (he ▸ List.mem_map_of_mem ((hmem m).2 hm))
  cases hd : a.dims with
  | nil => rw [hd] at had; cases had
  | cons dim rest =>
    rw [hd] at had
    have hdim : dim = o.dim := by simpa using had
    let o' : Obj V :=
      { axis := c.axis, keys := c.keys, dims := c.dims, metas := c.metas, dim := dim,
        imm := c.metas.any fun m => decide (dim ∉ m.dims), readOnly := readOnly }
    have himm : o'.imm = o.imm := by
      rw [Bool.eq_iff_iff, hs.immutable]
      simp only [o', List.any_eq_true, decide_eq_true_eq, hmem, hdim]
    have hal : Aligned o' fs := aligned_congr d1 d2 d3 d4 hdim himm hs
    refine ⟨o', ?_, d1, d2, d3, d4, hdim, himm, rfl, hal,
      a, (hmem a).2 ham, by rw [han]; exact d1.symm, by rw [hd]; rfl⟩
    unfold fromConfig
    rw [hc]
    simp only
    unfold init
    rw [hfind]
    simp only
    rw [if_neg hkeys, hd]
    simp only
    rw [hc]
    simp only [ite_self, o']

omit [DecidableEq P] in
/-- C30: a collection that was created is in step with its metadata. -/
theorem C30_created (w : World P V) {c : Config V} (hn : (c.metas.map (·.name)).Nodup)
    {fs fs' : Files P V} (hfs : fs.config = .absent ∧ (∀ p, fs.parts p = none) ∧ fs.imm = none)
    {o : Obj V} (h : init w c false fs = (fs', .ok o)) : Aligned o fs' ∧ AxisKept o := by
  unfold init at h
  split at h
  · cases h
  · next a ha =>
    split at h
    · cases h
    · next hk =>
      split at h
      · cases h
      · next dim rest hd =>
        rw [hfs.1] at h
        simp only [Bool.false_eq_true, if_false] at h
        split at h
        · next fs1 hw =>
          cases h
          have hok := writeConfig_ok (w := w) (fs := fs)
            (o := { axis := c.axis, keys := c.keys, dims := c.dims, metas := c.metas, dim := dim,
                    imm := c.metas.any fun m => decide (dim ∉ m.dims), readOnly := false })
            (by rw [hw])
          rw [hw] at hok
          obtain ⟨cf, hcf, hdesc⟩ := hok
          simp only at hcf
          rw [hcf]
          have h1 := List.mem_of_find?_eq_some ha
          have h2 := List.find?_some ha
          refine ⟨⟨hn, ?_, ⟨cf, rfl, hdesc⟩, ?_, ?_, ?_, ?_, [], fun p hp => absurd (hfs.2.1 p) hp⟩,
            ⟨a, h1, by simpa using h2, by rw [hd]; rfl⟩⟩
          · intro k hkk
            refine Classical.byContradiction fun hc => hk ⟨k, hkk, fun hm => ?_⟩
            obtain ⟨m, hm1, hm2⟩ := List.mem_map.1 hm
            exact hc ⟨m, hm1, hm2⟩
          · intro p vars hp
            rw [show fs.parts p = none from hfs.2.1 p] at hp
            cases hp
          · simp [List.any_eq_true]
          · rintro _ ⟨p, hp⟩
            exact absurd (hfs.2.1 p) hp
          · intro iv hiv
            rw [show fs.imm = none from hfs.2.2] at hiv
            cases hiv
        · cases h

/-! ### The other methods -/

/-- C30: an insertion keeps the collection in step with its metadata, whether it succeeds or
raises: each partition stores the variables of the metadata that are split, with their
dimensions. -/
theorem C30_insert (w : World P V) {o : Obj V} (faults : Faults P) (validate : Bool)
    (n : Option Int) {merge : Option (Merge V)} (hmerge : ∀ f, merge = some f → KeepsSchema f)
    (haxis : o.imm = true → o.axis = o.dim) {ds : Dataset V} (hi : Insertable o ds)
    {fs : Files P V} (hs : Aligned o fs) :
    Aligned o (Sch.insert w o faults validate n merge ds fs).2.1 :=
  insert_aligned hmerge haxis hi hs

omit [DecidableEq P] in
theorem fewer_aligned {o : Obj V} {fs : Files P V} (hs : Aligned o fs) {st : Store P V}
    (h : ∀ p, st p = fs.parts p ∨ st p = none) : Aligned o { fs with parts := st } := by
  refine ⟨hs.nodup, hs.keys, hs.config, ?_, hs.immutable, ?_, hs.immNames,
    bounded_of_subset hs.bounded fun p hp => by
      rcases h p with he | he
      · rw [← he]; exact hp
      · exact absurd he hp⟩
  · intro p vars hp
    rcases h p with he | he
    · rw [show st p = some vars from hp] at he
      exact hs.parts p vars he.symm
    · rw [show st p = some vars from hp] at he
      cases he
  · rintro himm ⟨p, hp⟩
    refine hs.stored himm ⟨p, ?_⟩
    rcases h p with he | he
    · rw [← he]
      exact hp
    · exact absurd he hp

/-- C30: the removal of partitions keeps the collection in step. -/
theorem C30_drop_partitions {w : World P V} (hw : GoodWorld w) {o : Obj V} (filters : P → Bool)
    (faults : Faults P) {fs : Files P V} (hs : Aligned o fs) :
    Aligned o (Sch.dropPartitions w filters faults fs).1 := by
  refine fewer_aligned hs fun p => ?_
  have := (runTasks_spec (fun (p : P) (cur : Option (List (Var V))) =>
    if faults.del p then (cur, (Except.error PyErr.osError : Py Unit)) else (none, .ok ()))
    fs.parts ((w.list fs.parts).filter filters) ((hw fs.parts hs.bounded).1.filter _)).1 p
  rw [this]
  split
  · split
    · exact .inl rfl
    · exact .inr rfl
  · exact .inl rfl

/-- C30: the validation of the partitions keeps the collection in step. -/
theorem C30_validate (w : World P V) {o : Obj V} (filters : P → Bool) (fix : Bool)
    {fs : Files P V} (hs : Aligned o fs) :
    Aligned o (Sch.validatePartitions w filters fix fs).1 := by
  unfold Sch.validatePartitions
  simp only
  split
  · refine fewer_aligned hs fun p => ?_
    split
    · exact .inr rfl
    · exact .inl rfl
  · exact hs

/-- C30: an update keeps the collection in step, whatever the callback returns and whether it
raises. -/
theorem C30_update (w : World P V) {o : Obj V} (delayed : Bool) (sel : Option Names)
    (depth : Int) (filters : P → Bool) (f : Callback V (Dict V)) (isLazy : Bool)
    (vars : List String) (workers : Int) {fs : Files P V} (hs : Aligned o fs) :
    Aligned o (Sch.update w o delayed sel depth filters f isLazy vars workers fs).2.1 := by
  have hsame : ∀ (names : List String) (st : Store P V), SameStore names fs.parts st →
      Aligned o { fs with parts := st } := by
    intro names st h
    have hsub : ∀ p, st p ≠ none → fs.parts p ≠ none := by
      intro p hp hc
      have h := h p
      rw [hc] at h
      cases hv : st p with
      | none => exact hp hv
      | some ws => rw [hv] at h; exact h.elim
    refine ⟨hs.nodup, hs.keys, hs.config, ?_, hs.immutable, ?_, hs.immNames,
      bounded_of_subset hs.bounded hsub⟩
    · intro p ws hp
      have hp : st p = some ws := hp
      have h := h p
      rw [hp] at h
      cases hv : fs.parts p with
      | none => rw [hv] at h; exact h.elim
      | some vs =>
        rw [hv] at h
        exact Fits.congr (sameVars_sig h) (hs.parts p vs hv)
    · rintro himm ⟨p, hp⟩
      exact hs.stored himm ⟨p, hsub p hp⟩
  unfold Sch.update
  simp only
  split
  · exact hs
  · exact hs
  · split
    · exact hs
    · next v vs _ _ sel' _ =>
      have hex : ∀ r, Upd.update (cfgOf w o delayed (sel.map Names.all) filters fs) depth f isLazy
          (metaNames o.metas) (v :: vs) workers fs.parts = r →
          ∃ names, SameStore names fs.parts r.1 := by
        intro r hr
        unfold Upd.update at hr
        rw [if_neg (by simp)] at hr
        simp only at hr
        split at hr
        · rw [← hr]; exact ⟨[], SameStore.refl _ _⟩
        · split at hr
          · rw [← hr]; exact ⟨[], SameStore.refl _ _⟩
          · exact updateParts_sig hr
      obtain ⟨names, hn⟩ := hex _ rfl
      exact hsame names _ hn

/-! ### Histories -/

/-- The calls of a history that the theorem covers, in a state of the collection.  An
insertion gives a dataset that follows the metadata, with a merge callback that keeps the
variables; a variable that is added can be written as JSON and the collection has a partition;
the axis is not removed; arrays can be removed. -/
def Covered (w : World P V) (o : Obj V) (fs : Files P V) : Call P V → Prop
  | .insert _ _ _ merge ds => Insertable o ds ∧ ∀ f, merge = some f → KeepsSchema f
  | .addVariable faults m => w.serial m = true ∧ (∀ p, faults.del p = false) ∧
      ((∃ p, fs.parts p ≠ none) ∨ w.emptyBag = .ok ())
  | .dropVariable faults name => name ≠ o.axis ∧ ∀ p, faults.del p = false
  | _ => True

/-- The states of a collection after a history of calls, each one covered in the state where
it is made, with the collection opened again in write mode at any time. -/
inductive History (w : World P V) : Obj V → Files P V → Obj V → Files P V → Prop
  | start (o : Obj V) (fs : Files P V) : History w o fs o fs
  | call {o fs o1 fs1} (c : Call P V) : History w o fs o1 fs1 → Covered w o1 fs1 c →
      History w o fs (exec w o1 fs1 c).1 (exec w o1 fs1 c).2.1
  | reopen {o fs o1 fs1 o2 fs2} (readOnly : Bool) : History w o fs o1 fs1 →
      fromConfig w readOnly fs1 = (fs2, .ok o2) → History w o fs o2 fs2

/-- The state of a collection that is kept by the calls. -/
structure Sound (w : World P V) (o : Obj V) (fs : Files P V) : Prop where
  aligned : Aligned o fs
  axis : AxisKept o
  serial : ∀ m ∈ o.metas, w.serial m = true
  simple : o.imm = true → o.axis = o.dim

/-- One call keeps the collection in step. -/
theorem sound_exec {w : World P V} (hw : GoodWorld w) {o : Obj V} {fs : Files P V}
    (hs : Sound w o fs) {c : Call P V} (hc : Covered w o fs c) :
    Sound w (exec w o fs c).1 (exec w o fs c).2.1 := by
  have hkeep : ∀ fs', Aligned o fs' → Sound w o fs' := fun fs' h =>
    ⟨h, hs.axis, hs.serial, hs.simple⟩
  unfold exec
  split
  · exact hs
  · cases c with
    | partitions _ => exact hs
    | load _ _ _ _ _ => exact hs
    | map _ _ _ _ => exact hs
    | mapOverlap _ _ _ _ _ => exact hs
    | validatePartitions filters fix => exact hkeep _ (C30_validate w filters fix hs.aligned)
    | insert faults validate n merge ds =>
      exact hkeep _ (C30_insert w faults validate n hc.2 hs.simple hc.1 hs.aligned)
    | update delayed sel depth filters f isLazy vars workers =>
      exact hkeep _ (C30_update w delayed sel depth filters f isLazy vars workers hs.aligned)
    | dropPartitions filters faults =>
      exact hkeep _ (C30_drop_partitions hw filters faults hs.aligned)
    | addVariable faults m =>
      simp only
      obtain ⟨c1, c2, c3⟩ := hc
      have hser : ∀ x ∈ o.metas ++ [m], w.serial x = true := by
        intro x hx
        rw [List.mem_append, List.mem_singleton] at hx
        rcases hx with hx | rfl
        · exact hs.serial x hx
        · exact c1
      cases hr : Sch.addVariable w o faults m fs with
      | mk o' r =>
        obtain ⟨fs', r⟩ := r
        cases r with
        | error e =>
          obtain ⟨e1, _, _, e2⟩ := C30_add_failed_partial hw hs.aligned hr hser c2 c3
          simp only
          rw [e1] at e2 ⊢
          exact hkeep _ e2
        | ok u =>
          obtain ⟨e1, e2, _, _⟩ := C30_add hw hs.aligned hr
          simp only
          subst e2
          obtain ⟨a, a1, a2, a3⟩ := hs.axis
          exact ⟨e1, ⟨a, List.mem_append.2 (.inl a1), a2, a3⟩, hser, hs.simple⟩
    | dropVariable faults name =>
      simp only
      obtain ⟨c1, c2⟩ := hc
      cases hr : Sch.dropVariable w o faults name fs with
      | mk o' r =>
        obtain ⟨fs', r⟩ := r
        simp only
        cases r with
        | ok u =>
          obtain ⟨e1, e2, _, _⟩ := C30_drop hw hs.aligned hr
          subst e2
          obtain ⟨a, a1, a2, a3⟩ := hs.axis
          refine ⟨e1, ⟨a, List.mem_filter.2 ⟨a1, ?_⟩, a2, a3⟩,
            fun m hm => hs.serial m (List.mem_filter.1 hm).1, hs.simple⟩
          simpa [a2] using Ne.symm c1
        | error e =>
          rcases drop_spec hw hs.aligned.bounded hr with ⟨h1, _, _, _, h5⟩ | ⟨h1, _, _, _, _, _, _, h8⟩
          · subst h1
            rcases h5 with h5 | ⟨p, hp⟩
            · rw [h5]; exact hs
            · rw [c2 p] at hp; cases hp
          · obtain ⟨m, hm, hser⟩ := h8 e rfl
            subst h1
            rw [hs.serial m (List.mem_filter.1 hm).1] at hser
            cases hser

/-- C30: after any history of calls, successful or not, with the collection opened again at
any time, each partition stores exactly the variables of the metadata that are split, the
configuration describes them, and the collection can be opened again.  Missing for C30: see
`Covered`, each restriction of which is needed (`C30_counterexample`,
`C30_counterexample_json`, `C30_counterexample_empty`, `C30_counterexample_removal`), and the
collections with immutable variables whose axis has not the name of its dimension. -/
theorem C30_history_partial {w : World P V} (hw : GoodWorld w) {o o' : Obj V}
    {fs fs' : Files P V} (hs : Aligned o fs) (ha : AxisKept o)
    (hj : ∀ m ∈ o.metas, w.serial m = true) (himm : o.imm = true → o.axis = o.dim)
    (h : History w o fs o' fs') :
    Aligned o' fs' ∧ ∀ readOnly, ∃ o'', fromConfig w readOnly fs' = (fs', .ok o'') ∧
      o''.metas.Perm o'.metas ∧ Aligned o'' fs' := by
  have hsound : Sound w o' fs' := by
    induction h with
    | start => exact ⟨hs, ha, hj, himm⟩
    | call c _ hc ih => exact sound_exec hw ih hc
    | reopen readOnly _ hf ih =>
      rename_i o1 fs1 o2 fs2 _
      obtain ⟨o3, r1, r2, r3, r4, r5, r6, r7, r8, r9, r10⟩ := C30_reopen w ih.aligned ih.axis readOnly
      rw [r1] at hf
      cases hf
      refine ⟨r9, r10, fun m hm => ih.serial m (r5.mem_iff.1 hm), fun h => ?_⟩
      rw [r2, r6]
      exact ih.simple (by rw [← r7]; exact h)
  refine ⟨hsound.aligned, fun readOnly => ?_⟩
  obtain ⟨o3, r1, _, _, _, r5, _, _, _, r9, _⟩ :=
    C30_reopen w hsound.aligned hsound.axis readOnly
  exact ⟨o3, r1, r5, r9⟩

/-! ### An addition that is accepted -/

/-- C30: `add_variable` succeeds for a new variable with known dimensions, when another
variable has the same dimensions and the collection has a partition. -/
theorem C30_add_accepted {w : World P V} (hw : GoodWorld w) {o : Obj V} {fs : Files P V}
    (hs : Aligned o fs) (hj : ∀ x ∈ o.metas, w.serial x = true) (m : VarMeta V)
    (hm : w.serial m = true) (hd : o.dim ∈ m.dims) (hn : m.name ∉ o.metas.map (·.name))
    (hdims : ∀ d ∈ m.dims, d ∈ o.dims) (ht : ∃ t ∈ o.metas, t.dims = m.dims)
    (hp : ∃ p, fs.parts p ≠ none) :
    ∃ o' fs', Sch.addVariable w o Faults.never m fs = (o', fs', .ok ()) := by
  unfold Sch.addVariable
  rw [if_neg (by rw [Classical.not_not]; exact hd),
    if_neg (show m.name ∉ metaNames o.metas from hn),
    if_neg (by rintro ⟨d, h1, h2⟩; exact h2 (hdims d h1))]
  simp only
  obtain ⟨c, hc, _⟩ := writeConfig_spec (w := w) (o := { o with metas := o.metas ++ [m] })
    (fs := fs) (by
      intro x hx
      rw [List.mem_append, List.mem_singleton] at hx
      rcases hx with hx | rfl
      · exact hj x hx
      · exact hm)
  rw [hc]
  simp only
  obtain ⟨t, ht1, ht2⟩ := ht
  cases hf : (o.metas ++ [m]).find? fun t => decide (t.dims = m.dims) with
  | none =>
    rw [List.find?_eq_none] at hf
    exact absurd (by simpa using ht2) (hf t (List.mem_append.2 (.inl ht1)))
  | some t' =>
    have hmem : t' ∈ o.metas := by
      rw [List.find?_append] at hf
      cases hf1 : o.metas.find? fun t => decide (t.dims = m.dims) with
      | none =>
        rw [List.find?_eq_none] at hf1
        exact absurd (by simpa using ht2) (hf1 t ht1)
      | some x =>
        rw [hf1] at hf
        simp only [Option.some_or, Option.some.injEq] at hf
        subst hf
        exact List.mem_of_find?_eq_some hf1
    have htd : t'.dims = m.dims := by simpa using List.find?_some hf
    simp only
    have hbag : bag w fs.parts = .ok (w.list fs.parts) := by
      unfold bag
      cases hl : w.list fs.parts with
      | nil =>
        obtain ⟨p, hp⟩ := hp
        have := ((hw fs.parts hs.bounded).2 p).2 hp
        rw [hl] at this
        simp at this
      | cons a b => rfl
    rw [hbag]
    simp only
    have htask := (runTasks_spec (addTask w t'.name m Faults.never) fs.parts (w.list fs.parts)
      (hw fs.parts hs.bounded).1).2.2 (by
        intro p hpl
        have hne := ((hw fs.parts hs.bounded).2 p).1 hpl
        cases hv : fs.parts p with
        | none => exact absurd hv hne
        | some vars =>
          have hfit := hs.parts p vars hv
          have htn : t'.name ∈ vars.map (·.name) :=
            (hfit.names t'.name).2 ⟨t', hmem, rfl, by rw [htd]; exact hd⟩
          obtain ⟨v, hvm, hve⟩ := List.mem_map.1 htn
          have hget : getVar vars t'.name = some v := by
            rw [← hve]
            exact getVar_of_mem _ hfit.nodup v hvm
          have hvd : v.dims = m.dims := by rw [hfit.dims v hvm t' hmem hve.symm, htd]
          obtain ⟨size, hsize⟩ := hfit.sizes
          have hno : m.name ∉ vars.map (·.name) := by
            intro hc
            obtain ⟨x, hx, he, _⟩ := (hfit.names m.name).1 hc
            exact hn (he ▸ List.mem_map_of_mem hx)
          simp only [addTask, hget]
          rw [if_neg (by rw [hsize v hvm, hvd]; simp),
            if_neg (by rw [getVar_isSome]; exact hno)]
          rfl)
    cases hr : runTasks (addTask w t'.name m Faults.never) fs.parts (w.list fs.parts) with
    | mk st r =>
      rw [hr] at htask
      simp only at htask
      subst htask
      exact ⟨_, _, rfl⟩

/-- C30: an addition of a variable whose dimensions no other variable has always fails when
the collection has a partition: the variable is its own template. -/
theorem C30_no_template {w : World P V} (hw : GoodWorld w) {o : Obj V} {fs : Files P V}
    (hs : Aligned o fs) (faults : Faults P) (m : VarMeta V) (ht : ∀ t ∈ o.metas, t.dims ≠ m.dims)
    (hp : ∃ p, fs.parts p ≠ none) :
    ∃ o' fs' e, Sch.addVariable w o faults m fs = (o', fs', .error e) := by
  cases hr : Sch.addVariable w o faults m fs with
  | mk o' r =>
    obtain ⟨fs', r⟩ := r
    cases r with
    | error e => exact ⟨_, _, _, rfl⟩
    | ok u =>
      unfold Sch.addVariable at hr
      split at hr
      · cases hr
      · split at hr
        · cases hr
        · next hn =>
          split at hr
          · cases hr
          · simp only at hr
            split at hr
            · cases hr
            · next fs1 hwc =>
              have hparts : fs1.parts = fs.parts := by
                have := (writeConfig_parts (w := w) (o := { o with metas := o.metas ++ [m] })
                  (fs := fs)).1
                rw [hwc] at this
                exact this
              have hfind : (o.metas ++ [m]).find? (fun t => decide (t.dims = m.dims)) = some m := by
                rw [List.find?_append, List.find?_eq_none.2 (by
                  intro t h; simpa using ht t h)]
                simp
              rw [hfind] at hr
              simp only at hr
              obtain ⟨p, hp⟩ := hp
              rw [hparts] at hr
              have hpl := ((hw fs.parts hs.bounded).2 p).2 hp
              have hbag : bag w fs.parts = .ok (w.list fs.parts) := by
                unfold bag
                cases hl : w.list fs.parts with
                | nil => rw [hl] at hpl; simp at hpl
                | cons a b => rfl
              rw [hbag] at hr
              simp only at hr
              cases hv : fs.parts p with
              | none => exact absurd hv hp
              | some vars =>
                have hno : getVar vars m.name = none := by
                  cases hg : getVar vars m.name with
                  | none => rfl
                  | some v =>
                    have := (getVar_isSome vars m.name).1 (by rw [hg]; rfl)
                    obtain ⟨x, hx, he, _⟩ := ((hs.parts p vars hv).names m.name).1 this
                    exact absurd (he ▸ List.mem_map_of_mem hx) hn
                have htask : (runTasks (addTask w m.name m faults) fs.parts
                    (w.list fs.parts)).2 ≠ .ok () := by
                  intro hok
                  have := (runTasks_spec (addTask w m.name m faults) fs.parts _
                    (hw fs.parts hs.bounded).1).2.1 hok p hpl
                  rw [hv] at this
                  simp only [addTask, hno] at this
                  cases this
                split at hr
                · next st hst => rw [hst] at htask; exact absurd rfl htask
                · split at hr <;> cases hr

end Verif
