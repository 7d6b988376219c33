import Verif.Lemmas.Frame
import Verif.Spec.Immutable

/-! Lemmas on the variables that are not split. -/

namespace Verif

open Spec Nd Ds Sch Pipe Upd

variable {V : Type}

theorem keyVars_names {zds : Dataset V} (l : List String) {vs : List (Var V)}
    (h : keyVars zds l = .ok vs) : ∀ name ∈ l, ∃ v ∈ zds.vars, v.name = name := by
  induction l generalizing vs with
  | nil => simp
  | cons a t ih =>
    simp only [keyVars, bind, Except.bind, getVarE] at h
    cases hg : getVar zds.vars a with
    | none => rw [hg] at h; cases h
    | some v =>
      rw [hg] at h
      simp only at h
      split at h
      · cases h
      · split at h
        · cases h
        · next ws hw =>
          intro name hn
          rcases List.mem_cons.1 hn with rfl | hn
          · exact ⟨v, getVar_some _ _ _ hg⟩
          · exact ih hw name hn

theorem splitDataset_names {sc : Scheme V} {zds : Dataset V}
    {ps : List (List Int × (Nat × Nat))} (h : splitDataset sc zds = .ok ps) :
    ∀ name ∈ sc.variables, ∃ v ∈ zds.vars, v.name = name := by
  simp only [splitDataset, bind, Except.bind] at h
  split at h
  · cases h
  · next vs hv => exact keyVars_names _ hv

theorem selectByDims_mem {zds z : Dataset V} {axis : String} {b : Bool}
    (h : selectByDims zds [axis] b = .ok z) :
    ∀ v ∈ z.vars, v ∈ zds.vars ∧ decide (axis ∈ v.dims) = b := by
  intro v hv
  obtain ⟨h1, h2⟩ := List.mem_filter.1 (mk_mem h v hv)
  refine ⟨h1, ?_⟩
  have he : (v.dims.any fun d => decide (d ∈ [axis])) = decide (axis ∈ v.dims) := by
    rw [Bool.eq_iff_iff]
    simp
  rw [← he]
  simpa using h2

/-- What `takeImmutable` leaves and stores. -/
theorem takeImmutable_axis {P : Type} {o : Obj V} (hi : o.imm = true) {fs fs' : Files P V}
    {zds : Dataset V} {r : Py (Dataset V)} (h : takeImmutable o zds fs = (fs', r)) :
    (∀ z, r = .ok z → ∀ v ∈ z.vars, v ∈ zds.vars ∧ o.axis ∈ v.dims) ∧
    (fs' = fs ∨ fs.imm = none ∧ ∃ ids, selectByDims zds [o.axis] false = .ok ids ∧
      fs' = { fs with imm := some ids.vars }) := by
  have hsel : ∀ z : Dataset V, selectByDims zds [o.axis] true = .ok z →
      ∀ v ∈ z.vars, v ∈ zds.vars ∧ o.axis ∈ v.dims := fun z hz v hv =>
    ⟨(selectByDims_mem hz v hv).1, of_decide_eq_true (selectByDims_mem hz v hv).2⟩
  unfold takeImmutable at h
  rw [if_pos hi] at h
  split at h
  · cases h; exact ⟨hsel, .inl rfl⟩
  · next hn =>
    split at h
    · cases h; exact ⟨(fun z hz => by cases hz), .inl rfl⟩
    · next ids hids =>
      split at h
      · cases h; exact ⟨(fun z hz => by cases hz), .inl rfl⟩
      · cases h; exact ⟨hsel, .inr ⟨hn, ids, hids, rfl⟩⟩

/-- An insertion into a collection with variables that are not split. -/
theorem insert_axis {w : World (List Int) V} {o : Obj V} {sc : Scheme V}
    (hsplit : w.split = splitDataset sc) (hi : o.imm = true) {faults : Faults (List Int)}
    {validate : Bool} {np : Option Int} {merge : Option (Sch.Merge V)} {ds ds' : Dataset V}
    {fs fs' : Files (List Int) V} {r : Py (List (List Int))}
    (h : Sch.insert w o faults validate np merge ds fs = (ds', fs', r)) :
    (((∃ e, r = .error e) ∧ fs'.parts = fs.parts) ∨
      ∀ name ∈ sc.variables, ∃ v ∈ ds'.vars, v.name = name ∧ o.axis ∈ v.dims) ∧
    (fs'.imm = fs.imm ∨ fs.imm = none ∧ ∃ zds ids, setForInsertion ds' = .ok zds ∧
      selectByDims zds [o.axis] false = .ok ids ∧ fs'.imm = some ids.vars) := by
  unfold Sch.insert at h
  split at h
  · cases h; exact ⟨.inl ⟨⟨_, rfl⟩, rfl⟩, .inl rfl⟩
  · split at h
    · cases h; exact ⟨.inl ⟨⟨_, rfl⟩, rfl⟩, .inl rfl⟩
    · split at h
      · cases h; exact ⟨.inl ⟨⟨_, rfl⟩, rfl⟩, .inl rfl⟩
      · split at h
        · cases h; exact ⟨.inl ⟨⟨_, rfl⟩, rfl⟩, .inl rfl⟩
        · next zds hz =>
          obtain ⟨hd, h'⟩ := Prod.mk.inj h
          clear h
          rw [hd] at hz
          clear hd
          have h := h'
          clear h'
          simp only [insertReady] at h
          split at h
          · next fs1 e ht =>
            obtain ⟨rfl, rfl⟩ := Prod.mk.inj h
            refine ⟨.inl ⟨⟨_, rfl⟩, (takeImmutable_mem ht).1⟩, ?_⟩
            rcases (takeImmutable_axis hi ht).2 with rfl | ⟨h1, ids, h2, rfl⟩
            · exact .inl rfl
            · exact .inr ⟨h1, zds, ids, hz, h2, rfl⟩
          · next fs1 z ht =>
            obtain ⟨t1, t2⟩ := takeImmutable_axis hi ht
            have hp := (takeImmutable_mem ht).1
            have himm : fs1.imm = fs.imm ∨ fs.imm = none ∧ ∃ zds' ids,
                setForInsertion ds' = .ok zds' ∧ selectByDims zds' [o.axis] false = .ok ids ∧
                fs1.imm = some ids.vars := by
              rcases t2 with rfl | ⟨h1, ids, h2, rfl⟩
              · exact .inl rfl
              · exact .inr ⟨h1, zds, ids, hz, h2, rfl⟩
            split at h
            · obtain ⟨rfl, rfl⟩ := Prod.mk.inj h
              exact ⟨.inl ⟨⟨_, rfl⟩, hp⟩, himm⟩
            · next pieces hpc =>
              have hkeys : ∀ name ∈ sc.variables, ∃ v ∈ ds'.vars, v.name = name ∧
                  o.axis ∈ v.dims := by
                intro name hn
                rw [hsplit] at hpc
                obtain ⟨v, hv, he⟩ := splitDataset_names hpc name hn
                obtain ⟨h1, h2⟩ := t1 z rfl v hv
                exact ⟨v, mk_mem hz v h1, he, h2⟩
              split at h
              · obtain ⟨rfl, rfl⟩ := Prod.mk.inj h
                exact ⟨.inr hkeys, himm⟩
              · split at h
                · obtain ⟨rfl, rfl⟩ := Prod.mk.inj h
                  exact ⟨.inr hkeys, himm⟩
                · obtain ⟨rfl, rfl⟩ := Prod.mk.inj h
                  exact ⟨.inr hkeys, himm⟩

theorem complete_dims {P : Type} {w : World P V} (ms : List (VarMeta V)) {ds ds' : Dataset V}
    {r : Py Unit} (h : complete w ds ms = (ds', r)) :
    ∀ v ∈ ds'.vars, v ∈ ds.vars ∨ ∃ m ∈ ms, v.name = m.name ∧ v.dims = m.dims := by
  have hadd : ∀ (m : VarMeta V) (ds ds' : Dataset V) (r : Py Unit),
      Ds.addVariable ds m w.noneValue none = (ds', r) →
      ∀ v ∈ ds'.vars, v ∈ ds.vars ∨ v.name = m.name ∧ v.dims = m.dims := by
    intro m ds ds' r h v hv
    unfold Ds.addVariable at h
    split at h
    · cases h; exact .inl hv
    · simp only at h
      split at h
      · cases h; exact .inl hv
      · cases h
        rcases mem_setVar _ _ _ hv with hv | hv
        · subst hv; exact .inr ⟨rfl, rfl⟩
        · exact .inl hv
  induction ms generalizing ds with
  | nil => simp only [complete] at h; cases h; exact fun v hv => .inl hv
  | cons m t ih =>
    simp only [complete] at h
    split at h
    · next ds1 h1 =>
      intro v hv
      rcases ih h v hv with hv | ⟨m', hm', he⟩
      · rcases hadd m ds ds1 _ h1 v hv with hv | he
        · exact .inl hv
        · exact .inr ⟨m, List.mem_cons_self, he⟩
      · exact .inr ⟨m', List.mem_cons_of_mem _ hm', he⟩
    · next ds1 e h1 =>
      cases h
      intro v hv
      rcases hadd m ds ds' _ h1 v hv with hv | he
      · exact .inl hv
      · exact .inr ⟨m, List.mem_cons_self, he⟩

/-- The variables of the completed dataset are those of the caller or of the metadata. -/
theorem insert_dims {P : Type} [DecidableEq P] {w : World P V} {o : Obj V} {faults : Faults P}
    {validate : Bool} {np : Option Int} {merge : Option (Sch.Merge V)} {ds ds' : Dataset V}
    {fs fs' : Files P V} {r : Py (List P)}
    (h : Sch.insert w o faults validate np merge ds fs = (ds', fs', r)) :
    ∀ v ∈ ds'.vars, v ∈ ds.vars ∨ ∃ m ∈ o.metas, v.name = m.name ∧ v.dims = m.dims := by
  unfold Sch.insert at h
  split at h
  · cases h; exact fun v hv => .inl hv
  · next ms hms =>
    have hsub : ∀ m ∈ ms, m ∈ o.metas := by
      unfold missing at hms
      split at hms
      · cases hms
      · cases hms; exact fun m hm => (List.mem_filter.1 hm).1
    have key : ∀ (d : Dataset V) (q : Py Unit), complete w ds ms = (d, q) → d = ds' →
        ∀ v ∈ ds'.vars, v ∈ ds.vars ∨ ∃ m ∈ o.metas, v.name = m.name ∧ v.dims = m.dims := by
      rintro d q hc rfl v hv
      exact (complete_dims ms hc v hv).imp_right fun ⟨m, hm, he⟩ => ⟨m, hsub m hm, he⟩
    split at h
    · next hc => exact key _ _ hc (Prod.mk.inj h).1
    · next hc =>
      split at h
      · exact key _ _ hc (Prod.mk.inj h).1
      · split at h
        · exact key _ _ hc (Prod.mk.inj h).1
        · exact key _ _ hc (Prod.mk.inj h).1

/-! ### No call but an insertion makes a partition -/

theorem sameStore_absent {P : Type} {names : List String} {st st' : Store P V}
    (h : SameStore names st st') (k : P) (hk : st k = none) : st' k = none := by
  have := h k
  rw [hk] at this
  cases h2 : st' k with
  | none => rfl
  | some ws => rw [h2] at this; exact this.elim

theorem updateParts_absent {P : Type} [DecidableEq P] {c : Cfg P V} {f : Callback V (Dict V)}
    {isLazy : Bool} {ps : List P} {st st' : Store P V} {r : Py Unit}
    (h : updateParts c f isLazy st ps = (st', r)) (k : P) (hk : st k = none) : st' k = none := by
  have hlazy : ∀ (p : P) (l : List Nat) (st st' : Store P V) (r : Py Unit),
      writeLazy c f p st l = (st', r) → st k = none → st' k = none := by
    intro p l
    induction l with
    | nil => intro st st' r h hk; cases h; exact hk
    | cons a t ih =>
      intro st st' r h hk
      simp only [writeLazy] at h
      split at h
      · cases h; exact hk
      · split at h
        · cases h; exact hk
        · split at h
          · cases h; exact hk
          · next st1 hw => exact ih st1 st' r h (sameStore_absent (writeItem_spec hw).2.1 k hk)
  have hone : ∀ (p : P) (st st' : Store P V) (r : Py Unit),
      updatePart c f isLazy st p = (st', r) → st k = none → st' k = none := by
    intro p st st' r h hk
    unfold updatePart at h
    split at h
    · cases h; exact hk
    · split at h
      · exact hlazy p _ st st' r h hk
      · exact sameStore_absent (writeAll_spec h).2.1 k hk
  induction ps generalizing st with
  | nil => cases h; exact hk
  | cons p t ih =>
    simp only [updateParts] at h
    split at h
    · next st1 e hp => cases h; exact hone p st _ _ hp hk
    · next st1 hp => exact ih h (hone p st st1 _ hp hk)

theorem runTasks_absent {P : Type} [DecidableEq P]
    {f : P → Option (List (Var V)) → Option (List (Var V)) × Py Unit} (l : List P) (k : P)
    (hf : (f k none).1 = none) (st : Store P V) (hk : st k = none) :
    (runTasks f st l).1 k = none := by
  induction l generalizing st with
  | nil => exact hk
  | cons p t ih =>
    simp only [runTasks]
    refine ih _ ?_
    by_cases hp : k = p
    · subst hp
      simp only [if_true]
      rw [hk]
      exact hf
    · simp [hp, hk]

/-- No call but an insertion makes a partition. -/
theorem exec_absent {P : Type} [DecidableEq P] {w : World P V} (o : Obj V) (fs : Files P V)
    (c : Call P V) (k : P) (hk : fs.parts k = none)
    (hc : ∀ faults validate np merge ds, c = .insert faults validate np merge ds →
      (Sch.insert w o faults validate np merge ds fs).2.1.parts k = none) :
    (exec w o fs c).2.1.parts k = none := by
  unfold exec
  split
  · exact hk
  · cases c with
    | partitions filters => exact hk
    | load le delayed sel filters ix => exact hk
    | map delayed sel filters f => exact hk
    | mapOverlap delayed sel filters depth f => exact hk
    | validatePartitions filters fix =>
      simp only [Sch.validatePartitions]
      split
      · simp only [hk, ite_self]
      · exact hk
    | insert faults validate np merge ds => exact hc faults validate np merge ds rfl
    | update delayed sel depth filters f isLazy vars workers =>
      simp only [Sch.update]
      split
      · exact hk
      · exact hk
      · split
        · exact hk
        · next v vs _ _ sel' _ =>
          simp only
          rcases update_cases (cfgOf w o delayed (sel.map Names.all) filters fs) depth f isLazy
            (metaNames o.metas) (v :: vs) workers fs.parts with
            ⟨e, h⟩ | ⟨_, _, h⟩ | ⟨_, c', _, _, _, _, _, _, _, h⟩
          · rw [h]; exact hk
          · rw [h]; exact hk
          · rw [h]; exact updateParts_absent rfl k hk
    | addVariable faults m =>
      have h1 : SameAt k (m.name ++ "'") fs.parts (Sch.addVariable w o faults m fs).2.1.parts :=
        addVariable_agree (fun h => by
          have := congrArg String.length h
          rw [String.length_append] at this
          have : ("'" : String).length = 1 := rfl
          omega) fs k
      exact h1.1.1 hk
    | dropVariable faults name =>
      have h1 : SameAt k (name ++ "'") fs.parts
          (Sch.dropVariable w o faults name fs).2.1.parts :=
        dropVariable_agree (fun h => by
          have := congrArg String.length h
          rw [String.length_append] at this
          have : ("'" : String).length = 1 := rfl
          omega) fs k
      exact h1.1.1 hk
    | dropPartitions filters faults =>
      refine runTasks_absent _ k ?_ fs.parts hk
      split <;> rfl

end Verif
