import Verif.Spec.IndexFile
import Verif.Props.Index
import Verif.Props.IndexQuery

/-! Lemmas on the life of an index. -/

namespace Verif

open Spec Ix

theorem setName_new (fs : List String) (k : String) (h : k ∉ fs) : setName fs k = fs ++ [k] := by
  induction fs with
  | nil => rfl
  | cons f t ih =>
    simp only [List.mem_cons, not_or] at h
    rw [setName, if_neg (fun e => h.1 e.symm), ih h.2]
    rfl

theorem foldl_setName_new (ks fs : List String) (h : (fs ++ ks).Nodup) :
    ks.foldl setName fs = fs ++ ks := by
  induction ks generalizing fs with
  | nil => simp
  | cons k t ih =>
    have hk : k ∉ fs := by
      intro hm
      rw [List.nodup_append] at h
      exact h.2.2 k hm k (by simp) rfl
    rw [List.foldl_cons, setName_new fs k hk, ih _ (by simpa using h)]
    simp

theorem setType_new (fs : List (String × String)) (k : String × String)
    (h : k.1 ∉ fs.map (·.1)) : setType fs k = fs ++ [k] := by
  induction fs with
  | nil => rfl
  | cons f t ih =>
    simp only [List.map_cons, List.mem_cons, not_or] at h
    rw [setType, if_neg (fun e => h.1 e.symm), ih h.2]
    rfl

theorem foldl_setType_new (ks fs : List (String × String)) (h : ((fs ++ ks).map (·.1)).Nodup) :
    ks.foldl setType fs = fs ++ ks := by
  induction ks generalizing fs with
  | nil => simp
  | cons k t ih =>
    have hk : k.1 ∉ fs.map (·.1) := by
      intro hm
      rw [List.map_append, List.nodup_append] at h
      exact h.2.2 k.1 hm k.1 (by simp) rfl
    rw [List.foldl_cons, setType_new fs k hk, ih _ (by simpa using h)]
    simp

theorem filterMap_some_of {α : Type} (f : α → Option α) (l : List α) (h : ∀ x ∈ l, f x = some x) :
    l.filterMap f = l := by
  induction l with
  | nil => rfl
  | cons a t ih =>
    rw [List.filterMap_cons_some (h a (by simp)), ih fun x hx => h x (by simp [hx])]

theorem columnTypes_all (types : List (String × String)) (h : (types.map (·.1)).Nodup) :
    (types.map (·.1)).filterMap (fun n => (types.lookup n).map fun ty => (n, ty)) = types := by
  rw [List.filterMap_map]
  have : ∀ x ∈ types, ((fun n => (types.lookup n).map fun ty => (n, ty)) ∘ (·.1)) x = some x := by
    intro x hx
    have hl : types.lookup x.1 = some x.2 := by
      induction types with
      | nil => cases hx
      | cons y t ih =>
        simp only [List.map_cons, List.nodup_cons] at h
        rcases List.mem_cons.1 hx with rfl | hx'
        · simp [List.lookup]
        · have hne : x.1 ≠ y.1 := fun e => h.1 (e ▸ List.mem_map_of_mem hx')
          rw [List.lookup_cons, show (x.1 == y.1) = false by simpa using hne]
          exact ih h.2 hx'
    simp [hl]
  exact filterMap_some_of _ _ this

/-- The columns of the file and of the objects are those of the class, then the keys. -/
structure IndexInv (dtype schema info : List (String × String)) (w : World) : Prop where
  objs : ∀ i o, w.objs i = some o → o.keys = schema.map (·.1) ∧ o.types = dtype ++ schema ∧
    o.info = info
  file : ∀ g, w.file = some g → g.table.names = (dtype ++ schema).map (·.1) ∧
    (∀ r ∈ g.table.rows, r.map (·.1) = g.table.names) ∧ g.types = dtype ++ schema ∧
    g.info = if info = [] then none else some info

theorem index_start (dtype schema info : List (String × String)) :
    IndexInv dtype schema info World.start where
  objs := fun _ _ h => by simp [World.start] at h
  file := fun _ h => by simp [World.start] at h

variable {dtype schema info : List (String × String)} {w : World}

theorem IndexInv.set (h : IndexInv dtype schema info w) (i : Nat) (o : Obj)
    (ho : o.keys = schema.map (·.1) ∧ o.types = dtype ++ schema ∧ o.info = info) :
    IndexInv dtype schema info (w.set i o) := by
  refine ⟨?_, h.file⟩
  intro j o' hj
  simp only [World.set] at hj
  split at hj
  · cases hj
    exact ho
  · exact h.objs j o' hj

theorem create_inv (hd : KeysApart dtype schema) :
    (create dtype schema info).keys = schema.map (·.1) ∧
      (create dtype schema info).types = dtype ++ schema ∧ (create dtype schema info).info = info :=
  ⟨rfl, foldl_setType_new _ _ hd, rfl⟩

theorem openFile_inv (hd : KeysApart dtype schema) (h : IndexInv dtype schema info w) (o : Obj)
    (ho : openFile dtype w.file = .ok o) :
    o.keys = schema.map (·.1) ∧ o.types = dtype ++ schema ∧ o.info = info ∧ o.cache = none := by
  cases hf : w.file with
  | none => rw [hf] at ho; cases ho
  | some g =>
    rw [hf] at ho
    obtain ⟨_, _, h3, h4⟩ := h.file g hf
    simp only [openFile] at ho
    cases ho
    refine ⟨?_, h3, ?_, rfl⟩
    · simp only [h3]
      rw [List.map_append, List.filter_append]
      have h1 : (dtype.map (·.1)).filter (fun n => decide (n ∉ dtype.map (·.1))) = [] := by
        rw [List.filter_eq_nil_iff]
        intro n hn
        simpa using hn
      have h2 : (schema.map (·.1)).filter (fun n => decide (n ∉ dtype.map (·.1))) =
          schema.map (·.1) := by
        rw [List.filter_eq_self]
        intro n hn
        rw [decide_eq_true_eq]
        intro hm
        unfold KeysApart at hd
        rw [List.map_append, List.nodup_append] at hd
        exact hd.2.2 n hm n hn rfl
      rw [h1, h2]
      rfl
    · simp only [h4]
      by_cases hi : info = []
      · simp [hi]
      · simp [hi]

theorem readObj_inv (f : Option File) (o : Obj) :
    (readObj o f).1.keys = o.keys ∧ (readObj o f).1.types = o.types ∧
      (readObj o f).1.info = o.info := by
  unfold readObj
  split <;> exact ⟨rfl, rfl, rfl⟩

theorem state_good (hd : KeysApart dtype schema) (hne : schema ≠ [])
    (h : IndexInv dtype schema info w) (o : Obj)
    (ho : o.keys = schema.map (·.1) ∧ o.types = dtype ++ schema ∧ o.info = info) :
    GoodIndex (o.state w.file) (dtype.map (·.1)) := by
  have hnd : (dtype.map (·.1) ++ schema.map (·.1)).Nodup := by
    rw [← List.map_append]; exact hd
  refine ⟨?_, ?_, ?_, ?_⟩
  · show o.keys ≠ []
    rw [ho.1]
    simpa using hne
  · show o.keys.Nodup
    rw [ho.1]
    exact (List.nodup_append.1 hnd).2.1
  · intro n hn
    show n ∈ o.types.map (·.1)
    rw [ho.2.1, List.map_append]
    rw [show (o.state w.file).keys = schema.map (·.1) from ho.1] at hn
    rw [List.mem_append] at hn ⊢
    exact hn.symm
  · intro t ht
    obtain ⟨g, hg, rfl⟩ := Option.map_eq_some_iff.1 (show w.file.map (·.table) = some t from ht)
    obtain ⟨h1, h2, _⟩ := h.file g hg
    refine ⟨?_, h2⟩
    show g.table.names = o.keys.foldl setName _
    rw [ho.1, foldl_setName_new _ _ hnd, h1, List.map_append]

theorem rows_good (o : Obj) (f : Option File) (ho : o.keys = schema.map (·.1))
    (l : List (List (String × Int) × Data)) (hl : GoodRows dtype schema l) :
    GoodResults (o.state f) (dtype.map (·.1)) l := by
  refine ⟨hl.1, fun x hx => ?_, fun x hx => (hl.2 x hx).2.1, fun x hx v hv => ?_⟩
  · show _ = o.keys
    rw [ho]
    exact (hl.2 x hx).1
  · rw [List.length_map]
    exact (hl.2 x hx).2.2 v hv

/-- What an update does to the file. -/
theorem updateObj_ok (hd : KeysApart dtype schema) (hne : schema ≠ [])
    (h : IndexInv dtype schema info w) (o : Obj)
    (ho : o.keys = schema.map (·.1) ∧ o.types = dtype ++ schema ∧ o.info = info)
    (l : List (List (String × Int) × Data)) (hl : GoodRows dtype schema l) :
    ∃ o' f', updateObj o w.file (.ok l) = ((o', f'), .ok ()) ∧
      (o'.keys = schema.map (·.1) ∧ o'.types = dtype ++ schema ∧ o'.info = info) ∧
      IndexInv dtype schema info { w with file := f' } ∧
      (∀ x ∈ l, x.2.rows ≠ [] → Computed x.1 x.2 (computedRows x.1 (rowsIn f'))) ∧
      (∀ part : List (String × Int), part.map (·.1) = schema.map (·.1) →
        (∀ x ∈ l, x.1 = part → x.2.rows = []) →
        computedRows part (rowsIn f') = computedRows part (rowsIn w.file)) ∧
      ((∃ x ∈ l, x.2.rows ≠ []) → ∃ g, f' = some g ∧ o'.cache = some g.table) ∧
      ((∀ x ∈ l, x.2.rows = []) → f' = w.file ∧ o' = o) := by
  have hg := state_good hd hne h o ho
  have hr := rows_good o w.file ho.1 l hl
  have hnd : (dtype.map (·.1) ++ schema.map (·.1)).Nodup := by
    rw [← List.map_append]; exact hd
  obtain ⟨st', hu, g1, g2, _, _, g5, _⟩ := C41_update_partial _ _ hg l hr
  by_cases hrows : ∃ x ∈ l, x.2.rows ≠ []
  · obtain ⟨t, hu', htn, _⟩ := update_ok _ _ hg l hr hrows
    rw [hu'] at hu
    cases hu
    have hem : emptyResults (.ok l) = false := by
      obtain ⟨x, hx, hxr⟩ := hrows
      simp only [emptyResults, List.all_eq_false, decide_eq_true_eq]
      exact ⟨x, hx, by simpa using hxr⟩
    have htn' : t.names = (dtype ++ schema).map (·.1) := by
      rw [htn, show (o.state w.file).keys = schema.map (·.1) from ho.1, foldl_setName_new _ _ hnd,
        List.map_append]
    have hct : columnTypes o.types t = dtype ++ schema := by
      unfold columnTypes
      rw [htn', ho.2.1]
      exact columnTypes_all _ hd
    have hany : (w.file.any fun g => decide (g.types ≠ columnTypes o.types t)) = false := by
      cases hf : w.file with
      | none => rfl
      | some g =>
        have := (h.file g hf).2.2.1
        simp [Option.any, this, hct]
    refine ⟨{ o with cache := some t },
      some { table := t, types := columnTypes o.types t, info := infoOf o w.file }, ?_, ho, ?_, g1,
      ?_, fun _ => ⟨_, rfl, rfl⟩, fun hall => ?_⟩
    · simp only [updateObj, hu', hem, hany]
      rfl
    · refine ⟨h.objs, ?_⟩
      intro g hgf
      cases hgf
      refine ⟨htn', ?_, hct, ?_⟩
      · have := g5.file t rfl
        exact this.2
      · simp only [infoOf, ho.2.2]
        cases hf : w.file with
        | none =>
          by_cases hi : info = []
          · simp [hi]
          · simp [hi]
        | some g =>
          have := (h.file g hf).2.2.2
          by_cases hi : info = []
          · simp [hi, this]
          · simp [hi, this]
    · intro part hp hall
      rw [show rowsIn w.file = fileRows (o.state w.file) by cases w.file <;> rfl]
      exact g2 part (hp.trans ho.1.symm) hall
    · obtain ⟨x, hx, hxr⟩ := hrows
      exact absurd (hall x hx) hxr
  · have hrows' : ∀ x ∈ l, x.2.rows = [] := fun x hx =>
      Classical.byContradiction fun hc => hrows ⟨x, hx, hc⟩
    have hem : emptyResults (.ok l) = true := by
      simp only [emptyResults, List.all_eq_true, decide_eq_true_eq]
      intro x hx
      rw [hrows' x hx]
      rfl
    refine ⟨o, w.file, ?_, ho, h, fun x hx hc => absurd (hrows' x hx) hc, fun _ _ _ => rfl,
      fun hc => absurd hc hrows, fun _ => ⟨rfl, rfl⟩⟩
    simp only [updateObj, hu, hem]
    rfl

theorem updateObj_error (o : Obj) (f : Option File) (e : PyErr) :
    updateObj o f (.error e) = ((o, f), .error e) := rfl

/-- The calls keep the invariant. -/
theorem index_step (hd : KeysApart dtype schema) (hne : schema ≠ [])
    (h : IndexInv dtype schema info w) (c : Call) (hc : AllowedCall dtype schema info w c) :
    IndexInv dtype schema info (w.step dtype schema c) := by
  cases c with
  | create i m =>
    simp only [AllowedCall] at hc
    subst hc
    exact h.set i _ (create_inv hd)
  | reopen i =>
    simp only [World.step]
    split
    · next o ho =>
      obtain ⟨h1, h2, h3, _⟩ := openFile_inv hd h o ho
      exact h.set i o ⟨h1, h2, h3⟩
    · exact h
  | update i r =>
    simp only [World.step]
    split
    · next o ho =>
      have hobj := h.objs i o ho
      cases r with
      | error e =>
        rw [updateObj_error]
        exact h.set i o hobj
      | ok l =>
        obtain ⟨o', f', h1, h2, h3, _⟩ := updateObj_ok hd hne h o hobj l (hc.2 l rfl)
        rw [h1]
        exact h3.set i o' h2
    · exact h
  | query i columns op mask only =>
    simp only [World.step]
    split
    · next o ho =>
      have hobj := h.objs i o ho
      obtain ⟨h1, h2, h3⟩ := readObj_inv w.file o
      refine h.set i _ ?_
      unfold queryObj
      split
      · exact hobj
      · exact ⟨h1.trans hobj.1, h2.trans hobj.2.1, h3.trans hobj.2.2⟩
    · exact h
  | table i =>
    simp only [World.step]
    split
    · next o ho =>
      have hobj := h.objs i o ho
      obtain ⟨h1, h2, h3⟩ := readObj_inv w.file o
      refine h.set i _ ?_
      unfold tableObj
      split
      · exact hobj
      · exact ⟨h1.trans hobj.1, h2.trans hobj.2.1, h3.trans hobj.2.2⟩
    · exact h

theorem index_run (hd : KeysApart dtype schema) (hne : schema ≠ []) (calls : List Call) (w : World)
    (h : IndexInv dtype schema info w) (hc : AllowedCalls dtype schema info w calls) :
    IndexInv dtype schema info (w.run dtype schema calls) := by
  induction calls generalizing w with
  | nil => exact h
  | cons c t ih => exact ih _ (index_step hd hne h c hc.1) hc.2

end Verif
