import Verif.Props.Open

/-! C60: opening a view gives back the view that was created; metadata saved later. -/

namespace Verif

open Spec Opn Meta
open Config (Handler Cfg)

variable {F : Type}

/-! ### Collections saved again -/

/-- The configuration of a collection. -/
def stored (c : Coll) : File CollFile :=
  .ok { axis := c.axis, dataset := c.metadata.getConfig,
        partitioning := Config.getConfig c.handler }

/-- C60: after `_write_config` (done by `add_variable` and `drop_variable`), the collection is
opened with its current metadata, up to tuples; nothing else changes. -/
theorem C60_saved (w : World F) (c : Coll) (hv : Valid c) (hs : w.serial c.metadata = true)
    (disk : Disk F) (mode : Option String)
    (hm : mode = none ∨ mode = some "r" ∨ mode = some "w") :
    ∃ disk' c', writeConfig w c false disk = (disk', .ok ()) ∧
      (∀ p, p ≠ c.dir → disk' p = disk p) ∧ partsOf disk' c.dir = partsOf disk c.dir ∧
      openCollection w c.dir mode disk' = (disk', .ok c') ∧ c'.axis = c.axis ∧
      SameMeta c'.metadata (listed c.metadata) ∧ c'.dim = c.dim ∧ c'.dir = c.dir ∧
      Config.keys c'.handler = Config.keys c.handler := by
  have hw : ∃ d : Dir F, writeConfig w c false disk = (put disk c.dir d, .ok ()) ∧
      d.coll = .ok { axis := c.axis, dataset := c.metadata.getConfig,
                     partitioning := Config.getConfig c.handler } ∧
      d.parts = partsOf disk c.dir := by
    unfold writeConfig partsOf
    cases hd : disk c.dir with
    | none =>
      refine ⟨{ (emptyDir : Dir F) with coll := stored c }, ?_, rfl, rfl⟩
      dsimp only [emptyDir, stored]
      rw [if_pos hs]
    | some d =>
      refine ⟨{ d with coll := stored c }, ?_, rfl, rfl⟩
      dsimp only [stored]
      cases d.coll <;> simp [hs]
  obtain ⟨d, h1, h2, h3⟩ := hw
  have hp : put disk c.dir d c.dir = some d := by unfold put; rw [if_pos rfl]
  obtain ⟨c', g1, g2, g3, g4, g5, g6, _⟩ := open_stored w c hv (put disk c.dir d) c.dir d hp h2
    mode hm
  obtain ⟨h', k1, _, _, k4, _⟩ := stored_handler c.handler hv.handler
  rw [k1] at g4
  have g4' := Except.ok.inj g4
  subst g4'
  refine ⟨put disk c.dir d, c', h1, ?_, ?_, g1, g2, ?_, g5, g6, k4⟩
  · intro p hne
    unfold put
    rw [if_neg hne]
  · show (match put disk c.dir d c.dir with | none => [] | some d => d.parts) = _
    rw [hp]
    exact h3
  · rw [g3]
    exact stored_meta c.metadata hv.wf

example : Valid { axis := "time", metadata := OpenCase.dsTuple, handler := OpenCase.monthly,
                  dir := "/c", dim := "num_lines", mode := "w" } := by
  refine ⟨OpenCase.dsTuple_wf, .inr OpenCase.monthly_date, by decide, ⟨_, [], rfl, rfl⟩⟩

/-! ### Creation of views -/

/-- C60: creating a view where something exists raises `ValueError` and changes nothing. -/
theorem C60_view_exists (w : World F) (path ref : String) (filters : Option F) (disk : Disk F)
    (d : Dir F) (h : disk path = some d) :
    createView w path ref filters disk = (disk, .error .valueError) := by
  unfold createView
  rw [h]

/-- C60: creating a view of something that cannot be opened raises the error of the opening
and changes nothing. -/
theorem C60_view_no_reference (w : World F) (path ref : String) (filters : Option F)
    (disk disk' : Disk F) (e : PyErr) (hp : disk path = none)
    (h : openCollection w ref (some "r") disk = (disk', .error e)) :
    createView w path ref filters disk = (disk, .error e) := by
  have hu := C60_open_unchanged w ref (some "r") disk
  rw [h] at hu
  unfold createView
  rw [hp]
  dsimp only
  unfold viewInit
  rw [h]
  rw [show disk' = disk from hu]

theorem open_exists (w : World F) (path : String) (mode : Option String) (disk disk' : Disk F)
    (c : Coll) (h : openCollection w path mode disk = (disk', .ok c)) : ∃ d, disk path = some d := by
  unfold openCollection at h
  cases hd : disk path with
  | none => rw [hd] at h; cases h
  | some d => exact ⟨d, rfl⟩

theorem open_dir (w : World F) (path : String) (mode : Option String) (disk disk' : Disk F)
    (c : Coll) (h : openCollection w path mode disk = (disk', .ok c)) : c.dir = path := by
  unfold openCollection at h
  split at h
  · cases h
  · split at h
    · cases h
    · cases h
    · split at h
      · cases h
      · unfold collInit at h
        split at h
        · cases h
        · next c' hr =>
          have h4 := ((readOnlyInit_ok _ _ _ _ _ _).1 hr).2.2.2.1
          split at h
          · cases h; exact h4
          · split at h
            · cases h; exact h4
            · cases h

/-- Opening for reading only depends on the directory of the collection. -/
theorem open_congr (w : World F) (path : String) (disk disk2 : Disk F) (c : Coll)
    (he : disk2 path = disk path)
    (h : openCollection w path (some "r") disk = (disk, .ok c)) :
    openCollection w path (some "r") disk2 = (disk2, .ok c) := by
  unfold openCollection at h ⊢
  rw [he]
  cases hd : disk path with
  | none => rw [hd] at h; cases h
  | some d =>
    rw [hd] at h
    dsimp only at h ⊢
    cases hc : d.coll with
    | absent => rw [hc] at h; cases h
    | torn => rw [hc] at h; cases h
    | ok k =>
      rw [hc] at h
      dsimp only at h ⊢
      cases hg : (Config.getCodecs k.partitioning).1 with
      | error e => rw [hg] at h; cases h
      | ok handler =>
        rw [hg] at h
        dsimp only at h ⊢
        unfold collInit at h ⊢
        cases hr : readOnlyInit k.axis (Ds.fromConfig k.dataset) handler path
            (some (modeOr (some "r") "r")) with
        | error e => rw [hr] at h; cases h
        | ok c' =>
          rw [hr] at h
          have h5 : c'.mode = "r" := ((readOnlyInit_ok _ _ _ _ _ _).1 hr).2.2.2.2.1
          dsimp only at h ⊢
          rw [if_pos h5] at h ⊢
          cases h
          rfl

/-- The metadata of a view without variable. -/
def noVars (dims : List String) : Ds :=
  { dims, vars := [], attrs := [], chunks := [], limit := 134217728 }

theorem mkDs_noVars (dims : List String) : mkDs dims [] [] [] none = noVars dims := rfl

theorem noVars_stored (dims : List String) :
    Ds.fromConfig (noVars dims).getConfig = noVars dims := rfl

theorem SameMeta.refl (d : Ds) : SameMeta d d :=
  ⟨rfl, rfl, rfl, .refl _, fun v hv => ⟨v, hv, rfl, rfl, rfl, .refl _, rfl, rfl, rfl⟩,
    fun v hv => ⟨v, hv, rfl, rfl, rfl, .refl _, rfl, rfl, rfl⟩⟩

/-- The directory of a new view. -/
def newDir (w : World F) (path ref : String) (dims : List String) (filters : Option F)
    (parts : List String) : Dir F :=
  { coll := .absent
    view := .ok { base := path, filters := storedFilters w filters,
                  metadata := (noVars dims).getConfig, ref := ref }
    parts := parts }

theorem dir_twice (disk : Disk F) (p : String) (a b : Dir F) : put (put disk p a) p b = put disk p b := by
  funext q
  unfold put
  split <;> rfl

theorem dir_same (disk : Disk F) (p : String) (a : Dir F) : put disk p a p = some a := by
  unfold put
  rw [if_pos rfl]

theorem dir_other (disk : Disk F) (p q : String) (a : Dir F) (h : q ≠ p) :
    put disk p a q = disk q := by
  unfold put
  rw [if_neg h]

theorem selected_congr (w : World F) (disk disk2 : Disk F) (ref : String) (filters : Option F)
    (h : disk2 ref = disk ref) : selected w disk2 ref filters = selected w disk ref filters := by
  unfold selected partsOf
  rw [h]

/-- The creation of a view, step by step. -/
theorem createView_eq (w : World F) (path ref : String) (filters : Option F) (disk : Disk F)
    (c : Coll) (hp : disk path = none)
    (hr : openCollection w ref (some "r") disk = (disk, .ok c)) :
    createView w path ref filters disk =
      if w.serial (noVars c.metadata.dims) then
        (put disk path (newDir w path ref c.metadata.dims filters
            ((selected w disk ref filters).filter (w.sound ref))),
          if (selected w disk ref filters).all (w.sound ref) then
            .ok { base := path, ref := c, metadata := noVars c.metadata.dims, filters := filters }
          else .error .keyError)
      else
        (put disk path { coll := .absent, view := .torn, parts := [] }, .error .typeError) := by
  obtain ⟨dr, hdr⟩ := open_exists w ref _ disk disk c hr
  have hne : ref ≠ path := by
    rintro rfl
    rw [hp] at hdr
    cases hdr
  have hdir := open_dir w ref _ disk disk c hr
  unfold createView
  rw [hp]
  dsimp only
  unfold viewInit
  rw [hr]
  dsimp only
  rw [hp]
  dsimp only
  unfold writeViewConfig
  dsimp only
  rw [dir_same]
  dsimp only
  rw [mkDs_noVars]
  by_cases hs : w.serial (noVars c.metadata.dims) = true
  · rw [if_pos hs, if_pos hs]
    dsimp only
    unfold initPartitions
    dsimp only
    rw [dir_twice, dir_same]
    dsimp only
    rw [hdir, selected_congr w disk _ ref filters (dir_other _ _ _ _ hne), dir_twice]
    have hf : (selected w disk ref filters).filter
        (fun p => decide (p ∉ (emptyDir : Dir F).parts)) = selected w disk ref filters := by
      rw [List.filter_eq_self]
      intro a _
      simp [emptyDir]
    rw [hf]
    by_cases ha : ((selected w disk ref filters).all (w.sound ref)) = true
    · rw [if_pos ha, if_pos ha]
      rfl
    · rw [if_neg ha, if_neg ha]
      rfl
  · rw [if_neg hs, if_neg hs, dir_twice]
    rfl

theorem createView_ok (w : World F) (path ref : String) (filters : Option F)
    (disk disk' : Disk F) (v : View F)
    (h : createView w path ref filters disk = (disk', .ok v)) :
    disk path = none ∧ ref ≠ path ∧ openCollection w ref (some "r") disk = (disk, .ok v.ref) ∧
      v = { base := path, ref := v.ref, metadata := noVars v.ref.metadata.dims,
            filters := filters } ∧
      (∀ p ∈ selected w disk ref filters, w.sound ref p = true) ∧
      w.serial (noVars v.ref.metadata.dims) = true ∧
      disk' = put disk path (newDir w path ref v.ref.metadata.dims filters
        (selected w disk ref filters)) := by
  have hp : disk path = none := by
    cases hp : disk path with
    | none => rfl
    | some d => rw [C60_view_exists w path ref filters disk d hp] at h; cases h
  have hu := C60_open_unchanged w ref (some "r") disk
  cases ho : openCollection w ref (some "r") disk with
  | mk d2 r =>
    rw [ho] at hu
    cases r with
    | error e => rw [C60_view_no_reference w path ref filters disk d2 e hp ho] at h; cases h
    | ok c =>
      rw [show d2 = disk from hu] at ho
      have hne : ref ≠ path := by
        rintro rfl
        obtain ⟨dr, hdr⟩ := open_exists w _ _ disk disk c ho
        rw [hp] at hdr
        cases hdr
      rw [createView_eq w path ref filters disk c hp ho] at h
      by_cases hs : w.serial (noVars c.metadata.dims) = true
      · rw [if_pos hs] at h
        by_cases ha : ((selected w disk ref filters).all (w.sound ref)) = true
        · rw [if_pos ha] at h
          cases h
          have ha' := List.all_eq_true.1 ha
          refine ⟨hp, hne, ?_, rfl, ha', hs, ?_⟩
          · rw [show d2 = disk from hu]
          · rw [List.filter_eq_self.2 ha']
        · rw [if_neg ha] at h
          cases h
      · rw [if_neg hs] at h
        cases h

/-- C60: a successful creation of a view adds the directory of the view and changes nothing
else; the view has no variable, and its partitions are those of the reference that the filter
selects. -/
theorem C60_view_create_effect (w : World F) (path ref : String) (filters : Option F)
    (disk disk' : Disk F) (v : View F)
    (h : createView w path ref filters disk = (disk', .ok v)) :
    disk path = none ∧ (∀ p, p ≠ path → disk' p = disk p) ∧ v.base = path ∧
      v.ref.dir = ref ∧ v.ref.mode = "r" ∧ v.metadata.vars = [] ∧ v.filters = filters ∧
      ∀ p, p ∈ v.partitions w none disk' ↔
        p ∈ partsOf disk ref ∧ ∀ f, filters = some f → w.keep f p = true := by
  obtain ⟨h1, h2, h3, h4, h5, h6, h7⟩ := createView_ok w path ref filters disk disk' v h
  have hdir := open_dir w ref _ disk disk _ h3
  have hmode : v.ref.mode = "r" := by
    have h3' := h3
    unfold openCollection at h3'
    split at h3'
    · cases h3'
    · split at h3'
      · cases h3'
      · cases h3'
      · split at h3'
        · cases h3'
        · unfold collInit at h3'
          split at h3'
          · cases h3'
          · next c' hr =>
            have h5 : c'.mode = "r" := ((readOnlyInit_ok _ _ _ _ _ _).1 hr).2.2.2.2.1
            rw [if_pos h5] at h3'
            cases h3'
            exact h5
  refine ⟨h1, ?_, ?_, hdir, hmode, ?_, ?_, ?_⟩
  · intro p hp
    rw [h7, dir_other _ _ _ _ hp]
  · rw [h4]
  · rw [h4]; rfl
  · rw [h4]
  · intro p
    have hb : v.base = path := by rw [h4]
    unfold View.partitions
    rw [hdir, hb]
    have e1 : partsOf disk' path = selected w disk ref filters := by
      show (match disk' path with | none => [] | some d => d.parts) = _
      rw [h7, dir_same]
      rfl
    have e2 : selected w disk' ref none = partsOf disk ref := by
      show (match disk' ref with | none => [] | some d => d.parts) =
        (match disk ref with | none => [] | some d => d.parts)
      rw [h7, dir_other _ _ _ _ h2]
    rw [e1, e2, List.mem_filter, decide_eq_true_eq]
    unfold selected
    cases filters with
    | none =>
      dsimp only
      constructor
      · rintro ⟨a, _⟩
        exact ⟨a, fun f hf => nomatch hf⟩
      · rintro ⟨a, _⟩
        exact ⟨a, a⟩
    | some f =>
      dsimp only
      rw [List.mem_filter]
      constructor
      · rintro ⟨a, _, b⟩
        exact ⟨a, fun g hg => by cases hg; exact b⟩
      · rintro ⟨a, b⟩
        exact ⟨a, a, b f rfl⟩

/-! ### Opening views -/

/-- C60, full statement for views: a view that was created is opened with the same directory,
reference, metadata, filter and partitions, and nothing is written. -/
def C60_view_full : Prop :=
  ∀ (F : Type) (w : World F) (path ref : String) (filters : Option F) (disk disk' : Disk F)
    (v : View F), createView w path ref filters disk = (disk', .ok v) →
    ∃ v', openView w path disk' = (disk', .ok v') ∧ v'.base = v.base ∧ v'.ref = v.ref ∧
      SameMeta v'.metadata v.metadata ∧ v'.filters = filters ∧
      ∀ f, v'.partitions w f disk' = v.partitions w f disk'

/-- C60: a view that was created is opened with the same directory, reference, metadata and
partitions, and nothing is written; the filter is the same if it can be pickled, and is lost
otherwise.  Missing for C60: filters that cannot be pickled (functions that are not at the top
level of a module). -/
theorem C60_view_open_partial (w : World F) (path ref : String) (filters : Option F)
    (disk disk' : Disk F) (v : View F)
    (h : createView w path ref filters disk = (disk', .ok v)) :
    ∃ v', openView w path disk' = (disk', .ok v') ∧ v'.base = v.base ∧ v'.ref = v.ref ∧
      SameMeta v'.metadata v.metadata ∧
      ((∀ f, filters = some f → w.pickles f = true) → v'.filters = filters) ∧
      (∀ f, filters = some f → w.pickles f = false → v'.filters = none) ∧
      ∀ f, v'.partitions w f disk' = v.partitions w f disk' := by
  obtain ⟨h1, h2, h3, h4, h5, h6, h7⟩ := createView_ok w path ref filters disk disk' v h
  have ho : openCollection w ref (some "r") disk' = (disk', .ok v.ref) :=
    open_congr w ref disk disk' v.ref (by rw [h7, dir_other _ _ _ _ h2]) h3
  have hd : disk' path = some (newDir w path ref v.ref.metadata.dims filters
      (selected w disk ref filters)) := by rw [h7, dir_same]
  refine ⟨{ base := path, ref := v.ref, metadata := noVars v.ref.metadata.dims,
            filters := storedFilters w filters }, ?_, ?_, rfl, ?_, ?_, ?_, ?_⟩
  · unfold openView
    rw [hd]
    show viewInit w path ref (some (noVars v.ref.metadata.dims)) (storedFilters w filters) disk' = _
    unfold viewInit
    rw [ho]
    dsimp only
    rw [hd]
  · rw [h4]
  · rw [h4]
    exact SameMeta.refl _
  · intro hf
    show storedFilters w filters = filters
    unfold storedFilters
    cases filters with
    | none => rfl
    | some f => dsimp only; rw [if_pos (hf f rfl)]
  · intro f hf hk
    show storedFilters w filters = none
    unfold storedFilters
    rw [hf]
    dsimp only
    rw [if_neg (by rw [hk]; decide)]
  · intro f
    have hb : v.base = path := by rw [h4]
    unfold View.partitions
    rw [hb]

/-- C60: after `_write_config` (done by `add_variable`, `drop_variable` and `sync`), the view is
opened with its current metadata, up to tuples. -/
theorem C60_view_saved (w : World F) (v : View F) (hwf : WellFormed v.metadata)
    (hs : w.serial v.metadata = true) (disk : Disk F) (d : Dir F) (hd : disk v.base = some d)
    (ho : openCollection w v.ref.dir (some "r") disk = (disk, .ok v.ref)) :
    ∃ disk' v', writeViewConfig w v disk = (disk', .ok ()) ∧
      (∀ p, p ≠ v.base → disk' p = disk p) ∧ partsOf disk' v.base = partsOf disk v.base ∧
      openView w v.base disk' = (disk', .ok v') ∧ v'.base = v.base ∧ v'.ref = v.ref ∧
      SameMeta v'.metadata (listed v.metadata) ∧
      ((∀ f, v.filters = some f → w.pickles f = true) → v'.filters = v.filters) := by
  let d' : Dir F := { d with view := .ok { base := v.base, filters := storedFilters w v.filters,
                                           metadata := v.metadata.getConfig, ref := v.ref.dir } }
  have hp : put disk v.base d' v.base = some d' := dir_same _ _ _
  have hc : ∃ c, openCollection w v.ref.dir (some "r") (put disk v.base d') =
      (put disk v.base d', .ok c) ∧ c = v.ref := by
    by_cases hne : v.ref.dir = v.base
    · refine ⟨v.ref, ?_, rfl⟩
      have e : ∀ disk2 : Disk F, disk2 v.ref.dir = some d' →
          openCollection w v.ref.dir (some "r") disk2 = (disk2, .ok v.ref) := by
        intro disk2 h2
        have h0 : disk v.ref.dir = some d := by rw [hne]; exact hd
        have := open_congr w v.ref.dir (fun _ => some d) (fun _ => some d) v.ref rfl
          (open_congr w v.ref.dir disk (fun _ => some d) v.ref h0.symm ho)
        unfold openCollection at this ⊢
        rw [h2]
        dsimp only at this ⊢
        cases hc : d.coll with
        | absent => rw [hc] at this; cases this
        | torn => rw [hc] at this; cases this
        | ok k =>
          rw [hc] at this
          dsimp only at this ⊢
          cases hg : (Config.getCodecs k.partitioning).1 with
          | error e => rw [hg] at this; cases this
          | ok handler =>
            rw [hg] at this
            dsimp only at this ⊢
            unfold collInit at this ⊢
            cases hr : readOnlyInit k.axis (Ds.fromConfig k.dataset) handler v.ref.dir
                (some (modeOr (some "r") "r")) with
            | error e => rw [hr] at this; cases this
            | ok c' =>
              rw [hr] at this
              have h5 : c'.mode = "r" := ((readOnlyInit_ok _ _ _ _ _ _).1 hr).2.2.2.2.1
              dsimp only at this ⊢
              rw [if_pos h5] at this ⊢
              cases this
              rfl
      exact e _ (by rw [hne]; exact hp)
    · exact ⟨v.ref, open_congr w v.ref.dir disk _ v.ref (dir_other _ _ _ _ hne) ho, rfl⟩
  obtain ⟨c, hc, rfl⟩ := hc
  refine ⟨put disk v.base d',
    { base := v.base, ref := v.ref, metadata := Ds.fromConfig v.metadata.getConfig,
      filters := storedFilters w v.filters }, ?_, ?_, ?_, ?_, rfl, rfl, ?_, ?_⟩
  · unfold writeViewConfig
    rw [hd]
    dsimp only
    rw [if_pos hs]
  · exact fun p hne => dir_other _ _ _ _ hne
  · show (match put disk v.base d' v.base with | none => [] | some d => d.parts) =
      (match disk v.base with | none => [] | some d => d.parts)
    rw [hp, hd]
  · unfold openView
    rw [hp]
    show viewInit w v.base v.ref.dir (some (Ds.fromConfig v.metadata.getConfig))
      (storedFilters w v.filters) _ = _
    unfold viewInit
    rw [hc]
    dsimp only
    rw [hp]
  · exact stored_meta v.metadata hwf
  · intro hf
    show storedFilters w v.filters = v.filters
    unfold storedFilters
    cases hv : v.filters with
    | none => rfl
    | some f => dsimp only; rw [if_pos (hf f hv)]

/-! ### Failures -/

/-- C60, full statement for the creation of a view that fails: nothing is left behind. -/
def C60_view_error_full : Prop :=
  ∀ (F : Type) (w : World F) (path ref : String) (filters : Option F) (disk disk' : Disk F)
    (e : PyErr), createView w path ref filters disk = (disk', .error e) → disk' = disk

/-- C60: if the axes of the partitions can be read, a creation that fails leaves nothing
behind.  (The names of the dimensions can always be written as JSON.)  Missing: partitions of
the reference whose axis cannot be read. -/
theorem C60_view_error_partial (w : World F) (path ref : String) (filters : Option F)
    (disk disk' : Disk F) (e : PyErr) (hs : ∀ dims, w.serial (noVars dims) = true)
    (hsound : ∀ p ∈ selected w disk ref filters, w.sound ref p = true)
    (h : createView w path ref filters disk = (disk', .error e)) : disk' = disk := by
  cases hp : disk path with
  | some d => rw [C60_view_exists w path ref filters disk d hp] at h; cases h; rfl
  | none =>
    have hu := C60_open_unchanged w ref (some "r") disk
    cases ho : openCollection w ref (some "r") disk with
    | mk d2 r =>
      rw [ho] at hu
      cases r with
      | error e => rw [C60_view_no_reference w path ref filters disk d2 e hp ho] at h; cases h; rfl
      | ok c =>
        rw [show d2 = disk from hu] at ho
        rw [createView_eq w path ref filters disk c hp ho, if_pos (hs _),
          if_pos (List.all_eq_true.2 hsound)] at h
        cases h

/-- C60: if the axis of a selected partition cannot be read, the creation fails, but the view is
there: it cannot be created again, it can be opened, and it has the other partitions. -/
theorem C60_view_failed (w : World F) (path ref : String) (filters : Option F) (disk : Disk F)
    (c : Coll) (hp : disk path = none)
    (hr : openCollection w ref (some "r") disk = (disk, .ok c))
    (hs : w.serial (noVars c.metadata.dims) = true) (p : String)
    (hsel : p ∈ selected w disk ref filters) (hbad : w.sound ref p = false) :
    ∃ disk', createView w path ref filters disk = (disk', .error .keyError) ∧
      (∀ ref' filters', createView w path ref' filters' disk' = (disk', .error .valueError)) ∧
      ∃ v', openView w path disk' = (disk', .ok v') ∧ v'.base = path ∧ v'.ref = c ∧
        ∀ q, q ∈ v'.partitions w none disk' ↔
          q ∈ selected w disk ref filters ∧ w.sound ref q = true := by
  obtain ⟨dr, hdr⟩ := open_exists w ref _ disk disk c hr
  have hne : ref ≠ path := by
    rintro rfl
    rw [hp] at hdr
    cases hdr
  have hdir := open_dir w ref _ disk disk c hr
  have hall : ¬ ((selected w disk ref filters).all (w.sound ref)) = true := by
    intro ha
    have := List.all_eq_true.1 ha p hsel
    rw [hbad] at this
    cases this
  let d := newDir w path ref c.metadata.dims filters
    ((selected w disk ref filters).filter (w.sound ref))
  have hd : put disk path d path = some d := dir_same _ _ _
  refine ⟨put disk path d, ?_, ?_, ?_⟩
  · rw [createView_eq w path ref filters disk c hp hr, if_pos hs, if_neg hall]
  · exact fun ref' filters' => C60_view_exists w path ref' filters' _ d hd
  · have ho : openCollection w ref (some "r") (put disk path d) = (put disk path d, .ok c) :=
      open_congr w ref disk _ c (dir_other _ _ _ _ hne) hr
    refine ⟨{ base := path, ref := c, metadata := noVars c.metadata.dims,
              filters := storedFilters w filters }, ?_, rfl, rfl, ?_⟩
    · unfold openView
      rw [hd]
      show viewInit w path ref (some (noVars c.metadata.dims)) (storedFilters w filters) _ = _
      unfold viewInit
      rw [ho]
      dsimp only
      rw [hd]
    · intro q
      unfold View.partitions
      dsimp only
      rw [hdir]
      have e1 : partsOf (put disk path d) path =
          (selected w disk ref filters).filter (w.sound ref) := by
        show (match put disk path d path with | none => [] | some d => d.parts) = _
        rw [hd]
        rfl
      have e2 : selected w (put disk path d) ref none = partsOf disk ref := by
        show (match put disk path d ref with | none => [] | some d => d.parts) =
          (match disk ref with | none => [] | some d => d.parts)
        rw [dir_other _ _ _ _ hne]
      rw [e1, e2, List.mem_filter, decide_eq_true_eq, List.mem_filter]
      constructor
      · rintro ⟨_, a, b⟩
        exact ⟨a, b⟩
      · rintro ⟨a, b⟩
        refine ⟨?_, a, b⟩
        unfold selected at a
        cases filters with
        | none => exact a
        | some f => exact (List.mem_filter.1 a).1

/-! ### Views that are renamed or copied -/

/-- C60, full statement for a view that is renamed: it is opened in its new place, and nothing
is written. -/
def C60_view_renamed_full : Prop :=
  ∀ (F : Type) (w : World F) (path ref place : String) (filters : Option F)
    (disk disk' : Disk F) (v : View F), createView w path ref filters disk = (disk', .ok v) →
    disk' place = none →
    ∃ v', openView w place (renamed disk' path place) = (renamed disk' path place, .ok v') ∧
      v'.base = place

/-- C60, full statement for a view that is copied: the copy is opened in its place. -/
def C60_view_copied_full : Prop :=
  ∀ (F : Type) (w : World F) (path ref place : String) (filters : Option F)
    (disk disk' : Disk F) (v : View F), createView w path ref filters disk = (disk', .ok v) →
    disk' place = none →
    ∃ v', openView w place (copied disk' path place) = (copied disk' path place, .ok v') ∧
      v'.base = place

/-- C60: opening the copy of a view gives the original. -/
theorem C60_view_copied (w : World F) (path ref place : String) (filters : Option F)
    (disk disk' : Disk F) (v : View F)
    (h : createView w path ref filters disk = (disk', .ok v)) (hfree : disk' place = none) :
    ∃ v', openView w place (copied disk' path place) = (copied disk' path place, .ok v') ∧
      v'.base = path ∧ v'.base ≠ place ∧ v'.ref = v.ref := by
  obtain ⟨h1, h2, h3, h4, h5, h6, h7⟩ := createView_ok w path ref filters disk disk' v h
  obtain ⟨dr, hdr⟩ := open_exists w ref _ disk disk _ h3
  have hne : ref ≠ place := by
    rintro rfl
    rw [h7, dir_other _ _ _ _ h2, hdr] at hfree
    cases hfree
  have hpp : path ≠ place := by
    rintro rfl
    rw [h7, dir_same] at hfree
    cases hfree
  have hd : disk' path = some (newDir w path ref v.ref.metadata.dims filters
      (selected w disk ref filters)) := by rw [h7, dir_same]
  have hc1 : copied disk' path place place = disk' path := by unfold copied; rw [if_pos rfl]
  have hc2 : ∀ p, p ≠ place → copied disk' path place p = disk' p := by
    intro p hp
    unfold copied
    rw [if_neg hp]
  have ho : openCollection w ref (some "r") (copied disk' path place) =
      (copied disk' path place, .ok v.ref) :=
    open_congr w ref disk _ v.ref (by rw [hc2 _ hne, h7, dir_other _ _ _ _ h2]) h3
  refine ⟨{ base := path, ref := v.ref, metadata := noVars v.ref.metadata.dims,
            filters := storedFilters w filters }, ?_, rfl, hpp, rfl⟩
  unfold openView
  rw [hc1, hd]
  show viewInit w path ref (some (noVars v.ref.metadata.dims)) (storedFilters w filters) _ = _
  unfold viewInit
  rw [ho]
  dsimp only
  rw [hc2 _ hpp, hd]

/-- C60: opening a renamed view creates a new view, without the data, where the view was, and
gives this new view; the renamed directory is left as it is. -/
theorem C60_view_renamed (w : World F) (path ref place : String) (filters : Option F)
    (disk disk' : Disk F) (v : View F)
    (h : createView w path ref filters disk = (disk', .ok v)) (hfree : disk' place = none)
    (hsound : ∀ p, w.sound ref p = true) :
    ∃ disk2 v', openView w place (renamed disk' path place) = (disk2, .ok v') ∧
      v'.base = path ∧ v'.base ≠ place ∧ renamed disk' path place path = none ∧
      (∃ d, disk2 path = some d) ∧ disk2 place = disk' path := by
  obtain ⟨h1, h2, h3, h4, h5, h6, h7⟩ := createView_ok w path ref filters disk disk' v h
  obtain ⟨dr, hdr⟩ := open_exists w ref _ disk disk _ h3
  have hdir := open_dir w ref _ disk disk _ h3
  have hne : ref ≠ place := by
    rintro rfl
    rw [h7, dir_other _ _ _ _ h2, hdr] at hfree
    cases hfree
  have hpp : path ≠ place := by
    rintro rfl
    rw [h7, dir_same] at hfree
    cases hfree
  have hd : disk' path = some (newDir w path ref v.ref.metadata.dims filters
      (selected w disk ref filters)) := by rw [h7, dir_same]
  have hc1 : renamed disk' path place place = disk' path := by unfold renamed; rw [if_pos rfl]
  have hc2 : renamed disk' path place path = none := by
    unfold renamed
    rw [if_neg hpp, if_pos rfl]
  have hc3 : renamed disk' path place ref = disk' ref := by
    unfold renamed
    rw [if_neg hne, if_neg h2]
  have ho : openCollection w ref (some "r") (renamed disk' path place) =
      (renamed disk' path place, .ok v.ref) :=
    open_congr w ref disk _ v.ref (by rw [hc3, h7, dir_other _ _ _ _ h2]) h3
  refine ⟨put (renamed disk' path place) path (newDir w path ref v.ref.metadata.dims
      (storedFilters w filters)
      ((selected w (renamed disk' path place) ref (storedFilters w filters)).filter (w.sound ref))),
    { base := path, ref := v.ref, metadata := noVars v.ref.metadata.dims,
      filters := storedFilters w filters }, ?_, rfl, hpp, hc2, ⟨_, dir_same _ _ _⟩, ?_⟩
  · have e := createView_eq w path ref (storedFilters w filters) (renamed disk' path place) v.ref
      hc2 ho
    rw [if_pos h6, if_pos (List.all_eq_true.2 fun p _ => hsound p)] at e
    rw [← e]
    unfold openView createView
    rw [hc1, hd, hc2]
    show viewInit w path ref (some (noVars v.ref.metadata.dims)) (storedFilters w filters) _ =
      viewInit w path ref none (storedFilters w filters) _
    unfold viewInit
    rw [ho]
    rfl
  · rw [dir_other _ _ _ _ (fun e => hpp e.symm), hc1]

/-! ### Cases -/

namespace OpenCase

/-- A collection with two partitions. -/
def withData : Disk Nat := put empty "/c"
  { coll := .ok { axis := "time", dataset := ds.getConfig,
                  partitioning := Config.getConfig monthly }, view := .absent,
    parts := ["a", "b"] }

/-- A collection with a partition whose axis cannot be read. -/
def withBad : Disk Nat := put empty "/c"
  { coll := .ok { axis := "time", dataset := ds.getConfig,
                  partitioning := Config.getConfig monthly }, view := .absent,
    parts := ["a", "bad"] }

def ref : Coll :=
  { axis := "time", metadata := Ds.fromConfig ds.getConfig, handler := monthly, dir := "/c",
    dim := "num_lines", mode := "r" }

theorem ref_ok : openCollection world "/c" (some "r") withData = (withData, .ok ref) := by rfl

theorem refBad_ok : openCollection world "/c" (some "r") withBad = (withBad, .ok ref) := by rfl

def view (f : Option Nat) : View Nat :=
  { base := "/v", ref := ref, metadata := noVars ["num_lines"], filters := f }

def viewDisk (f : Option Nat) : Disk Nat := (createView world "/v" "/c" f withData).1

theorem view_ok (f : Option Nat) (hf : f = none ∨ f = some 0 ∨ f = some 2) :
    createView world "/v" "/c" f withData = (viewDisk f, .ok (view f)) := by
  rcases hf with rfl | rfl | rfl <;> rfl

example : (view (some 2)).partitions world none (viewDisk (some 2)) = ["a"] := by rfl

example : ∃ v', openView world "/v" (viewDisk (some 2)) = (viewDisk (some 2), .ok v') ∧
    v'.filters = some 2 := by
  obtain ⟨v', h1, _, _, _, h2, _⟩ := C60_view_open_partial world "/v" "/c" (some 2) withData _ _
    (view_ok (some 2) (by simp))
  exact ⟨v', h1, h2 (by intro f hf; cases hf; rfl)⟩

example : ∃ v', openView world "/x" (copied (viewDisk none) "/v" "/x") =
    (copied (viewDisk none) "/v" "/x", .ok v') ∧ v'.base = "/v" := by
  obtain ⟨v', h1, h2, _⟩ := C60_view_copied world "/v" "/c" "/x" none withData _ _
    (view_ok none (by simp)) rfl
  exact ⟨v', h1, h2⟩

/-- All axes can be read. -/
def allSound : World Nat := { world with sound := fun _ _ => true }

example : createView allSound "/v" "/c" none withData =
    ((createView allSound "/v" "/c" none withData).1, .ok (view none)) := by rfl

example : ∃ disk', createView world "/v" "/c" none withBad = (disk', .error .keyError) ∧
    ∃ v', openView world "/v" disk' = (disk', .ok v') := by
  obtain ⟨disk', h1, _, v', h2, _⟩ := C60_view_failed world "/v" "/c" none withBad ref rfl refBad_ok
    rfl "bad" (by decide) rfl
  exact ⟨disk', h1, v', h2⟩

example : (createView world "/v" "/e" none withData).2 = .error .valueError := by rfl

example : ∃ disk' v', writeViewConfig world { view none with metadata := ds } (viewDisk none) =
    (disk', .ok ()) ∧ openView world "/v" disk' = (disk', .ok v') ∧
    SameMeta v'.metadata (listed ds) := by
  obtain ⟨disk', v', h1, _, _, h2, _, _, h3, _⟩ := C60_view_saved world
    { view none with metadata := ds } ds_wf rfl (viewDisk none) _ rfl (by rfl)
  exact ⟨disk', v', h1, h2, h3⟩

end OpenCase

open OpenCase

/-- C60 is violated by the code: a filter that cannot be pickled is lost. -/
theorem C60_view_counterexample : ¬ C60_view_full := by
  intro hfull
  obtain ⟨v', h1, _, _, _, h2, _⟩ := hfull Nat world "/v" "/c" (some 0) withData _ _
    (view_ok (some 0) (by simp))
  have h3 : (openView world "/v" (viewDisk (some 0))).2 = .ok (view none) := by rfl
  rw [h1] at h3
  cases h3
  cases h2

/-- C60 is violated by the code: a view cannot be renamed. -/
theorem C60_view_renamed_counterexample : ¬ C60_view_renamed_full := by
  intro hfull
  obtain ⟨v', h1, h2⟩ := hfull Nat world "/v" "/c" "/x" none withData _ _
    (view_ok none (by simp)) rfl
  have h3 : (openView world "/x" (renamed (viewDisk none) "/v" "/x")).2 = .ok (view none) := by
    rfl
  rw [h1] at h3
  cases h3
  revert h2
  decide

/-- C60 is violated by the code: the copy of a view cannot be opened. -/
theorem C60_view_copied_counterexample : ¬ C60_view_copied_full := by
  intro hfull
  obtain ⟨v', h1, h2⟩ := hfull Nat world "/v" "/c" "/x" none withData _ _
    (view_ok none (by simp)) rfl
  obtain ⟨v2, g1, g2, g3, _⟩ := C60_view_copied world "/v" "/c" "/x" none withData _ _
    (view_ok none (by simp)) rfl
  rw [h1] at g1
  cases g1
  exact g3 h2

/-- C60 is violated by the code: a failed creation leaves a view behind. -/
theorem C60_view_error_counterexample : ¬ C60_view_error_full := by
  intro hfull
  have h1 := hfull Nat world "/v" "/c" none withBad _ .keyError
    (Prod.ext rfl (by rfl : (createView world "/v" "/c" none withBad).2 = _))
  have h2 := congrArg Option.isSome (congrFun h1 "/v")
  exact absurd h2 (by decide)

end Verif
