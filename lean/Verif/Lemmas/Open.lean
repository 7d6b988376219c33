import Verif.Spec.Open
import Verif.Props.Config
import Verif.Props.Meta

/-! Lemmas on the creation and the opening of collections and views. -/

namespace Verif.Opn

open Spec Meta
open Config (Handler Cfg)

theorem json_listedVal (v : AttrVal) : v.json = listedVal v := by cases v <;> rfl

theorem listedVal_idem (v : AttrVal) : listedVal (listedVal v) = listedVal v := by
  cases v <;> rfl

theorem map_json (l : List Attr) : (l.map fun a => (a.1, a.2.json)) = listedAttrs l := by
  unfold listedAttrs
  exact List.map_congr_left fun a _ => by rw [json_listedVal]

theorem listedAttrs_idem (l : List Attr) : listedAttrs (listedAttrs l) = listedAttrs l := by
  unfold listedAttrs
  rw [List.map_map]
  exact List.map_congr_left fun a _ => by simp [Function.comp, listedVal_idem]

theorem listedAttrs_names (l : List Attr) : (listedAttrs l).map (·.1) = l.map (·.1) := by
  unfold listedAttrs
  rw [List.map_map]
  rfl

theorem sortAttrs_listed (l : List Attr) : sortAttrs (listedAttrs l) = listedAttrs (sortAttrs l) := by
  unfold sortAttrs listedAttrs
  induction l with
  | nil => rfl
  | cons v t ih =>
    simp only [List.map_cons, Sort.isort, ih]
    generalize Sort.isort (fun a b : Attr => decide (a.1 ≤ b.1)) t = u
    induction u with
    | nil => rfl
    | cons y u ihu =>
      simp only [Sort.insort, List.map_cons]
      by_cases h : v.1 ≤ y.1
      · simp [h]
      · simp only [h, decide_false, Bool.false_eq_true, if_false]
        rw [List.map_cons, ihu]

/-- A variable with lists in place of tuples. -/
def listedVar (v : Var) : Var := { v with attrs := listedAttrs v.attrs }

theorem sortVars_listed (l : List Var) :
    sortVars (l.map listedVar) = (sortVars l).map listedVar := by
  unfold sortVars
  induction l with
  | nil => rfl
  | cons v t ih =>
    simp only [List.map_cons, Sort.isort, ih]
    generalize Sort.isort (fun a b : Var => decide (a.name ≤ b.name)) t = u
    induction u with
    | nil => rfl
    | cons y u ihu =>
      have hv : (listedVar v).name = v.name := rfl
      have hy : (listedVar y).name = y.name := rfl
      simp only [Sort.insort, List.map_cons, hv, hy]
      by_cases h : v.name ≤ y.name
      · simp [h]
      · simp only [h, decide_false, Bool.false_eq_true, if_false]
        rw [List.map_cons, ihu]

theorem listed_vars (d : Ds) : (listed d).vars = d.vars.map listedVar := rfl

theorem getConfig_listedVar (v : Var) : (listedVar v).getConfig = listedVar v.getConfig := by
  simp only [listedVar, Var.getConfig, sortAttrs_listed]

theorem fromConfig_listedVar (v : Var) :
    Var.fromConfig (listedVar v) = Var.fromConfig v := by
  simp only [listedVar, Var.fromConfig, map_json, listedAttrs_idem]

theorem fromConfig_listed (d : Ds) : Ds.fromConfig (listed d) = Ds.fromConfig d := by
  have h1 : (d.vars.map listedVar).map Var.fromConfig = d.vars.map Var.fromConfig := by
    rw [List.map_map]
    exact List.map_congr_left fun v _ => fromConfig_listedVar v
  unfold Ds.fromConfig
  rw [listed_vars, h1]
  simp only [listed, map_json, listedAttrs_idem]

theorem getConfig_listed (d : Ds) : (listed d).getConfig = listed d.getConfig := by
  have h1 : ((sortVars d.vars).map listedVar).map Var.getConfig =
      ((sortVars d.vars).map Var.getConfig).map listedVar := by
    rw [List.map_map, List.map_map]
    exact List.map_congr_left fun v _ => getConfig_listedVar v
  unfold Ds.getConfig
  rw [listed_vars, sortVars_listed, h1]
  simp only [listed, sortAttrs_listed]
  rfl

theorem wellFormed_listed {d : Ds} (h : WellFormed d) : WellFormed (listed d) := by
  obtain ⟨h1, h2, h3, h4⟩ := h
  refine ⟨?_, ?_, ?_, h4⟩
  · rw [listed_vars, List.map_map]
    exact h1
  · exact (listedAttrs_names d.attrs).symm ▸ h2
  · intro v hv
    rw [listed_vars] at hv
    obtain ⟨u, hu, rfl⟩ := List.mem_map.1 hv
    exact (listedAttrs_names u.attrs).symm ▸ h3 u hu

theorem listed_noTuple (d : Ds) : NoTuple (listed d) := by
  have h : ∀ (l : List Attr) a, a ∈ listedAttrs l → ∀ t, a.2 ≠ .tuple t := by
    intro l a ha t
    unfold listedAttrs at ha
    obtain ⟨b, _, rfl⟩ := List.mem_map.1 ha
    cases b.2 <;> simp [listedVal]
  refine ⟨h d.attrs, fun v hv => ?_⟩
  rw [listed_vars] at hv
  obtain ⟨u, _, rfl⟩ := List.mem_map.1 hv
  exact h u.attrs

/-- The metadata read back are those written with lists in place of tuples. -/
theorem stored_meta (d : Ds) (h : WellFormed d) :
    SameMeta (Ds.fromConfig d.getConfig) (listed d) := by
  have h1 := C18_round_trip_partial (listed d) (wellFormed_listed h) (listed_noTuple d).1
    (listed_noTuple d).2
  rw [getConfig_listed, fromConfig_listed] at h1
  exact h1.1

theorem listed_of_noTuple (d : Ds) (h : NoTuple d) : listed d = d := by
  have h1 : ∀ l : List Attr, (∀ a ∈ l, ∀ t, a.2 ≠ .tuple t) → listedAttrs l = l := by
    intro l hl
    rw [← map_json, json_attrs l hl]
  have h2 : d.vars.map listedVar = d.vars := by
    have h3 : d.vars.map listedVar = d.vars.map id := List.map_congr_left fun v hv => by
      simp only [listedVar, id, h1 _ (h.2 v hv)]
    rw [h3, List.map_id]
  have h4 : listed d = { d with attrs := listedAttrs d.attrs, vars := d.vars.map listedVar } := rfl
  rw [h4, h1 _ h.1, h2]

/-- The names of variables read back are those written. -/
theorem stored_names (d : Ds) (h : WellFormed d) (x : String) :
    x ∈ (Ds.fromConfig d.getConfig).vars.map (·.name) ↔ x ∈ d.vars.map (·.name) := by
  obtain ⟨_, _, _, _, h1, h2⟩ := stored_meta d h
  rw [listed_vars] at h1 h2
  constructor
  · intro hx
    obtain ⟨v, hv, rfl⟩ := List.mem_map.1 hx
    obtain ⟨w, hw, hs⟩ := h1 v hv
    obtain ⟨u, hu, rfl⟩ := List.mem_map.1 hw
    exact List.mem_map.2 ⟨u, hu, hs.1.symm⟩
  · intro hx
    obtain ⟨u, hu, rfl⟩ := List.mem_map.1 hx
    obtain ⟨v, hv, hs⟩ := h2 (listedVar u) (List.mem_map.2 ⟨u, hu, rfl⟩)
    exact List.mem_map.2 ⟨v, hv, hs.1⟩

/-- The axis of the metadata read back has the dimensions of the axis written. -/
theorem stored_axis (d : Ds) (h : WellFormed d) (axis : String) (a : Var)
    (ha : d.vars.find? (fun v => decide (v.name = axis)) = some a) :
    ∃ b, (Ds.fromConfig d.getConfig).vars.find? (fun v => decide (v.name = axis)) = some b ∧
      b.dims = a.dims := by
  have hmem := List.mem_of_find?_eq_some ha
  have hname : a.name = axis := by simpa using List.find?_some ha
  obtain ⟨_, _, _, _, h1, h2⟩ := stored_meta d h
  rw [listed_vars] at h1 h2
  have hne : (Ds.fromConfig d.getConfig).vars.find? (fun v => decide (v.name = axis)) ≠ none := by
    obtain ⟨v, hv, hs⟩ := h2 (listedVar a) (List.mem_map.2 ⟨a, hmem, rfl⟩)
    intro hc
    rw [List.find?_eq_none] at hc
    refine hc v hv ?_
    simp only [decide_eq_true_eq]
    rw [hs.1]
    exact hname
  obtain ⟨b, hb⟩ := Option.ne_none_iff_exists'.1 hne
  refine ⟨b, hb, ?_⟩
  have hbm := List.mem_of_find?_eq_some hb
  have hbn : b.name = axis := by simpa using List.find?_some hb
  obtain ⟨w, hw, hs⟩ := h1 b hbm
  obtain ⟨u, hu, rfl⟩ := List.mem_map.1 hw
  have : u = a := sameVar_unique h.1 hu hmem (by
    have e : (listedVar u).name = u.name := rfl
    rw [← e, ← hs.1, hbn, hname])
  rw [hs.2.2.1, this]
  rfl

/-- A collection that can be built. -/
structure Valid (c : Coll) : Prop where
  wf : WellFormed c.metadata
  handler : Constructible c.handler
  keys : ∀ k ∈ c.handler.variables, k ∈ c.metadata.vars.map (·.name)
  axis : ∃ a rest, c.metadata.vars.find? (fun v => decide (v.name = c.axis)) = some a ∧
    a.dims = c.dim :: rest

theorem readOnlyInit_ok (axis : String) (ds : Ds) (handler : Handler) (path : String)
    (mode : Option String) (c : Coll) :
    readOnlyInit axis ds handler path mode = .ok c ↔
      c.axis = axis ∧ c.metadata = ds ∧ c.handler = handler ∧ c.dir = path ∧
      c.mode = modeOr mode "w" ∧ (c.mode = "r" ∨ c.mode = "w") ∧
      (∀ k ∈ handler.variables, k ∈ ds.vars.map (·.name)) ∧
      ∃ a rest, ds.vars.find? (fun v => decide (v.name = axis)) = some a ∧
        a.dims = c.dim :: rest := by
  unfold readOnlyInit
  cases ha : ds.vars.find? fun v => decide (v.name = axis) with
  | none => simp
  | some a =>
    dsimp only
    by_cases hk : (handler.variables.any fun k => decide (k ∉ ds.vars.map (·.name))) = true
    · rw [if_pos hk]
      constructor
      · intro h; cases h
      · rintro ⟨_, _, _, _, _, _, h, _⟩
        rw [List.any_eq_true] at hk
        obtain ⟨k, hk1, hk2⟩ := hk
        exact absurd (h k hk1) (by simpa using hk2)
    · rw [if_neg hk]
      have hk' : ∀ k ∈ handler.variables, k ∈ ds.vars.map (·.name) := by
        intro k hk1
        refine Classical.byContradiction fun hc => hk ?_
        exact List.any_eq_true.2 ⟨k, hk1, by simpa using hc⟩
      by_cases hm : modeOr mode "w" ≠ "r" ∧ modeOr mode "w" ≠ "w"
      · rw [if_pos hm]
        constructor
        · intro h; cases h
        · rintro ⟨_, _, _, _, h1, h2, _⟩
          rw [h1] at h2
          rcases h2 with h2 | h2
          · exact absurd h2 hm.1
          · exact absurd h2 hm.2
      · rw [if_neg hm]
        have hm' : modeOr mode "w" = "r" ∨ modeOr mode "w" = "w" := by
          by_cases hr : modeOr mode "w" = "r"
          · exact .inl hr
          · exact .inr (Classical.byContradiction fun hc => hm ⟨hr, hc⟩)
        cases hd : a.dims with
        | nil =>
          simp only [reduceCtorEq, false_iff]
          rintro ⟨_, _, _, _, _, _, _, b, rest, hb, hbd⟩
          cases hb
          rw [hd] at hbd
          cases hbd
        | cons dim rest =>
          constructor
          · intro h
            cases h
            exact ⟨rfl, rfl, rfl, rfl, rfl, hm', hk', a, rest, rfl, hd⟩
          · rintro ⟨h1, h2, h3, h4, h5, h6, h7, b, r, hb, hbd⟩
            cases hb
            rw [hd] at hbd
            cases hbd
            cases c
            simp_all

theorem modeOr_r (mode : Option String) (h : mode = none ∨ mode = some "r" ∨ mode = some "w") :
    modeOr mode "r" = "r" ∨ modeOr mode "r" = "w" := by
  rcases h with rfl | rfl | rfl
  · exact .inl rfl
  · exact .inl rfl
  · exact .inr rfl

theorem modeOr_some (m : String) (h : m = "r" ∨ m = "w") (d : String) :
    modeOr (some m) d = m := by
  rcases h with rfl | rfl <;> rfl

/-- The handler rebuilt from its configuration. -/
theorem stored_handler (h : Handler) (hc : Constructible h) :
    ∃ h', (Config.getCodecs (Config.getConfig h)).1 = .ok h' ∧ h'.cls = h.cls ∧
      h'.variables = h.variables ∧ Config.keys h' = Config.keys h ∧
      ((∃ v r, Config.mkDate v r = .ok h) ∨ (∃ v, Config.mkSequence v none = .ok h) → h' = h) := by
  rcases hc with ⟨v, d, hm⟩ | ⟨v, r, hm⟩
  · obtain ⟨h', h1, h2, h3, h4, h5, h6⟩ := C17_sequence_partial v d h hm
    refine ⟨h', h1, h2, h3, h4, ?_⟩
    rintro (⟨v', r', hm'⟩ | ⟨v', hm'⟩)
    · obtain ⟨_, rfl⟩ := mkSequence_ok hm
      obtain ⟨_, _, _, he⟩ := mkDate_ok hm'
      cases he
    · have := C17_sequence_default v' h hm'
      rw [h1] at this
      exact Except.ok.inj this
  · refine ⟨h, C17_date v r h hm, rfl, rfl, rfl, fun _ => rfl⟩

/-- What is read back from the directory that holds the configuration of a collection. -/
theorem open_stored {F : Type} (w : World F) (c : Coll) (hv : Valid c) (disk : Disk F)
    (path : String) (d : Dir F) (hd : disk path = some d)
    (hf : d.coll = .ok { axis := c.axis, dataset := c.metadata.getConfig,
                         partitioning := Config.getConfig c.handler })
    (mode : Option String) (hm : mode = none ∨ mode = some "r" ∨ mode = some "w") :
    ∃ c', openCollection w path mode disk = (disk, .ok c') ∧ c'.axis = c.axis ∧
      c'.metadata = Ds.fromConfig c.metadata.getConfig ∧
      (Config.getCodecs (Config.getConfig c.handler)).1 = .ok c'.handler ∧
      c'.dim = c.dim ∧ c'.dir = path ∧ c'.mode = modeOr mode "r" := by
  obtain ⟨h', hh1, hh2, hh3, _⟩ := stored_handler c.handler hv.handler
  obtain ⟨a, rest, ha, had⟩ := hv.axis
  obtain ⟨b, hb, hbd⟩ := stored_axis c.metadata hv.wf c.axis a ha
  have hmode := modeOr_r mode hm
  let c' : Coll := { axis := c.axis, metadata := Ds.fromConfig c.metadata.getConfig,
                     handler := h', dir := path, dim := c.dim, mode := modeOr mode "r" }
  have hinit : readOnlyInit c.axis (Ds.fromConfig c.metadata.getConfig) h' path
      (some (modeOr mode "r")) = .ok c' := by
    refine (readOnlyInit_ok _ _ _ _ _ c').2 ⟨rfl, rfl, rfl, rfl, ?_, hmode, ?_, b, rest, hb, ?_⟩
    · exact (modeOr_some _ hmode "w").symm
    · intro k hk
      rw [hh3] at hk
      exact (stored_names c.metadata hv.wf k).2 (hv.keys k hk)
    · rw [hbd, had]
  refine ⟨c', ?_, rfl, rfl, hh1, rfl, rfl, rfl⟩
  unfold openCollection
  rw [hd]
  dsimp only
  rw [hf]
  dsimp only
  rw [hh1]
  dsimp only
  unfold collInit
  rw [hinit]
  dsimp only
  split
  · rfl
  · unfold writeConfig
    have hdir : disk c'.dir = some d := hd
    rw [hdir]
    dsimp only
    rw [hf]
    rfl

end Verif.Opn
