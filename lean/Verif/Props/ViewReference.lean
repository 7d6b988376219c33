import Verif.Lemmas.ViewReference
import Verif.Props.ViewSchema

/-! C81: a view shows the variables of its reference. -/

namespace Verif

open Spec Nd Ds Upd Vw

variable {D P V H : Type} [DecidableEq P]

/-- C81 as stated: whatever is loaded from the reference, for the partitions of the view, is also
in what is loaded from the view. -/
def C81_full : Prop :=
  ∀ (D P V H : Type) [DecidableEq P] (e : Env D V H) (le : P → P → Bool) (listing : List P)
    (delayed : Bool) (filters : P → Bool) (sel : Option (List String)) (st : State D P V H)
    (imm : Option (List (Var V))) (size : P → Nat) (other : String → Nat) (z y : Dataset V),
    GoodView e st size other → RefParts e st → DimsCovered e st sel →
    (∀ iv, imm = some iv → GoodImm e.dim other (refStore e st) iv) →
    (∀ p ∈ listing, st.files e.refDir p ≠ none) →
    load e le listing delayed filters none sel st = .ok (some z) →
    Ld.load ⟨e.dim, delayed, sel, imm⟩ (refStore e st) listing (heldBy e st filters) =
      .ok (some y) →
    ∀ n v, getVar y.vars n = some v → getVar z.vars n = some v

omit [DecidableEq P] in
theorem partitions_held (e : Env D V H) (listing : List P) (filters : P → Bool)
    (st : State D P V H) :
    partitions e listing filters st.files = listing.filter (heldBy e st filters) := by
  unfold partitions heldBy
  rw [List.filter_filter]
  apply List.filter_congr
  intro p _
  rw [Bool.and_comm]

theorem loadBare_groups {e : Env D V H} {le : P → P → Bool} {listing : List P} {delayed : Bool}
    {filters : P → Bool} {sel : Option (List String)} {st : State D P V H}
    {r : Option (Dataset V)} (h : loadBare e le listing delayed filters none sel st = .ok r) :
    ∃ gs, mapPy (fun p => loadOne e delayed (selectNames e.refMeta sel) (selectNames st.metas sel)
        (st.files e.refDir p) (st.files e.base p) []) (listing.filter (heldBy e st filters)) =
        .ok gs ∧ (∀ z, r = some z → joinGroups e.dim gs = .ok z) := by
  unfold loadBare at h
  split at h
  · cases h
  · simp only [partitions_held] at h
    have hmap : ∀ ps : List P, mapPy (fun (x : P × List (Nat × Nat)) =>
        loadOne e delayed (selectNames e.refMeta sel) (selectNames st.metas sel)
          (st.files e.refDir x.1) (st.files e.base x.1) x.2) (ps.map fun p => (p, [])) =
        mapPy (fun p => loadOne e delayed (selectNames e.refMeta sel) (selectNames st.metas sel)
        (st.files e.refDir p) (st.files e.base p) []) ps := by
      intro ps
      induction ps with
      | nil => rfl
      | cons p t ih => simp only [List.map_cons, mapPy, ih]
    rw [hmap] at h
    split at h
    · cases h
    · next hm => cases h; exact ⟨_, hm, nofun⟩
    · next zds rest hm =>
      simp only [bind, Except.bind] at h
      split at h
      · cases h
      · next z' hz => cases h; exact ⟨_, hm, fun z e => by cases e; exact hz⟩

/-- C81: a variable of the reference that is split into partitions is the same (dimensions,
values, fill value) in what is loaded from the view and in what is loaded from the reference for
the partitions of the view; it is missing in the one if and only if it is missing in the other.
Missing: the variables that are not split (`C81_hidden`). -/
theorem C81_same_partial (e : Env D V H) (le : P → P → Bool) (listing : List P) (delayed : Bool)
    (filters : P → Bool) (sel : Option (List String)) (st : State D P V H)
    (imm : Option (List (Var V))) (hr : RefParts e st) (z y : Dataset V)
    (hz : load e le listing delayed filters none sel st = .ok (some z))
    (hy : Ld.load ⟨e.dim, delayed, sel, imm⟩ (refStore e st) listing (heldBy e st filters) =
      .ok (some y)) (n : String) (hn : n ∉ st.metas.map (·.name))
    (himm : ∀ iv, imm = some iv → n ∉ iv.map (·.name)) :
    getVar z.vars n = getVar y.vars n := by
  rw [view_load_eq] at hz
  obtain ⟨gs, hgs, hjoin⟩ := loadBare_groups hz
  have hjoin := hjoin z rfl
  unfold Ld.load at hy
  split at hy
  · cases hy
  simp only [bind, Except.bind] at hy
  split at hy
  · cases hy
  next os hos =>
  split at hy
  · cases hy
  next y' hfin =>
  cases hy
  unfold Ld.finish at hfin
  simp only [bind, Except.bind] at hfin
  split at hfin
  · cases hfin
  next x hx =>
  have hxy : getVar x.vars n = getVar y.vars n := by
    split at hfin
    · cases hfin; rfl
    · next iv =>
      split at hfin
      · cases hfin
      · next ids hids =>
        rw [mergeInto_vars hfin]
        cases hg : getVar x.vars n with
        | some v =>
          unfold getVar at hg ⊢
          rw [List.find?_append, hg]; rfl
        | none =>
          symm
          rw [getVar_none, List.map_append, List.mem_append, not_or]
          refine ⟨(getVar_none _ _).1 hg, ?_⟩
          intro hm
          obtain ⟨w, hw, rfl⟩ := List.mem_map.1 hm
          obtain ⟨w', hw', rfl⟩ := List.mem_map.1 (mk_names hids w hw)
          exact himm iv rfl (List.mem_map.2 ⟨w', (List.mem_filter.1 hw').1, rfl⟩)
  rw [← hxy]
  have key : ∀ (ps : List P) (gs os : List (Dataset V)),
      mapPy (fun p => loadOne e delayed (selectNames e.refMeta sel) (selectNames st.metas sel)
        (st.files e.refDir p) (st.files e.base p) []) ps = .ok gs →
      mapPy (openPart delayed sel (refStore e st)) ps = .ok os →
      gs.map (fun g => getVar g.vars n) = os.map (fun g => getVar g.vars n) ∧
      (∀ g ∈ gs, (g.vars.map (·.name)).Nodup) ∧ ∀ g ∈ os, (g.vars.map (·.name)).Nodup := by
    intro ps
    induction ps with
    | nil => intro gs os h1 h2; simp only [mapPy] at h1 h2; cases h1; cases h2; simp
    | cons p t ih =>
      intro gs os h1 h2
      simp only [mapPy, bind, Except.bind] at h1 h2
      split at h1
      · cases h1
      next g hg =>
      split at h1
      · cases h1
      next gs' hgs' =>
      split at h2
      · cases h2
      next o ho =>
      split at h2
      · cases h2
      next os' hos' =>
      cases h1; cases h2
      obtain ⟨a, b, c⟩ := loadOne_ref hr hg ho
      obtain ⟨a', b', c'⟩ := ih _ _ hgs' hos'
      refine ⟨by simp only [List.map_cons, c n hn, a'], ?_, ?_⟩
      · intro g' hg'
        rcases List.mem_cons.1 hg' with rfl | h
        · exact a
        · exact b' g' h
      · intro g' hg'
        rcases List.mem_cons.1 hg' with rfl | h
        · exact b
        · exact c' g' h
  obtain ⟨k1, k2, k3⟩ := key _ _ _ hgs hos
  exact joinGroups_getVar k1 k2 k3 hjoin hx

/-! ### Variables that are not split -/

omit [DecidableEq P] in
theorem loadOne_hidden {e : Env D V H} {del : Bool} {refSel names : List String}
    {ref cur : Option (Part V H)} {slices : List (Nat × Nat)} {z : Dataset V}
    (h : loadOne e del refSel names ref cur slices = .ok z) (n : String)
    (hn : n ∈ z.vars.map (·.name)) :
    (∃ r, ref = some r ∧ n ∈ r.vars.map (·.name)) ∨ n ∈ names := by
  cases ref with
  | none => simp only [loadOne] at h; cases h
  | some r =>
    have hsame : loadOne e del (refSel.filter fun n => decide (n ∈ r.vars.map (·.name))) names
        (some r) cur slices = .ok z := by
      rw [← h]
      have : openGroup del (some (refSel.filter fun n => decide (n ∈ r.vars.map (·.name)))) r.vars =
          openGroup del (some refSel) r.vars := by
        unfold openGroup
        congr 2
        apply List.filter_congr
        intro v hv
        rw [Bool.eq_iff_iff]
        simp only [decide_eq_true_eq, List.mem_filter]
        exact ⟨fun h => h.1, fun h => ⟨h, List.mem_map_of_mem hv⟩⟩
      simp only [loadOne, this]
    obtain ⟨v, hv, rfl⟩ := List.mem_map.1 hn
    rcases loadOne_names hsame v hv with h1 | h1
    · exact .inl ⟨r, rfl, by simpa using (List.mem_filter.1 h1).2⟩
    · exact .inr h1

/-- C81: the variables of the reference that are in none of its partitions are never loaded from a
view, whatever the arguments, nor given to the callbacks of `update` and `map`. -/
theorem C81_hidden (e : Env D V H) (st : State D P V H) (n : String) (hns : NotSplit e st n)
    (hap : ∀ m ∈ st.metas, m.name ≠ n) :
    (∀ (le : P → P → Bool) (listing : List P) (delayed : Bool) (filters : P → Bool)
      (indexer : Option (List (P × (Nat × Nat)))) (sel : Option (List String)) (z : Dataset V),
      load e le listing delayed filters indexer sel st = .ok (some z) → getVar z.vars n = none) ∧
    ∀ (delayed : Bool) (sel : Option (List String)) (parts : List P) (l : List (Dataset V × P)),
      loadList e delayed sel st.metas parts st.files = .ok l →
      ∀ x ∈ l, getVar x.1.vars n = none := by
  have one : ∀ {del : Bool} {sel : Option (List String)} {p : P} {slices : List (Nat × Nat)}
      {z : Dataset V}, loadOne e del (selectNames e.refMeta sel) (selectNames st.metas sel)
      (st.files e.refDir p) (st.files e.base p) slices = .ok z → n ∉ z.vars.map (·.name) := by
    intro del sel p slices z hz hm
    rcases loadOne_hidden hz n hm with ⟨r, h1, h2⟩ | h1
    · exact hns p r h1 h2
    · obtain ⟨⟨m, h2, h3⟩, _⟩ := (mem_selectNames _ _ _).1 h1
      exact hap m h2 h3
  constructor
  · intro le listing delayed filters indexer sel z h
    rw [view_load_eq] at h
    rw [getVar_none]
    intro hm
    unfold loadBare at h
    split at h
    · cases h
    · simp only at h
      split at h
      · cases h
      · cases h
      · next zds rest hmap =>
        simp only [bind, Except.bind] at h
        split at h
        · cases h
        · next z' hz =>
          cases h
          obtain ⟨v, hv, hvn⟩ := List.mem_map.1 hm
          obtain ⟨g, hg, u, hu, e', _⟩ := joinGroups_fill hz v hv
          obtain ⟨x, _, hx⟩ := mapPy_mem _ _ _ hmap g (List.mem_of_getElem? hg)
          exact one hx (List.mem_map.2 ⟨u, hu, e'.trans hvn⟩)
  · intro delayed sel parts l h x hx
    unfold loadList at h
    obtain ⟨p, _, hp⟩ := mapPy_mem _ _ _ h x hx
    simp only [bind, Except.bind] at hp
    split at hp
    · cases hp
    · next z hz => cases hp; rw [getVar_none]; exact one hz

theorem runTasks_raises {α : Type} [DecidableEq D] (e : Env D V H)
    (f : Option (Part V H) → Option (Part V H) → Option (Part V H) × Py α) (err : PyErr)
    (fs : Files D P V H) (p : P) (t : List P)
    (h : (f (fs e.refDir p) (fs e.base p)).2 = .error err) :
    (runTasks e f fs (p :: t)).2 = .error err := by
  simp only [runTasks]
  split
  · next err' _ h1 => rw [h] at h1; cases h1; rfl
  · next h1 _ => rw [h] at h1; cases h1
  · next h1 _ => rw [h] at h1; cases h1

/-- C81: a variable whose dimensions are those of variables that are not split cannot be added to a
view that holds a partition: `KeyError`.  The directories and the configuration stay as they were,
the object keeps the variable. -/
theorem C81_add [DecidableEq D] (e : Env D V H) (listing : List P) (hl : listing.Nodup) (dims : List String)
    (m : VarMeta V) (st : State D P V H) (h1 : m.name ∉ e.refMeta.map (·.name))
    (h2 : m.name ∉ st.metas.map (·.name)) (h3 : ∀ d ∈ m.dims, d ∈ dims)
    (ht : ∃ t ∈ e.refMeta, t.dims = m.dims)
    (hns : ∀ t ∈ e.refMeta, t.dims = m.dims → NotSplit e st t.name)
    (hno : NoArray e st.files m.name) (hp : ∃ p ∈ listing, st.files e.base p ≠ none) :
    addVariable e listing dims m st = ({ st with metas := st.metas ++ [m] }, .error .keyError) := by
  obtain ⟨tmpl, htm⟩ : ∃ tmpl, template e m = .ok tmpl := by
    obtain ⟨tm, htm, hdims⟩ := ht
    unfold template
    split
    · next hf =>
      rw [List.find?_eq_none] at hf
      exact absurd (by simpa using hdims) (hf tm htm)
    · exact ⟨_, rfl⟩
  obtain ⟨t, htmem, htd, htn⟩ := template_spec e m tmpl htm
  have hnst : NotSplit e st tmpl := htn ▸ hns t htmem htd
  have herr : ∀ p, (addTask e tmpl m (st.files e.refDir p) (st.files e.base p)).2 =
      .error .keyError := by
    intro p
    unfold addTask
    split
    · next r part hr hw =>
      have : getVar r.vars tmpl = none := (getVar_none _ _).2 (hnst p r hr)
      simp only [createArray, this]
    · rfl
  have hparts : partitions e listing (fun _ => true) st.files ≠ [] := by
    obtain ⟨p, hp1, hp2⟩ := hp
    refine List.ne_nil_of_mem (a := p) ((mem_parts _ _ _ _).2 ⟨hp1, hp2⟩)
  have hout : (addVariable e listing dims m st).2 = .error .keyError ∧
      (addVariable e listing dims m st).1.metas = st.metas ++ [m] := by
    unfold Vw.addVariable
    rw [if_neg (by simp only [not_or]; exact ⟨h1, h2⟩), if_neg (by
      simp only [not_exists, not_and, Classical.not_not]; exact h3)]
    simp only [htm, if_neg hparts]
    obtain ⟨p, ps, hps⟩ := List.exists_cons_of_ne_nil hparts
    have hrun : (runTasks e (addTask e tmpl m) st.files
        (partitions e listing (fun _ => true) st.files)).2 = .error .keyError := by
      rw [hps]
      exact runTasks_raises e _ _ _ _ _ (herr p)
    generalize runTasks e (addTask e tmpl m) st.files
      (partitions e listing (fun _ => true) st.files) = r at hrun
    obtain ⟨fs, out⟩ := r
    cases hrun
    exact ⟨rfl, rfl⟩
  generalize hr : addVariable e listing dims m st = r at hout
  obtain ⟨st', out⟩ := r
  obtain ⟨rfl, hm⟩ := hout
  have := (C56_add_failed_partial e listing hl dims m st st' _ hno hr).1
  obtain ⟨files, metas, saved⟩ := st'
  simp only at hm
  subst hm
  unfold reopened at this
  injection this with a b c
  simp only at a b
  subst a b
  rfl

/-- C81: after that, a load with the variable raises for every selection of partitions that is not
empty. -/
theorem C81_add_blocks (e : Env D V H) (m : VarMeta V) (st : State D P V H)
    (hno : NoArray e st.files m.name) (le : P → P → Bool) (listing : List P) (delayed : Bool)
    (filters : P → Bool) (sel : Option (List String)) (hsel : Chosen sel m.name)
    (hp : ∃ p ∈ listing, filters p = true ∧ st.files e.base p ≠ none) :
    ∃ err, load e le listing delayed filters none sel { st with metas := st.metas ++ [m] } =
      .error err := by
  obtain ⟨p, hp1, hp2, hp3⟩ := hp
  obtain ⟨st', hst'⟩ : ∃ st' : State D P V H, st' = { st with metas := st.metas ++ [m] } := ⟨_, rfl⟩
  rw [← hst']
  have hfiles : st'.files = st.files := by rw [hst']
  have hmem : p ∈ listing.filter (heldBy e st' filters) := by
    refine List.mem_filter.2 ⟨hp1, ?_⟩
    unfold heldBy
    rw [hp2, hfiles]
    simpa [Option.isSome_iff_ne_none] using hp3
  cases hl : load e le listing delayed filters none sel st' with
  | error err => exact ⟨err, rfl⟩
  | ok r =>
    exfalso
    rw [view_load_eq] at hl
    have hsome : ∀ gs, mapPy (fun p => loadOne e delayed (selectNames e.refMeta sel)
        (selectNames st'.metas sel) (st'.files e.refDir p) (st'.files e.base p) [])
        (listing.filter (heldBy e st' filters)) ≠ .ok gs := by
      intro gs hgs
      obtain ⟨i, hi⟩ := List.getElem?_of_mem hmem
      obtain ⟨g, _, hg⟩ := (mapPy_spec _ _ _ hgs).2 i p hi
      have harr : ∀ W, mapPy (openArray delayed (st'.files e.base p))
          (selectNames st'.metas sel) ≠ .ok W := by
        intro W hW
        have hn : m.name ∈ selectNames st'.metas sel :=
          (mem_selectNames _ _ _).2 ⟨⟨m, by rw [hst']; simp, rfl⟩, hsel⟩
        obtain ⟨j, hj⟩ := List.getElem?_of_mem hn
        obtain ⟨w, _, hw⟩ := (mapPy_spec _ _ _ hW).2 j _ hj
        unfold openArray at hw
        split at hw
        · cases hw
        · next part hpart =>
          rw [hfiles] at hpart
          have : getVar part.vars m.name = none := by
            rw [getVar_none]
            intro hm
            obtain ⟨v, hv, hvn⟩ := List.mem_map.1 hm
            exact hno p part hpart v hv hvn
          simp only [getVarE, this, bind, Except.bind] at hw
          cases hw
      unfold loadOne at hg
      split at hg
      · cases hg
      · simp only [bind, Except.bind] at hg
        split at hg
        · cases hg
        · split at hg
          · split at hg
            · cases hg
            · next W hW => exact harr W hW
          · split at hg
            · cases hg
            · next W hW => exact harr W hW
    obtain ⟨gs, hgs, _⟩ := loadBare_groups hl
    exact hsome gs hgs

/-! ### What is loaded -/

/-- C81: for a view whose partitions agree with those of the reference, both loads succeed when a
partition is selected; what is loaded from the view has the split variables of the reference that
are selected, with the same values.  Missing: the variables that are not split (`C81_hidden`). -/
theorem C81_shows_partial (e : Env D V H) (le : P → P → Bool) (listing : List P) (delayed : Bool)
    (filters : P → Bool) (sel : Option (List String)) (st : State D P V H)
    (imm : Option (List (Var V))) (size : P → Nat) (other : String → Nat) (hm : st.metas ≠ [])
    (hg : GoodView e st size other) (hr : RefParts e st) (hc : DimsCovered e st sel)
    (hu : Uniform e.dim size other (refStore e st))
    (himm : ∀ iv, imm = some iv → GoodImm e.dim other (refStore e st) iv)
    (hl : ∀ p ∈ listing, st.files e.refDir p ≠ none)
    (hp : ∃ p ∈ listing, heldBy e st filters p = true) :
    ∃ z y, load e le listing delayed filters none sel st = .ok (some z) ∧
      Ld.load ⟨e.dim, delayed, sel, imm⟩ (refStore e st) listing (heldBy e st filters) =
        .ok (some y) ∧
      ∀ p ∈ listing, ∀ r, st.files e.refDir p = some r → ∀ v ∈ r.vars, Chosen sel v.name →
        ∃ w, getVar z.vars v.name = some w ∧ getVar y.vars v.name = some w := by
  obtain ⟨y, hy, hwin, -, -⟩ := C54_load ⟨e.dim, delayed, sel, imm⟩ (refStore e st) listing
    (heldBy e st filters) size other hu
    (by
      intro q hq _
      obtain ⟨r, hr⟩ := Option.ne_none_iff_exists'.1 (hl q hq)
      exact ⟨r.vars, by simp [refStore, hr]⟩) himm hp
  obtain ⟨q, hq, hqh⟩ := hp
  obtain ⟨hqf, hqb⟩ : filters q = true ∧ (st.files e.base q).isSome = true := by
    simpa [heldBy] using hqh
  obtain ⟨rq, hrq⟩ := Option.ne_none_iff_exists'.1 (hl q hq)
  have hqv : viewStore e st q ≠ none := by
    obtain ⟨part, hpart⟩ := Option.isSome_iff_exists.1 hqb
    simp [viewStore, hrq, hpart]
  rcases C40_filters_partial e le listing delayed filters sel st size other hm hl hg (.inl hc) with
    ⟨_, ps, z, hz, _⟩ | ⟨hnone, _⟩
  · refine ⟨z, y, hz, hy, ?_⟩
    intro p hp r hpr v hv hch
    obtain ⟨u, huq, hun⟩ := hu.names p q r.vars rq.vars (by simp [refStore, hpr])
      (by simp [refStore, hrq]) v hv
    obtain ⟨w, hw, hwn⟩ := hwin.present q (List.mem_filter.2 ⟨hq, hqh⟩) rq.vars
      (by simp [refStore, hrq]) u huq (by rw [hun]; exact hch)
    obtain ⟨m, hmr, hmn⟩ := (hr.refs p r hpr v hv).1
    have hsame := C81_same_partial e le listing delayed filters sel st imm hr z y hz hy v.name
      (by
        intro hx
        obtain ⟨m', hm', hn'⟩ := List.mem_map.1 hx
        exact hr.apart m' hm' m hmr (hn'.trans hmn.symm))
      (by
        intro iv hiv hx
        obtain ⟨x, hx, hxn⟩ := List.mem_map.1 hx
        exact (himm iv hiv).fresh p r.vars (by simp [refStore, hpr]) v hv x hx hxn)
    obtain ⟨w', hw'⟩ := Option.isSome_iff_exists.1 ((getVar_isSome y.vars v.name).2
      (List.mem_map.2 ⟨w, hw, hwn.trans hun⟩))
    exact ⟨w', hsame.trans hw', hw'⟩
  · exact absurd (hnone q hq hqf) hqv

/-! ### A reference with a variable that is not split -/

namespace RefCase

def lonMeta : VarMeta Nat := ⟨"lon", ["x"], none, 0⟩

/-- The variable that is not split. -/
def lon : Var Nat :=
  { name := "lon", delayed := false, dims := ["x"], array := vec [7, 8], fill := none, props := 0 }

/-- The reference has the variable `time`, and `lon` that is not split. -/
def env : Env Bool Nat (List Nat) := { smallEnv (· == ·) with refMeta := [timeMeta, lonMeta] }

def two (_ : String) : Nat := 2

theorem good : GoodView env twoView viewSize two where
  uniform := (twoView_goodFor two).uniform
  refs := by
    intro p r hr v hv
    obtain ⟨m, hm, hn⟩ := (twoView_goodFor two).refs p r hr v hv
    simp only [smallEnv, List.mem_singleton] at hm
    subst hm
    exact ⟨timeMeta, List.mem_cons_self, hn⟩
  names := (twoView_goodFor two).names
  complete := (twoView_goodFor two).complete
  metas := (twoView_goodFor two).metas
  apart := by
    intro m hm t ht
    simp only [twoView, List.mem_singleton] at hm
    simp only [env, List.mem_cons, List.not_mem_nil, or_false] at ht
    subst hm
    rcases ht with rfl | rfl <;> decide

theorem parts (p : Bool) (r : Part Nat (List Nat)) (h : twoView.files env.refDir p = some r) :
    ∃ l : List Nat, r.vars = [timeVar l] ∧ l.length = viewSize p := by
  cases p <;> cases h
  · exact ⟨[1, 2], rfl, rfl⟩
  · exact ⟨[3, 4, 5], rfl, rfl⟩

theorem refParts : RefParts env twoView where
  refs := by
    intro p r hr v hv
    obtain ⟨l, hl, _⟩ := parts p r hr
    rw [hl, List.mem_singleton] at hv
    subst hv
    exact ⟨⟨timeMeta, List.mem_cons_self, rfl⟩, (by decide : ["time"] ≠ [])⟩
  apart := good.apart

theorem store (p : Bool) (vars : List (Var Nat)) (h : refStore env twoView p = some vars) :
    ∃ l : List Nat, vars = [timeVar l] ∧ l.length = viewSize p := by
  unfold refStore at h
  cases hf : twoView.files env.refDir p with
  | none => rw [hf] at h; cases h
  | some r =>
    rw [hf] at h
    cases h
    exact parts p r hf

theorem uniform : Uniform "time" viewSize two (refStore env twoView) := by
  refine ⟨⟨?_, ?_⟩, ?_, ?_⟩
  · intro p vars h
    obtain ⟨l, rfl, _⟩ := store p vars h
    refine ⟨(by decide : ["time"].Nodup), ?_⟩
    intro v hv
    rw [List.mem_singleton] at hv
    subst hv
    exact ⟨vec_arrOk _, (by decide : ["time"].Nodup)⟩
  · intro p q vs ws h1 h2 v hv w hw _
    obtain ⟨a, rfl, _⟩ := store p vs h1
    obtain ⟨b, rfl, _⟩ := store q ws h2
    rw [List.mem_singleton] at hv hw
    subst hv hw
    rfl
  · intro p q vs ws h1 h2 v hv
    obtain ⟨a, rfl, _⟩ := store p vs h1
    obtain ⟨b, rfl, _⟩ := store q ws h2
    rw [List.mem_singleton] at hv
    subst hv
    exact ⟨timeVar b, by simp, rfl⟩
  · intro p vars h v hv
    obtain ⟨a, rfl, ha⟩ := store p vars h
    rw [List.mem_singleton] at hv
    subst hv
    exact congrArg (fun n => [n]) ha

theorem imm (iv : List (Var Nat)) (h : some [lon] = some iv) :
    GoodImm "time" two (refStore env twoView) iv := by
  cases h
  refine ⟨(by decide : ["lon"].Nodup), ?_, ?_⟩
  · intro p vars h v hv w hw
    obtain ⟨l, rfl, _⟩ := store p vars h
    rw [List.mem_singleton] at hv hw
    subst hv hw
    exact (by decide : "lon" ≠ "time")
  · intro w hw
    rw [List.mem_singleton] at hw
    subst hw
    exact ⟨by decide +kernel, rfl⟩

theorem notSplit : NotSplit env twoView "lon" := by
  intro p r hr
  obtain ⟨l, hl, _⟩ := parts p r hr
  rw [hl]
  exact (by decide : "lon" ∉ ["time"])

/-- Both loads of the two partitions. -/
theorem loads : ∃ z y, load env boolLe [false, true] false (fun _ => true) none none twoView =
      .ok (some z) ∧
    Ld.load ⟨"time", false, none, some [lon]⟩ (refStore env twoView) [false, true]
      (heldBy env twoView fun _ => true) = .ok (some y) ∧
    ∀ p ∈ [false, true], ∀ r, twoView.files env.refDir p = some r → ∀ v ∈ r.vars,
      Chosen none v.name →
        ∃ w, getVar z.vars v.name = some w ∧ getVar y.vars v.name = some w :=
  C81_shows_partial env boolLe [false, true] false (fun _ => true) none twoView (some [lon])
    viewSize two (by simp [twoView]) good refParts twoView_covered uniform imm twoView_parts
    ⟨false, by simp, rfl⟩

/-- Three variables: the one of the reference is the same, `lon` is only in what is loaded from the
reference, `x` only in what is loaded from the view. -/
example : ∃ z y, load env boolLe [false, true] false (fun _ => true) none none twoView =
      .ok (some z) ∧
    Ld.load ⟨"time", false, none, some [lon]⟩ (refStore env twoView) [false, true]
      (heldBy env twoView fun _ => true) = .ok (some y) ∧
    z.vars.map (·.name) = ["time", "x"] ∧ y.vars.map (·.name) = ["time", "lon"] :=
  ⟨_, _, rfl, rfl, rfl, rfl⟩

/-- The hypotheses of `C81_add` and `C81_add_blocks` are met: a variable along `x`. -/
example : addVariable env [false, true] ["time", "x"] ⟨"mask", ["x"], none, 0⟩ twoView =
      ({ twoView with metas := [xMeta, ⟨"mask", ["x"], none, 0⟩] }, .error .keyError) ∧
    ∃ err, load env boolLe [false, true] false (fun _ => true) none none
      { twoView with metas := twoView.metas ++ [⟨"mask", ["x"], none, 0⟩] } = .error err := by
  have hno : NoArray env twoView.files "mask" := by
    intro p part hp v hv
    cases p <;> cases hp <;> rw [List.mem_singleton] at hv <;> subst hv <;>
      exact (by decide : "x" ≠ "mask")
  refine ⟨C81_add env [false, true] (by decide) ["time", "x"] ⟨"mask", ["x"], none, 0⟩ twoView
    (by decide +kernel) (by decide +kernel) (by decide) ⟨lonMeta, by simp [env], rfl⟩ ?_ hno
    ⟨false, by simp, by decide⟩, ?_⟩
  · intro t ht hd
    simp only [env, List.mem_cons, List.not_mem_nil, or_false] at ht
    rcases ht with rfl | rfl
    · exact absurd hd (by decide +kernel)
    · exact notSplit
  · exact C81_add_blocks env ⟨"mask", ["x"], none, 0⟩ twoView hno boolLe [false, true] false
      (fun _ => true) none (fun l hl => by cases hl) ⟨false, by simp, rfl, by decide⟩

end RefCase

open RefCase in
/-- C81 is violated: the variable that is not split is loaded from the reference, not from the
view. -/
theorem C81_counterexample : ¬ C81_full := by
  intro h
  obtain ⟨z, y, hz, hy, _⟩ := RefCase.loads
  have hlon : getVar y.vars "lon" = some lon := by
    have : Ld.load ⟨"time", false, none, some [lon]⟩ (refStore env twoView) [false, true]
      (heldBy env twoView fun _ => true) = .ok (some _) := rfl
    rw [this] at hy
    cases hy
    rfl
  have := h Bool Bool Nat (List Nat) env boolLe [false, true] false (fun _ => true) none twoView
    (some [lon]) viewSize two z y good refParts twoView_covered imm twoView_parts hz hy _ _ hlon
  rw [(C81_hidden env twoView "lon" notSplit (by
    intro m hm
    simp only [twoView, List.mem_singleton] at hm
    subst hm
    decide)).1 boolLe [false, true] false (fun _ => true) none none z hz] at this
  cases this

end Verif
