import Verif.Spec.ViewLoad
import Verif.Lemmas.ViewLoad
import Verif.Lemmas.LoadNames
import Verif.Props.Load
import Verif.Props.ViewOps

/-! C40: loads of a view. -/

namespace Verif

open Spec Nd Ds Upd Vw

variable {D P V H : Type} [DecidableEq P]

/-- The arrays of the view. -/
theorem openArrays_ok (del : Bool) (part : Part V H) (names : List String)
    (h : ∀ n ∈ names, ∃ v ∈ part.vars, v.name = n) :
    ∃ W, mapPy (openArray del (some part)) names = .ok W ∧ W.map (·.name) = names ∧
      ∀ x ∈ W, ∃ v, getVar part.vars x.name = some v ∧ x = { v with delayed := del } := by
  induction names with
  | nil => exact ⟨[], rfl, rfl, by simp⟩
  | cons n t ih =>
    obtain ⟨W, h1, h2, h3⟩ := ih fun m hm => h m (by simp [hm])
    obtain ⟨v, hv⟩ : ∃ v, getVar part.vars n = some v := by
      obtain ⟨v, hv, rfl⟩ := h n (by simp)
      exact Option.isSome_iff_exists.1 ((getVar_isSome _ _).2 (List.mem_map_of_mem hv))
    have hn := (getVar_some _ _ _ hv).2
    have ho : openArray del (some part) n = .ok { v with delayed := del } := by
      simp only [openArray, getVarE, hv, bind, Except.bind]
    refine ⟨{ v with delayed := del } :: W, ?_, ?_, ?_⟩
    · simp only [mapPy, bind, Except.bind, ho, h1]
    · simp only [List.map_cons, h2, hn]
    · intro x hx
      rcases List.mem_cons.1 hx with rfl | hx
      · exact ⟨v, by show getVar part.vars v.name = _; rw [hn]; exact hv, rfl⟩
      · exact h3 x hx

omit [DecidableEq P] in
theorem conflict_false (dims : List (String × Nat)) (size : String → Nat) (l : List String)
    (h : ∀ d ∈ l, dims.lookup d = some (size d)) : conflict dims l (l.map size) = false := by
  induction l with
  | nil => rfl
  | cons d t ih =>
    simp only [List.map_cons, conflict, h d (by simp), ih fun d hd => h d (by simp [hd])]
    simp

omit [DecidableEq P] in
/-- Adding the arrays of the view to the dataset of the reference. -/
theorem addArrays_ok (size : String → Nat) (W : List (Var V)) (zds : Dataset V)
    (hdim : ∀ v ∈ W, ∀ d ∈ v.dims, zds.dims.lookup d = some (size d))
    (hsh : ∀ v ∈ W, v.array.shape = v.dims.map size) (hdel : ∀ v ∈ W, v.delayed = zds.delayed)
    (hn : ((zds.vars ++ W).map (·.name)).Nodup) :
    addArrays zds W = .ok { zds with vars := zds.vars ++ W } := by
  induction W generalizing zds with
  | nil => simp [addArrays]
  | cons v t ih =>
    have hadd : addArray zds v = .ok { zds with vars := zds.vars ++ [v] } := by
      unfold addArray Ds.addVariable
      simp only
      rw [if_neg (by
        rintro ⟨d, hd, hl⟩
        rw [hdim v (by simp) d hd] at hl
        cases hl)]
      rw [hsh v (by simp), conflict_false _ _ _ (hdim v (by simp))]
      simp only [Bool.false_eq_true, if_false]
      have hv : (⟨v.name, zds.delayed, v.dims, v.array, v.fill, v.props⟩ : Var V) = v := by
        rw [← hdel v (by simp)]
      rw [hv, setVar_new _ _ (by
        intro hm
        rw [List.map_append, List.nodup_append] at hn
        exact hn.2.2 _ hm v.name (by simp) rfl)]
    simp only [addArrays, bind, Except.bind, hadd]
    rw [ih { zds with vars := zds.vars ++ [v] } (fun w hw => hdim w (by simp [hw])) (fun w hw => hsh w (by simp [hw]))
      (fun w hw => hdel w (by simp [hw])) (by simpa using hn)]
    simp

omit [DecidableEq P] in
theorem mem_selectNames (metas : List (VarMeta V)) (sel : Option (List String)) (n : String) :
    n ∈ selectNames metas sel ↔ (∃ m ∈ metas, m.name = n) ∧ Chosen sel n := by
  unfold selectNames Chosen
  rw [List.mem_filter, List.mem_map]
  cases sel with
  | none => simp
  | some l => simp

omit [DecidableEq P] in
/-- Where the variables of a partition of the view come from. -/
theorem viewStore_some {e : Env D V H} {st : State D P V H} {p : P} {vars : List (Var V)}
    (h : viewStore e st p = some vars) : ∃ r part, st.files e.refDir p = some r ∧
      st.files e.base p = some part ∧
      vars = r.vars ++ part.vars.filter fun v => decide (v.name ∈ st.metas.map (·.name)) := by
  unfold viewStore at h
  split at h
  · next r w hr hw => cases h; exact ⟨r, w, hr, hw, rfl⟩
  · cases h

omit [DecidableEq P] in
/-- The dataset of a partition before it is cut. -/
theorem loadOne_whole {e : Env D V H} {st : State D P V H} {size : P → Nat}
    {other : String → Nat} (hg : GoodView e st size other) {sel : Option (List String)}
    (hc : DimsCovered e st sel) (del : Bool) {p : P} {vars : List (Var V)}
    (hp : viewStore e st p = some vars) :
    ∃ g, (∀ slices, loadOne e del (selectNames e.refMeta sel) (selectNames st.metas sel)
        (st.files e.refDir p) (st.files e.base p) slices =
        if slices = [] then .ok g else do
          let l ← mapPy (fun s => isel g [(e.dim, .slice ⟨some (s.1 : Int), some (s.2 : Int),
            none⟩)]) slices
          joinGroups e.dim l) ∧
      Consistent g ∧ g.delayed = del ∧ g.dims.lookup e.dim = some (size p) ∧
      (∀ v ∈ vars, Chosen sel v.name → getVar g.vars v.name = some { v with delayed := del }) ∧
      ∀ n w, getVar g.vars n = some w → Chosen sel n ∧
        ∃ v, getVar vars n = some v ∧ v ∈ vars ∧ w = { v with delayed := del } := by
  obtain ⟨r, part, hr, hw, hvars⟩ := viewStore_some hp
  obtain ⟨hnd, hok⟩ := hg.uniform.good.1 p vars hp
  obtain ⟨⟨v0, hv0, hch0, hdv0⟩, hcov⟩ := hc p r part hr hw
  obtain ⟨L, hL⟩ : ∃ L, L = ((r.vars.filter fun v => match some (selectNames e.refMeta sel) with
      | none => true
      | some l => decide (v.name ∈ l)).map fun v => ({ v with delayed := del } : Var V)) :=
    ⟨_, rfl⟩
  have hrv : ∀ v ∈ r.vars, v ∈ vars := fun v hv => by rw [hvars]; exact List.mem_append_left _ hv
  have hrn : (r.vars.map (·.name)).Nodup := by
    rw [hvars, List.map_append] at hnd
    exact (List.nodup_append.1 hnd).1
  have hLsrc : ∀ x, x ∈ L ↔ ∃ v ∈ r.vars, Chosen sel v.name ∧ x = { v with delayed := del } := by
    intro x
    rw [hL, List.mem_map]
    constructor
    · rintro ⟨v, hv, rfl⟩
      obtain ⟨h1, h2⟩ := List.mem_filter.1 hv
      simp only [decide_eq_true_eq] at h2
      exact ⟨v, h1, ((mem_selectNames _ _ _).1 h2).2, rfl⟩
    · rintro ⟨v, hv, hch, rfl⟩
      refine ⟨v, List.mem_filter.2 ⟨hv, ?_⟩, rfl⟩
      simp only [decide_eq_true_eq]
      exact (mem_selectNames _ _ _).2 ⟨hg.refs p r hr v hv, hch⟩
  have hLn : (L.map (·.name)).Nodup := by
    rw [hL, List.map_map]
    exact (List.Sublist.map _ List.filter_sublist).nodup hrn
  let sz : String → Nat := fun d => if d = e.dim then size p else other d
  obtain ⟨dims, h1, h2⟩ := mk_sized L ([] : List (String × String)) [] 0 del sz hLn
    (by
      intro v hv
      obtain ⟨w, _, _, rfl⟩ := (hLsrc v).1 hv
      rfl)
    (by
      intro v hv
      obtain ⟨w, hwm, _, rfl⟩ := (hLsrc v).1 hv
      exact hg.uniform.shapes p vars hp w (hrv w hwm))
  have hcon := (mk_spec _ _ _ _ _ _ h1).1
  have hopen : openGroup del (some (selectNames e.refMeta sel)) r.vars = mk L [] [] 0 (some del) := by
    rw [hL]; rfl
  -- the dimensions of the chosen variables of the reference
  have hlook : ∀ v ∈ r.vars, Chosen sel v.name → ∀ d ∈ v.dims, dims.lookup d = some (sz d) := by
    intro v hv hch d hd
    obtain ⟨i, hi⟩ := List.getElem?_of_mem hd
    obtain ⟨n, _, e2⟩ := hcon.sizes { v with delayed := del } ((hLsrc _).2 ⟨v, hv, hch, rfl⟩) i d hi
    have e2 : dims.lookup d = some n := e2
    rw [e2, (h2 d n e2).2]
  have hd0 : dims ≠ [] := by
    rintro rfl
    have := hlook v0 hv0 hch0 e.dim hdv0
    simp at this
  -- the variables of the view
  obtain ⟨W, hW1, hW2, hW3⟩ := openArrays_ok del part (selectNames st.metas sel) (by
    intro n hn
    obtain ⟨⟨m, hm, rfl⟩, _⟩ := (mem_selectNames _ _ _).1 hn
    exact hg.complete p part hw m hm)
  have hWsrc : ∀ x, x ∈ W ↔ ∃ v ∈ part.vars, (∃ m ∈ st.metas, m.name = v.name) ∧
      Chosen sel v.name ∧ x = { v with delayed := del } := by
    intro x
    constructor
    · intro hx
      obtain ⟨v, hv, rfl⟩ := hW3 x hx
      have hxn : v.name ∈ selectNames st.metas sel := by
        rw [← hW2]
        exact List.mem_map.2 ⟨_, hx, rfl⟩
      obtain ⟨a, b⟩ := (mem_selectNames _ _ _).1 hxn
      exact ⟨v, (getVar_some _ _ _ hv).1, a, b, rfl⟩
    · rintro ⟨v, hv, hm, hch, rfl⟩
      have hn : v.name ∈ W.map (·.name) := by
        rw [hW2]
        exact (mem_selectNames _ _ _).2 ⟨hm, hch⟩
      obtain ⟨x, hx, hxn⟩ := List.mem_map.1 hn
      obtain ⟨u, hu, hxu⟩ := hW3 x hx
      rw [hxn, getVar_of_mem _ (hg.names p part hw) v hv] at hu
      cases hu
      rw [← hxu]
      exact hx
  have hWv : ∀ v ∈ part.vars, (∃ m ∈ st.metas, m.name = v.name) → v ∈ vars := by
    intro v hv hm
    rw [hvars]
    refine List.mem_append_right _ (List.mem_filter.2 ⟨hv, ?_⟩)
    simp only [decide_eq_true_eq, List.mem_map]
    exact hm
  have hWn : (W.map (·.name)).Nodup := by
    rw [hW2]
    exact (List.filter_sublist).nodup hg.metas
  have hbothn : ((L ++ W).map (·.name)).Nodup := by
    rw [List.map_append, List.nodup_append]
    refine ⟨hLn, hWn, ?_⟩
    intro a ha b hb hab
    subst hab
    obtain ⟨x, hx, rfl⟩ := List.mem_map.1 ha
    obtain ⟨y, hy, hyx⟩ := List.mem_map.1 hb
    obtain ⟨v, hv, _, rfl⟩ := (hLsrc x).1 hx
    obtain ⟨w, _, ⟨m, hm, hmn⟩, _, rfl⟩ := (hWsrc y).1 hy
    obtain ⟨t, ht, htn⟩ := hg.refs p r hr v hv
    exact hg.apart m hm t ht (hmn.trans (hyx.trans htn.symm))
  have hadd := addArrays_ok sz W
    { dims := dims, vars := L, attrs := [], chunks := [], limit := 0, delayed := del }
    (by
      intro x hx d hd
      obtain ⟨w, hwm, hm, hch, rfl⟩ := (hWsrc x).1 hx
      obtain ⟨v, hv, hvc, hvd⟩ := hcov w hwm hch hm d hd
      exact hlook v hv hvc d hvd)
    (by
      intro x hx
      obtain ⟨w, hwm, hm, hch, rfl⟩ := (hWsrc x).1 hx
      exact hg.uniform.shapes p vars hp w (hWv w hwm hm))
    (by
      intro x hx
      obtain ⟨w, _, _, _, rfl⟩ := (hWsrc x).1 hx
      rfl)
    hbothn
  -- the variables of the dataset
  have hmem : ∀ x, x ∈ L ++ W ↔ ∃ v ∈ vars, Chosen sel v.name ∧ x = { v with delayed := del } := by
    intro x
    rw [List.mem_append, hLsrc, hWsrc]
    constructor
    · rintro (⟨v, hv, hch, rfl⟩ | ⟨v, hv, hm, hch, rfl⟩)
      · exact ⟨v, hrv v hv, hch, rfl⟩
      · exact ⟨v, hWv v hv hm, hch, rfl⟩
    · rintro ⟨v, hv, hch, rfl⟩
      rw [hvars] at hv
      rcases List.mem_append.1 hv with hv | hv
      · exact .inl ⟨v, hv, hch, rfl⟩
      · obtain ⟨a, b⟩ := List.mem_filter.1 hv
        simp only [decide_eq_true_eq, List.mem_map] at b
        exact .inr ⟨v, a, b, hch, rfl⟩
  refine ⟨{ dims := dims, vars := L ++ W, attrs := [], chunks := [], limit := 0, delayed := del },
    ?_, ⟨hcon.keys, hbothn, ?_, ?_⟩, rfl, ?_, ?_, ?_⟩
  · intro slices
    simp only [loadOne, hr, hw, bind, Except.bind, hopen, h1, if_neg hd0, hW1, hadd]
  · intro x hx
    obtain ⟨v, _, _, rfl⟩ := (hmem x).1 hx
    rfl
  · intro x hx i d hi
    rcases List.mem_append.1 hx with hx | hx
    · exact hcon.sizes x hx i d hi
    · obtain ⟨w, hwm, hm, hch, rfl⟩ := (hWsrc x).1 hx
      obtain ⟨v, hv, hvc, hvd⟩ := hcov w hwm hch hm d (List.mem_of_getElem? hi)
      refine ⟨sz d, ?_, hlook v hv hvc d hvd⟩
      have hi : w.dims[i]? = some d := hi
      show w.array.shape[i]? = _
      rw [hg.uniform.shapes p vars hp w (hWv w hwm hm), List.getElem?_map, hi]
      rfl
  · have := hlook v0 hv0 hch0 e.dim hdv0
    simpa [sz] using this
  · intro v hv hch
    exact getVar_of_mem _ hbothn _ ((hmem _).2 ⟨v, hv, hch, rfl⟩)
  · intro n x hx
    obtain ⟨hx1, hx2⟩ := getVar_some _ _ _ hx
    obtain ⟨v, hv, hch, rfl⟩ := (hmem x).1 hx1
    subst hx2
    exact ⟨hch, v, getVar_of_mem _ hnd v hv, hv, rfl⟩

omit [DecidableEq P] in
/-- One segment of the dataset of a partition. -/
theorem cut_group {dim : String} {del : Bool} {sel : Option (List String)} {st : Store P V}
    {size : P → Nat} {other : String → Nat} (hu : Uniform dim size other st) {g : Dataset V}
    {p : P} {vars : List (Var V)} (hs : st p = some vars) (hc : Consistent g)
    (hd : g.delayed = del) (e2 : g.dims.lookup dim = some (size p))
    (k1 : ∀ v ∈ vars, Chosen sel v.name → getVar g.vars v.name = some { v with delayed := del })
    (k2 : ∀ n w, getVar g.vars n = some w → Chosen sel n ∧
      ∃ v, getVar vars n = some v ∧ v ∈ vars ∧ w = { v with delayed := del })
    (c : Nat × Nat) (h1 : c.1 ≤ c.2) (h2 : c.2 ≤ size p) :
    ∃ g', isel g [(dim, .slice ⟨some (c.1 : Int), some (c.2 : Int), none⟩)] = .ok g' ∧
      cutStore dim size st (p, c) = some (vars.map (pieceVar dim c)) ∧
      Consistent g' ∧ g'.delayed = del ∧
      (∀ v ∈ vars.map (pieceVar dim c), Chosen sel v.name →
        getVar g'.vars v.name = some { v with delayed := del }) ∧
      (∀ n w, getVar g'.vars n = some w → Chosen sel n ∧
        ∃ v, getVar (vars.map (pieceVar dim c)) n = some v ∧
          v ∈ vars.map (pieceVar dim c) ∧ w = { v with delayed := del }) ∧
      ∀ v ∈ g'.vars, ArrOk v.array := by
  obtain ⟨hnd, hok⟩ := hu.good.1 _ _ hs
  have hokg : ∀ v ∈ g.vars, ArrOk v.array ∧ v.dims.Nodup := by
    intro v hv
    obtain ⟨_, w, _, hw, rfl⟩ := k2 _ _ (getVar_of_mem _ hc.names v hv)
    exact hok w hw
  obtain ⟨dims, hi⟩ := isel_piece g hc hokg dim _ e2 c h1 h2
  have hgv : ∀ n w, getVar (g.vars.map (pieceVar dim c)) n = some w ↔
      ∃ v, getVar g.vars n = some v ∧ w = pieceVar dim c v := by
    intro n w
    unfold getVar
    rw [List.find?_map]
    simp only [Option.map_eq_some_iff]
    constructor
    · rintro ⟨v, h1, rfl⟩; exact ⟨v, h1, rfl⟩
    · rintro ⟨v, h1, rfl⟩; exact ⟨v, h1, rfl⟩
  refine ⟨_, hi, ?_, (C44_derived g _).1 _ hi, hd, ?_, ?_, ?_⟩
  · unfold cutStore
    rw [if_pos ⟨h1, h2⟩, hs]
    rfl
  · intro v hv hch
    obtain ⟨w, hw, rfl⟩ := List.mem_map.1 hv
    rw [hgv]
    exact ⟨_, k1 w hw hch, rfl⟩
  · intro n w hw
    obtain ⟨v, hv, rfl⟩ := (hgv n w).1 hw
    obtain ⟨hch, u, hu1, hu2, rfl⟩ := k2 n v hv
    refine ⟨hch, pieceVar dim c u, ?_, List.mem_map_of_mem hu2, rfl⟩
    have := getVar_of_mem (vars.map (pieceVar dim c)) (by
      rw [List.map_map]
      exact hnd) _ (List.mem_map_of_mem hu2)
    rwa [(pieceVar_name _ _ _).1, (getVar_some _ _ _ hu1).2] at this
  · intro v hv
    obtain ⟨w, hw, rfl⟩ := List.mem_map.1 hv
    obtain ⟨_, u, _, hu2, rfl⟩ := k2 _ _ (getVar_of_mem _ hc.names w hw)
    exact pieceVar_ok (n := size p) (hok u hu2).1 (hu.shapes p vars hs u hu2) h1 h2

omit [DecidableEq P] in
/-- The partitions of a view. -/
theorem mem_viewPartitions (e : Env D V H) (listing : List P) (filters : P → Bool)
    (st : State D P V H) (hl : ∀ p ∈ listing, st.files e.refDir p ≠ none) (p : P) :
    p ∈ partitions e listing filters st.files ↔
      p ∈ listing ∧ filters p = true ∧ ∃ vars, viewStore e st p = some vars := by
  simp only [partitions, List.mem_filter]
  constructor
  · rintro ⟨⟨h1, h2⟩, h3⟩
    refine ⟨h1, h2, ?_⟩
    obtain ⟨w, hw⟩ := Option.isSome_iff_exists.1 h3
    obtain ⟨r, hr⟩ := Option.ne_none_iff_exists'.1 (hl p h1)
    exact ⟨_, by simp only [viewStore, hr, hw]; rfl⟩
  · rintro ⟨h1, h2, vars, h3⟩
    obtain ⟨r, part, _, hw, _⟩ := viewStore_some h3
    exact ⟨⟨h1, h2⟩, by rw [hw]; rfl⟩

/-- The load without indexer, when each partition can be loaded. -/
theorem filters_core (e : Env D V H) (le : P → P → Bool) (listing : List P)
    (delayed : Bool) (filters : P → Bool) (sel : Option (List String)) (st : State D P V H)
    (size : P → Nat) (other : String → Nat) (hm : st.metas ≠ [])
    (hl : ∀ p ∈ listing, st.files e.refDir p ≠ none) (hg : GoodView e st size other)
    (hload : ∀ p vars, viewStore e st p = some vars → ∃ g,
      loadOne e delayed (selectNames e.refMeta sel) (selectNames st.metas sel)
        (st.files e.refDir p) (st.files e.base p) [] = .ok g ∧ Consistent g ∧
      g.delayed = delayed ∧
      (∀ v ∈ vars, Chosen sel v.name →
        getVar g.vars v.name = some { v with delayed := delayed }) ∧
      ∀ n w, getVar g.vars n = some w → Chosen sel n ∧
        ∃ v, getVar vars n = some v ∧ v ∈ vars ∧ w = { v with delayed := delayed }) :
    (∃ p ∈ listing, filters p = true ∧ viewStore e st p ≠ none) ∧
      (∃ (ps : List P) (zds : Dataset V),
        load e le listing delayed filters none sel st = .ok (some zds) ∧
        ps = listing.filter (fun p => filters p && (viewStore e st p).isSome) ∧
        HoldsWindow e.dim size sel (viewStore e st) ps zds ∧
        OnlyShown sel (viewStore e st) ps zds) ∨
    (∀ p ∈ listing, filters p = true → viewStore e st p = none) ∧
      load e le listing delayed filters none sel st = .ok none := by
  have hps : partitions e listing filters st.files =
      listing.filter (fun p => filters p && (viewStore e st p).isSome) := by
    unfold partitions
    rw [List.filter_filter]
    apply List.filter_congr
    intro p hp
    obtain ⟨r, hr⟩ := Option.ne_none_iff_exists'.1 (hl p hp)
    rw [Bool.and_comm]
    congr 1
    simp only [viewStore, hr]
    cases st.files e.base p <;> rfl
  by_cases hne : partitions e listing filters st.files = []
  · right
    constructor
    · intro p hp hf
      cases hv : viewStore e st p with
      | none => rfl
      | some vars =>
        have := (mem_viewPartitions e listing filters st hl p).2 ⟨hp, hf, vars, hv⟩
        rw [hne] at this
        cases this
    · simp only [view_load_eq, loadBare, if_neg hm, hne, List.map_nil, mapPy]
  · left
    constructor
    · obtain ⟨p, hp⟩ := List.exists_mem_of_ne_nil _ hne
      obtain ⟨h1, h2, vars, h3⟩ := (mem_viewPartitions e listing filters st hl p).1 hp
      exact ⟨p, h1, h2, by simp [h3]⟩
    generalize hgp : partitions e listing filters st.files = ps at *
    have hsome : ∀ p ∈ ps, ∃ vars, viewStore e st p = some vars := by
      intro p hp
      rw [← hgp] at hp
      exact ((mem_viewPartitions e listing filters st hl p).1 hp).2.2
    have hone : ∀ p ∈ ps, ∃ g, loadOne e delayed (selectNames e.refMeta sel)
        (selectNames st.metas sel) (st.files e.refDir p) (st.files e.base p) [] = .ok g := by
      intro p hp
      obtain ⟨vars, hv⟩ := hsome p hp
      obtain ⟨g, h1, _⟩ := hload p vars hv
      exact ⟨g, h1⟩
    obtain ⟨groups, hgroups⟩ := mapPy_exists _ ps hone
    obtain ⟨g1, g2⟩ := mapPy_spec _ _ _ hgroups
    obtain ⟨zds, hz, _, hw, hv⟩ := joined_holds (del := delayed) (sel := sel) hg.uniform g1 hne (by
      intro j q hq
      obtain ⟨g, hgj, hq'⟩ := g2 j q hq
      obtain ⟨vars, hv⟩ := hsome q (List.mem_of_getElem? hq)
      obtain ⟨g', h1, h2, h3, h4, h5⟩ := hload q vars hv
      rw [h1] at hq'
      cases hq'
      exact ⟨_, vars, hgj, hv, h2, h3, h4, h5⟩)
    refine ⟨ps, zds, ?_, hps, hw, fun v hvm q hq => (hv v hvm).1 q hq⟩
    have hmap : mapPy (fun (x : P × List (Nat × Nat)) =>
        loadOne e delayed (selectNames e.refMeta sel) (selectNames st.metas sel)
          (st.files e.refDir x.1) (st.files e.base x.1) x.2) (ps.map fun p => (p, [])) =
        .ok groups := by
      rw [← hgroups]
      clear hgroups g1 g2 hone hsome hps hgp hne hz hw hv
      induction ps with
      | nil => rfl
      | cons p t ih => simp only [List.map_cons, mapPy, ih]
    simp only [view_load_eq, loadBare, if_neg hm, hgp, hmap]
    cases groups with
    | nil => exact absurd (List.eq_nil_of_length_eq_zero g1.symm) hne
    | cons a t => simp only [bind, Except.bind, hz]

omit [DecidableEq P] in
theorem mk_none (v : Var V) (t : List (Var V)) (b : Bool) (hb : v.delayed = b)
    (hn : ((v :: t).map (·.name)).Nodup) :
    mk (v :: t) [] [] 0 none = mk (v :: t) [] [] 0 (some b) := by
  have hf : (v :: t).foldl setVar [] = v :: t := by
    rw [foldl_setVar_id _ [] (by simpa using hn)]
    rfl
  simp only [mk, hf, updateDims, bind, Except.bind]
  subst hb
  simp

omit [DecidableEq P] in
/-- The dataset of a partition when no variable of the reference is chosen. -/
theorem loadOne_viewOnly {e : Env D V H} {st : State D P V H} {size : P → Nat}
    {other : String → Nat} (hg : GoodView e st size other) {sel : Option (List String)}
    (hc : ViewOnly e st sel) (del : Bool) {p : P} {vars : List (Var V)}
    (hp : viewStore e st p = some vars) :
    ∃ g, (∀ slices, loadOne e del (selectNames e.refMeta sel) (selectNames st.metas sel)
        (st.files e.refDir p) (st.files e.base p) slices = .ok g) ∧
      Consistent g ∧ g.delayed = del ∧
      (∀ v ∈ vars, Chosen sel v.name → getVar g.vars v.name = some { v with delayed := del }) ∧
      ∀ n w, getVar g.vars n = some w → Chosen sel n ∧
        ∃ v, getVar vars n = some v ∧ v ∈ vars ∧ w = { v with delayed := del } := by
  obtain ⟨r, part, hr, hw, hvars⟩ := viewStore_some hp
  obtain ⟨hnd, hok⟩ := hg.uniform.good.1 p vars hp
  have hopen : openGroup del (some (selectNames e.refMeta sel)) r.vars =
      .ok { dims := [], vars := [], attrs := [], chunks := [], limit := 0, delayed := del } := by
    unfold openGroup
    rw [List.filter_eq_nil_iff.2]
    · rfl
    · intro v hv
      simp only [decide_eq_true_eq]
      intro hm
      obtain ⟨⟨m, hm, hmn⟩, hch⟩ := (mem_selectNames _ _ _).1 hm
      exact hc.1 m hm (hmn ▸ hch)
  obtain ⟨W, hW1, hW2, hW3⟩ := openArrays_ok del part (selectNames st.metas sel) (by
    intro n hn
    obtain ⟨⟨m, hm, rfl⟩, _⟩ := (mem_selectNames _ _ _).1 hn
    exact hg.complete p part hw m hm)
  have hWv : ∀ v ∈ part.vars, (∃ m ∈ st.metas, m.name = v.name) → v ∈ vars := by
    intro v hv hm
    rw [hvars]
    refine List.mem_append_right _ (List.mem_filter.2 ⟨hv, ?_⟩)
    simp only [decide_eq_true_eq, List.mem_map]
    exact hm
  have hmem : ∀ x, x ∈ W ↔ ∃ v ∈ vars, Chosen sel v.name ∧ x = { v with delayed := del } := by
    intro x
    constructor
    · intro hx
      obtain ⟨v, hv, rfl⟩ := hW3 x hx
      have hxn : v.name ∈ selectNames st.metas sel := by
        rw [← hW2]
        exact List.mem_map.2 ⟨_, hx, rfl⟩
      obtain ⟨a, b⟩ := (mem_selectNames _ _ _).1 hxn
      exact ⟨v, hWv v (getVar_some _ _ _ hv).1 a, b, rfl⟩
    · rintro ⟨v, hv, hch, rfl⟩
      rw [hvars] at hv
      rcases List.mem_append.1 hv with hv | hv
      · obtain ⟨m, hm, hmn⟩ := hg.refs p r hr v hv
        exact absurd (hmn ▸ hch) (hc.1 m hm)
      · obtain ⟨hv, hm⟩ := List.mem_filter.1 hv
        simp only [decide_eq_true_eq, List.mem_map] at hm
        have hn : v.name ∈ W.map (·.name) := by
          rw [hW2]
          exact (mem_selectNames _ _ _).2 ⟨hm, hch⟩
        obtain ⟨x, hx, hxn⟩ := List.mem_map.1 hn
        obtain ⟨u, hu, hxu⟩ := hW3 x hx
        rw [hxn, getVar_of_mem _ (hg.names p part hw) v hv] at hu
        cases hu
        rw [← hxu]
        exact hx
  have hWn : (W.map (·.name)).Nodup := by
    rw [hW2]
    exact (List.filter_sublist).nodup hg.metas
  have hWd : ∀ x ∈ W, x.delayed = del := by
    intro x hx
    obtain ⟨v, _, _, rfl⟩ := (hmem x).1 hx
    rfl
  obtain ⟨dims, h1, _⟩ := mk_sized W ([] : List (String × String)) [] 0 del
    (fun d => if d = e.dim then size p else other d) hWn hWd
    (by
      intro x hx
      obtain ⟨v, hv, _, rfl⟩ := (hmem x).1 hx
      exact hg.uniform.shapes p vars hp v hv)
  have hmk : mk W [] [] 0 none = mk W [] [] 0 (some del) := by
    cases hWc : W with
    | nil =>
      obtain ⟨m, hm, hch⟩ := hc.2
      have : m.name ∈ W.map (·.name) := by
        rw [hW2]
        exact (mem_selectNames _ _ _).2 ⟨⟨m, hm, rfl⟩, hch⟩
      rw [hWc] at this
      simp at this
    | cons v t =>
      rw [hWc] at hWd hWn
      exact mk_none v t del (hWd v (by simp)) hWn
  refine ⟨{ dims := dims, vars := W, attrs := [], chunks := [], limit := 0, delayed := del },
    ?_, (mk_spec _ _ _ _ _ _ h1).1, rfl, ?_, ?_⟩
  · intro slices
    simp only [loadOne, hr, hw, bind, Except.bind, hopen, if_true, hW1, hmk, h1]
  · intro v hv hch
    exact getVar_of_mem _ hWn _ ((hmem _).2 ⟨v, hv, hch, rfl⟩)
  · intro n x hx
    obtain ⟨hx1, hx2⟩ := getVar_some _ _ _ hx
    obtain ⟨v, hv, hch, rfl⟩ := (hmem x).1 hx1
    subst hx2
    exact ⟨hch, v, getVar_of_mem _ hnd v hv, hv, rfl⟩

/-- C40, without indexer: a load returns the partitions of the view that satisfy the filters,
in the order of the listing, one after the other, the variables of the reference and of the view
aligned, and nothing else.  Missing: selections for which a chosen variable of the view has a
dimension that no chosen variable of the reference has (`C40_uncovered_raises`). -/
theorem C40_filters_partial (e : Env D V H) (le : P → P → Bool) (listing : List P)
    (delayed : Bool) (filters : P → Bool) (sel : Option (List String)) (st : State D P V H)
    (size : P → Nat) (other : String → Nat) (hm : st.metas ≠ [])
    (hl : ∀ p ∈ listing, st.files e.refDir p ≠ none) (hg : GoodView e st size other)
    (hc : DimsCovered e st sel ∨ ViewOnly e st sel) :
    (∃ p ∈ listing, filters p = true ∧ viewStore e st p ≠ none) ∧
      (∃ (ps : List P) (zds : Dataset V),
        load e le listing delayed filters none sel st = .ok (some zds) ∧
        ps = listing.filter (fun p => filters p && (viewStore e st p).isSome) ∧
        HoldsWindow e.dim size sel (viewStore e st) ps zds ∧
        OnlyShown sel (viewStore e st) ps zds) ∨
    (∀ p ∈ listing, filters p = true → viewStore e st p = none) ∧
      load e le listing delayed filters none sel st = .ok none := by
  refine filters_core e le listing delayed filters sel st size other hm hl hg ?_
  intro p vars hv
  rcases hc with hc | hc
  · obtain ⟨g, h1, h2, h3, _, h4, h5⟩ := loadOne_whole hg hc delayed hv
    exact ⟨g, by rw [h1 []]; rfl, h2, h3, h4, h5⟩
  · obtain ⟨g, h1, h2, h3, h4, h5⟩ := loadOne_viewOnly hg hc delayed hv
    exact ⟨g, h1 [], h2, h3, h4, h5⟩

/-- The partitions that a load with an indexer reads. -/
theorem viewIndexer_keys (le : P → P → Bool)
    (trans : ∀ a b c, le a b = true → le b c = true → le a c = true)
    (tot : ∀ a b, (le a b || le b a) = true) (indexer : List (P × (Nat × Nat)))
    (parts : List P) : ∃ keys : List P,
      Vw.indexerArgs le indexer parts =
        keys.map (fun p => (p, (indexer.filter fun x => decide (x.1 = p)).map (·.2))) ∧
      keys.Pairwise (fun a b => le a b = true) ∧ keys.Nodup ∧
      ∀ p, p ∈ keys ↔ p ∈ indexer.map (·.1) ∧ p ∈ parts := by
  refine ⟨_, rfl, Sort.isort_pairwise trans tot _, ?_, ?_⟩
  · exact (Sort.isort_perm _).nodup_iff.2 (eraseDups_nodup _)
  · intro p
    rw [(Sort.isort_perm _).mem_iff]
    simp only [List.mem_eraseDups, List.mem_filter, List.any_eq_true, decide_eq_true_eq]
    constructor
    · rintro ⟨h1, x, hx, rfl⟩
      exact ⟨List.mem_map_of_mem hx, h1⟩
    · rintro ⟨h1, h2⟩
      obtain ⟨x, hx, rfl⟩ := List.mem_map.1 h1
      exact ⟨h2, x, hx, rfl⟩

/-- C40, with an indexer: a load returns the slices of the indexer for the partitions of the
view, in the order of the partitions, and nothing else.  Missing: the filters are ignored
(`C40_counterexample`). -/
theorem C40_indexer_partial (e : Env D V H) (le : P → P → Bool)
    (trans : ∀ a b c, le a b = true → le b c = true → le a c = true)
    (tot : ∀ a b, (le a b || le b a) = true) (listing : List P)
    (delayed : Bool) (filters : P → Bool) (indexer : List (P × (Nat × Nat)))
    (sel : Option (List String)) (st : State D P V H)
    (size : P → Nat) (other : String → Nat) (hm : st.metas ≠ [])
    (hl : ∀ p ∈ listing, st.files e.refDir p ≠ none) (hg : GoodView e st size other)
    (hc : DimsCovered e st sel) (hgood : GoodSlices size indexer)
    (hfil : ∀ p ∈ listing, p ∈ indexer.map (·.1) → filters p = true) :
    ∃ keys : List P, keys.Pairwise (fun a b => le a b = true) ∧ keys.Nodup ∧
      (∀ p, p ∈ keys ↔ p ∈ indexer.map (·.1) ∧ p ∈ listing ∧ filters p = true ∧
        viewStore e st p ≠ none) ∧
      (keys = [] ∧ load e le listing delayed filters (some indexer) sel st = .ok none ∨
      keys ≠ [] ∧ ∃ zds,
        load e le listing delayed filters (some indexer) sel st = .ok (some zds) ∧
        HoldsSegments e.dim sel (viewStore e st)
          (keys.flatMap fun p => indexer.filter fun x => decide (x.1 = p)) zds ∧
        OnlyShown sel (viewStore e st) keys zds) := by
  obtain ⟨keys, hargs, hpw, hnd, hmem⟩ := viewIndexer_keys le trans tot indexer
    (partitions e listing (fun _ => true) st.files)
  have hmem' : ∀ p, p ∈ keys ↔ p ∈ indexer.map (·.1) ∧ p ∈ listing ∧
      ∃ vars, viewStore e st p = some vars := by
    intro p
    rw [hmem, mem_viewPartitions e listing _ st hl p]
    simp
  refine ⟨keys, hpw, hnd, ?_, ?_⟩
  · intro p
    rw [hmem' p]
    constructor
    · rintro ⟨h1, h2, vars, h3⟩
      exact ⟨h1, h2, hfil p h2 h1, by simp [h3]⟩
    · rintro ⟨h1, h2, _, h3⟩
      exact ⟨h1, h2, Option.ne_none_iff_exists'.1 h3⟩
  by_cases hne : keys = []
  · left
    refine ⟨hne, ?_⟩
    simp only [view_load_eq, loadBare, if_neg hm, hargs, hne, List.map_nil, mapPy]
  · right
    refine ⟨hne, ?_⟩
    have hS : ∀ p ∈ keys, (indexer.filter fun x => decide (x.1 = p)) ≠ [] ∧
        ∀ s ∈ indexer.filter fun x => decide (x.1 = p), s.1 = p := by
      intro p hp
      constructor
      · obtain ⟨h1, _⟩ := (hmem' p).1 hp
        obtain ⟨x, hx, rfl⟩ := List.mem_map.1 h1
        exact List.ne_nil_of_mem (List.mem_filter.2 ⟨hx, decide_eq_true (rfl : x.1 = x.1)⟩)
      · intro s hs
        simpa using (List.mem_filter.1 hs).2
    -- the dataset of one partition
    have hone : ∀ p ∈ keys, ∃ z, loadOne e delayed (selectNames e.refMeta sel)
        (selectNames st.metas sel) (st.files e.refDir p) (st.files e.base p)
        ((indexer.filter fun x => decide (x.1 = p)).map (·.2)) = .ok z ∧ Consistent z ∧
        z.delayed = delayed ∧ HoldsSegments e.dim sel (viewStore e st)
          (indexer.filter fun x => decide (x.1 = p)) z ∧ ∀ v ∈ z.vars, ArrOk v.array ∧
          (v.array.shape = v.dims.map fun d => if d = e.dim then
            total (indexer.filter fun x => decide (x.1 = p)) else other d) ∧
          ∃ vars v0, viewStore e st p = some vars ∧ v0 ∈ vars ∧ v0.name = v.name ∧
            Chosen sel v0.name := by
      intro p hp
      obtain ⟨hS1, hS2⟩ := hS p hp
      have hSg : GoodSlices size (indexer.filter fun x => decide (x.1 = p)) :=
        fun x hx => hgood x (List.mem_filter.1 hx).1
      generalize (indexer.filter fun x => decide (x.1 = p)) = segs at *
      obtain ⟨_, _, vars, hv⟩ := (hmem' p).1 hp
      obtain ⟨g, h1, h2, h3, h4, h5, h6⟩ := loadOne_whole hg hc delayed hv
      have hcut : ∀ s ∈ segs, _ := fun s hs =>
        cut_group hg.uniform hv h2 h3 h4 h5 h6 s.2 (hSg s hs).1 (by
          have := (hSg s hs).2
          rwa [hS2 s hs] at this)
      obtain ⟨groups, hgroups⟩ := mapPy_exists (fun s : P × (Nat × Nat) => isel g
        [(e.dim, .slice ⟨some (s.2.1 : Int), some (s.2.2 : Int), none⟩)]) segs (by
        intro s hs
        obtain ⟨g', hg', _⟩ := hcut s hs
        exact ⟨g', hg'⟩)
      obtain ⟨g1, g2⟩ := mapPy_spec _ _ _ hgroups
      obtain ⟨z, hz, hzc, hzw, hzv⟩ := joined_holds (del := delayed) (sel := sel)
        (cutStore_uniform hg.uniform) g1 hS1 (by
          intro j s hs
          obtain ⟨g', hg', hi⟩ := g2 j s hs
          have hsm := List.mem_of_getElem? hs
          obtain ⟨g'', a1, a2, a3, a4, a5, a6, _⟩ := hcut s hsm
          rw [a1] at hi
          cases hi
          refine ⟨_, _, hg', ?_, a3, a4, a5, a6⟩
          rw [← hS2 s hsm] at a2
          exact a2)
      have hgr : ∀ g' ∈ groups, Consistent g' ∧ g'.delayed = delayed ∧
          ∀ v ∈ g'.vars, ArrOk v.array := by
        intro g' hg'
        obtain ⟨s, hs, hi⟩ := mapPy_mem _ _ _ hgroups g' hg'
        obtain ⟨g'', a1, _, a3, a4, _, _, a7⟩ := hcut s hs
        rw [a1] at hi
        cases hi
        exact ⟨a3, a4, a7⟩
      refine ⟨z, ?_, hzc, joinGroups_delayed (fun g' h => (hgr g' h).2.1) hz,
        holdsSegments_of_cut hg.uniform hSg hzw, ?_⟩
      · rw [h1, if_neg (by simpa using hS1)]
        have : mapPy (fun s : Nat × Nat => isel g [(e.dim, .slice ⟨some (s.1 : Int),
            some (s.2 : Int), none⟩)]) (segs.map (·.2)) = .ok groups := by
          rw [← hgroups]
          clear hgroups g1 g2 hcut hS1 hS2 hSg hz hzw hzv
          induction segs with
          | nil => rfl
          | cons s t ih => simp only [List.map_cons, mapPy, ih]
        simp only [bind, Except.bind, this, hz]
      · intro v hvm
        obtain ⟨s0, hs0⟩ := List.exists_mem_of_ne_nil _ hS1
        obtain ⟨cvars, w, b1, b2, b3, b4⟩ := (hzv v hvm).1 s0 hs0
        obtain ⟨_, _, vs, c1, rfl⟩ := cutStore_some b1
        obtain ⟨v0, hv0, rfl⟩ := List.mem_map.1 b2
        rw [hS2 s0 hs0] at c1
        exact ⟨joinGroups_arrOk (fun g' h => (hgr g' h).1) (fun g' h => (hgr g' h).2.2) hz v hvm,
          (hzv v hvm).2, vs, v0, c1, hv0, b3, b4⟩
    obtain ⟨R, hR⟩ := mapPy_exists (fun p => loadOne e delayed (selectNames e.refMeta sel)
      (selectNames st.metas sel) (st.files e.refDir p) (st.files e.base p)
      ((indexer.filter fun x => decide (x.1 = p)).map (·.2))) keys (by
      intro p hp
      obtain ⟨z, hz, _⟩ := hone p hp
      exact ⟨z, hz⟩)
    obtain ⟨r1, r2⟩ := mapPy_spec _ _ _ hR
    obtain ⟨zds, hz, hseg, hshown⟩ := segments_join (del := delayed) (sel := sel) hg.uniform
      (S := fun p => indexer.filter fun x => decide (x.1 = p)) hS
      (fun p hp => ((hmem' p).1 hp).2.2) r1 hne (by
        intro i p hp
        obtain ⟨z, hz, hload⟩ := r2 i p hp
        obtain ⟨z', hz', rest⟩ := hone p (List.mem_of_getElem? hp)
        rw [hz'] at hload
        cases hload
        exact ⟨_, hz, rest⟩)
    refine ⟨zds, ?_, hseg, hshown⟩
    have hmap : mapPy (fun (x : P × List (Nat × Nat)) =>
        loadOne e delayed (selectNames e.refMeta sel) (selectNames st.metas sel)
          (st.files e.refDir x.1) (st.files e.base x.1) x.2)
        (keys.map fun p => (p, (indexer.filter fun x => decide (x.1 = p)).map (·.2))) =
        .ok R := by
      rw [← hR]
      clear hR r1 r2 hone hS hmem hmem' hargs hne hz hseg hshown hpw hnd
      induction keys with
      | nil => rfl
      | cons p t ih => simp only [List.map_cons, mapPy, ih]
    simp only [view_load_eq, loadBare, if_neg hm, hargs, hmap]
    cases R with
    | nil => exact absurd (List.eq_nil_of_length_eq_zero r1.symm) hne
    | cons a t => simp only [bind, Except.bind, hz]

omit [DecidableEq P] in
theorem addArrays_dims (W : List (Var V)) (zds zds' : Dataset V)
    (h : addArrays zds W = .ok zds') : ∀ v ∈ W, ∀ d ∈ v.dims, ∃ n, zds.dims.lookup d = some n := by
  induction W generalizing zds with
  | nil => intro v hv; cases hv
  | cons w t ih =>
    simp only [addArrays, bind, Except.bind] at h
    split at h
    · cases h
    · next z hz =>
      unfold addArray Ds.addVariable at hz
      simp only at hz
      split at hz
      · next hx =>
        cases hz
        split at hx
        · cases hx
        · next hn =>
          split at hx
          · cases hx
          · cases hx
            intro v hv d hd
            rcases List.mem_cons.1 hv with rfl | hv
            · apply Option.ne_none_iff_exists'.1
              intro hc
              exact hn ⟨d, hd, hc⟩
            · exact ih _ h v hv d hd
      · cases hz

omit [DecidableEq P] in
/-- C40 is violated when a chosen variable of the view has a dimension that no chosen variable of
the reference has, although some chosen variable of the reference has a dimension: the load
raises. -/
theorem C40_uncovered_raises (e : Env D V H) (le : P → P → Bool) [DecidableEq P]
    (listing : List P) (delayed : Bool) (filters : P → Bool) (sel : Option (List String))
    (st : State D P V H) (hm : st.metas ≠ []) (p : P) (r part : Part V H) (hp : p ∈ listing)
    (hf : filters p = true) (hr : st.files e.refDir p = some r)
    (hw : st.files e.base p = some part)
    (href : ∀ v ∈ r.vars, ∃ m ∈ e.refMeta, m.name = v.name)
    (v0 : Var V) (hv0 : v0 ∈ r.vars) (hch0 : Chosen sel v0.name) (hd0 : v0.dims ≠ [])
    (hrn : (r.vars.map (·.name)).Nodup)
    (w : Var V) (hwm : getVar part.vars w.name = some w) (hwc : Chosen sel w.name)
    (hwn : ∃ m ∈ st.metas, m.name = w.name) (d : String) (hd : d ∈ w.dims)
    (hun : ∀ v ∈ r.vars, Chosen sel v.name → d ∉ v.dims) :
    ∃ err, load e le listing delayed filters none sel st = .error err := by
  have hpm : p ∈ partitions e listing filters st.files := by
    unfold partitions
    exact List.mem_filter.2 ⟨List.mem_filter.2 ⟨hp, hf⟩, by rw [hw]; rfl⟩
  have hone : ∀ z, loadOne e delayed (selectNames e.refMeta sel) (selectNames st.metas sel)
      (st.files e.refDir p) (st.files e.base p) [] ≠ .ok z := by
    intro z hz
    simp only [loadOne, hr, hw, bind, Except.bind] at hz
    split at hz
    · cases hz
    · next g hg =>
      have hfrom := openGroup_dimsFrom hg
      obtain ⟨hcon, hvars, _⟩ := mk_spec _ _ _ _ _ _ hg
      have hgmem : ∀ v ∈ g.vars, ∃ v1 ∈ r.vars, Chosen sel v1.name ∧ v.dims = v1.dims := by
        intro v hv
        rw [hvars] at hv
        rcases mem_foldl_setVar _ _ _ hv with hv | hv
        · cases hv
        · obtain ⟨v1, hv1, rfl⟩ := List.mem_map.1 hv
          obtain ⟨a, b⟩ := List.mem_filter.1 hv1
          simp only [decide_eq_true_eq] at b
          exact ⟨v1, a, ((mem_selectNames _ _ _).1 b).2, rfl⟩
      have hgv0 : ∃ x ∈ g.vars, x.dims = v0.dims := by
        rw [hvars]
        have hnd : ((r.vars.filter fun v => decide (v.name ∈ selectNames e.refMeta sel)).map
            fun v => ({ v with delayed := delayed } : Var V)).foldl setVar [] =
            [] ++ (r.vars.filter fun v => decide (v.name ∈ selectNames e.refMeta sel)).map
            fun v => ({ v with delayed := delayed } : Var V) := by
          apply foldl_setVar_id
          simp only [List.nil_append, List.map_map]
          exact (List.Sublist.map _ List.filter_sublist).nodup hrn
        refine ⟨{ v0 with delayed := delayed }, ?_, rfl⟩
        show _ ∈ ((r.vars.filter fun v => decide (v.name ∈ selectNames e.refMeta sel)).map
            fun v => ({ v with delayed := delayed } : Var V)).foldl setVar []
        rw [hnd]
        refine List.mem_map_of_mem (f := fun v => ({ v with delayed := delayed } : Var V))
          (List.mem_filter.2 ⟨hv0, ?_⟩)
        exact decide_eq_true ((mem_selectNames _ _ _).2 ⟨href v0 hv0, hch0⟩)
      split at hz
      · next hnil =>
        obtain ⟨x, hx, hxd⟩ := hgv0
        obtain ⟨d0, l, hl⟩ := List.exists_cons_of_ne_nil hd0
        obtain ⟨n, _, hn⟩ := hcon.sizes x hx 0 d0 (by rw [hxd, hl]; rfl)
        rw [hnil] at hn
        simp at hn
      · split at hz
        · cases hz
        · next W hW =>
          split at hz
          · cases hz
          · next z' hz' =>
            have hwmem : w.name ∈ selectNames st.metas sel := (mem_selectNames _ _ _).2 ⟨hwn, hwc⟩
            obtain ⟨i, hi⟩ := List.getElem?_of_mem hwmem
            obtain ⟨x, hx, hopen⟩ := (mapPy_spec _ _ _ hW).2 i _ hi
            simp only [openArray, getVarE, hwm, bind, Except.bind] at hopen
            cases hopen
            obtain ⟨n, hn⟩ := addArrays_dims W g z' hz' _ (List.mem_of_getElem? hx) d hd
            obtain ⟨l1, l2, hl', _⟩ := List.lookup_eq_some_iff.1 hn
            obtain ⟨v, hv, i, e1, _⟩ := hfrom d n (by rw [hl']; simp)
            obtain ⟨v1, hv1, hc1, hd1⟩ := hgmem v hv
            exact hun v1 hv1 hc1 (hd1 ▸ List.mem_of_getElem? e1)
  simp only [view_load_eq, loadBare, if_neg hm]
  cases hmap : mapPy (fun (x : P × List (Nat × Nat)) =>
      loadOne e delayed (selectNames e.refMeta sel) (selectNames st.metas sel)
        (st.files e.refDir x.1) (st.files e.base x.1) x.2)
      ((partitions e listing filters st.files).map fun p => (p, [])) with
  | error err => exact ⟨err, rfl⟩
  | ok l =>
    exfalso
    obtain ⟨i, hi⟩ := List.getElem?_of_mem hpm
    obtain ⟨z, _, hz⟩ := (mapPy_spec _ _ _ hmap).2 i (p, []) (by rw [List.getElem?_map, hi]; rfl)
    exact hone z hz

/-- C40 is violated when no variable of the reference is chosen: the slices of the indexer are
ignored, whole partitions are returned. -/
theorem C40_slices_ignored (e : Env D V H) (le : P → P → Bool) (listing : List P)
    (delayed : Bool) (filters : P → Bool) (ix ix' : List (P × (Nat × Nat)))
    (sel : Option (List String)) (st : State D P V H)
    (size : P → Nat) (other : String → Nat)
    (hl : ∀ p ∈ listing, st.files e.refDir p ≠ none) (hg : GoodView e st size other)
    (hc : ViewOnly e st sel) (hsame : ∀ p : P, p ∈ ix.map (·.1) ↔ p ∈ ix'.map (·.1)) :
    load e le listing delayed filters (some ix) sel st =
      load e le listing delayed filters (some ix') sel st := by
  have hkeys : (partitions e listing (fun _ => true) st.files).filter
        (fun p => ix.any fun x => decide (x.1 = p)) =
      (partitions e listing (fun _ => true) st.files).filter
        (fun p => ix'.any fun x => decide (x.1 = p)) := by
    apply List.filter_congr
    intro p _
    have := hsame p
    simp only [List.mem_map] at this
    rw [Bool.eq_iff_iff]
    simp only [List.any_eq_true, decide_eq_true_eq]
    exact this
  simp only [view_load_eq, loadBare, indexerArgs, hkeys]
  have hmem : ∀ p ∈ Sort.isort le ((partitions e listing (fun _ => true) st.files).filter
      (fun p => ix'.any fun x => decide (x.1 = p))).eraseDups,
      ∃ vars, viewStore e st p = some vars := by
    intro p hp
    rw [(Sort.isort_perm _).mem_iff, List.mem_eraseDups] at hp
    exact ((mem_viewPartitions e listing _ st hl p).1 (List.mem_filter.1 hp).1).2.2
  generalize Sort.isort le ((partitions e listing (fun _ => true) st.files).filter
      (fun p => ix'.any fun x => decide (x.1 = p))).eraseDups = keys at hmem
  have hmap : mapPy (fun (x : P × List (Nat × Nat)) =>
        loadOne e delayed (selectNames e.refMeta sel) (selectNames st.metas sel)
          (st.files e.refDir x.1) (st.files e.base x.1) x.2)
        (keys.map fun p => (p, (ix.filter fun x => decide (x.1 = p)).map (·.2))) =
      mapPy (fun (x : P × List (Nat × Nat)) =>
        loadOne e delayed (selectNames e.refMeta sel) (selectNames st.metas sel)
          (st.files e.refDir x.1) (st.files e.base x.1) x.2)
        (keys.map fun p => (p, (ix'.filter fun x => decide (x.1 = p)).map (·.2))) := by
    clear hkeys
    induction keys with
    | nil => rfl
    | cons p t ih =>
      obtain ⟨vars, hv⟩ := hmem p (by simp)
      obtain ⟨g, h1, _⟩ := loadOne_viewOnly hg hc delayed hv
      simp only [List.map_cons, mapPy, ih fun q hq => hmem q (by simp [hq]), h1]
  rw [hmap]

/-- C40 as stated: any filters, any indexer, any selection with a variable. -/
def C40_full : Prop :=
  ∀ (D P V H : Type) [DecidableEq P] (e : Env D V H) (le : P → P → Bool),
    (∀ a b c, le a b = true → le b c = true → le a c = true) →
    (∀ a b, (le a b || le b a) = true) → ∀ (listing : List P) (delayed : Bool)
    (filters : P → Bool) (indexer : List (P × (Nat × Nat))) (sel : Option (List String))
    (st : State D P V H) (size : P → Nat) (other : String → Nat),
    st.metas ≠ [] → (∀ p ∈ listing, st.files e.refDir p ≠ none) → GoodView e st size other →
    GoodSlices size indexer → (∃ m ∈ e.refMeta ++ st.metas, Chosen sel m.name) →
    ∃ keys : List P, keys.Pairwise (fun a b => le a b = true) ∧ keys.Nodup ∧
      (∀ p, p ∈ keys ↔ p ∈ indexer.map (·.1) ∧ p ∈ listing ∧ filters p = true ∧
        viewStore e st p ≠ none) ∧
      (keys = [] ∧ load e le listing delayed filters (some indexer) sel st = .ok none ∨
      keys ≠ [] ∧ ∃ zds,
        load e le listing delayed filters (some indexer) sel st = .ok (some zds) ∧
        HoldsSegments e.dim sel (viewStore e st)
          (keys.flatMap fun p => indexer.filter fun x => decide (x.1 = p)) zds ∧
        OnlyShown sel (viewStore e st) keys zds)

/-! ### A view with two partitions -/

/-- The variable of the view. -/
def xVar (l : List Nat) : Var Nat :=
  { name := "x", delayed := false, dims := ["time"], array := vec l, fill := some 9, props := 0 }

def timeVar (l : List Nat) : Var Nat :=
  { name := "time", delayed := false, dims := ["time"], array := vec l, fill := none, props := 0 }

/-- The partition `false` has two records, the partition `true` three. -/
def twoView : State Bool Bool Nat (List Nat) where
  files := fun d p => match d, p with
    | false, false => some { vars := [timeVar [1, 2]], check := none }
    | false, true => some { vars := [timeVar [3, 4, 5]], check := none }
    | true, false => some { vars := [xVar [10, 20]], check := none }
    | true, true => some { vars := [xVar [30, 40, 50]], check := none }
  metas := [xMeta]
  saved := [xMeta]

def viewSize (p : Bool) : Nat := if p then 3 else 2

theorem twoView_store (p : Bool) : viewStore (smallEnv (· == ·)) twoView p =
    some (if p then [timeVar [3, 4, 5], xVar [30, 40, 50]] else [timeVar [1, 2], xVar [10, 20]]) := by
  cases p <;> rfl

theorem twoView_vars (p : Bool) (vars : List (Var Nat))
    (h : viewStore (smallEnv (· == ·)) twoView p = some vars) : ∃ a b : List Nat,
      vars = [timeVar a, xVar b] ∧ a.length = viewSize p ∧ b.length = viewSize p := by
  rw [twoView_store] at h
  cases p
  · cases h; exact ⟨[1, 2], [10, 20], rfl, rfl, rfl⟩
  · cases h; exact ⟨[3, 4, 5], [30, 40, 50], rfl, rfl, rfl⟩

theorem twoView_goodFor (other : String → Nat) :
    GoodView (smallEnv (· == ·)) twoView viewSize other := by
  refine ⟨⟨⟨?_, ?_⟩, ?_, ?_⟩, ?_, ?_, ?_, by decide, ?_⟩
  · intro p vars h
    obtain ⟨a, b, rfl, _, _⟩ := twoView_vars p vars h
    refine ⟨(by decide : ["time", "x"].Nodup), ?_⟩
    intro v hv
    simp only [List.mem_cons, List.not_mem_nil, or_false] at hv
    rcases hv with rfl | rfl
    · exact ⟨vec_arrOk _, (by decide : ["time"].Nodup)⟩
    · exact ⟨vec_arrOk _, (by decide : ["time"].Nodup)⟩
  · intro p q vs ws h1 h2 v hv w hw hn
    obtain ⟨a, b, rfl, _, _⟩ := twoView_vars p vs h1
    obtain ⟨c, d, rfl, _, _⟩ := twoView_vars q ws h2
    simp only [List.mem_cons, List.not_mem_nil, or_false] at hv hw
    rcases hv with rfl | rfl <;> rcases hw with rfl | rfl <;> rfl
  · intro p q vs ws h1 h2 v hv
    obtain ⟨a, b, rfl, _, _⟩ := twoView_vars p vs h1
    obtain ⟨c, d, rfl, _, _⟩ := twoView_vars q ws h2
    simp only [List.mem_cons, List.not_mem_nil, or_false] at hv
    rcases hv with rfl | rfl
    · exact ⟨timeVar c, by simp, rfl⟩
    · exact ⟨xVar d, by simp, rfl⟩
  · intro p vars h v hv
    obtain ⟨a, b, rfl, ha, hb⟩ := twoView_vars p vars h
    simp only [List.mem_cons, List.not_mem_nil, or_false] at hv
    rcases hv with rfl | rfl
    · exact congrArg (fun n => [n]) ha
    · exact congrArg (fun n => [n]) hb
  · intro p r hr v hv
    refine ⟨timeMeta, by simp [smallEnv], ?_⟩
    cases p <;> cases hr <;>
    · simp only [List.mem_singleton] at hv
      subst hv
      rfl
  · intro p part hp
    cases p <;> cases hp <;> decide +kernel
  · intro p part hp m hm
    simp only [twoView, List.mem_singleton] at hm
    subst hm
    cases p <;> cases hp
    · exact ⟨xVar [10, 20], by simp, rfl⟩
    · exact ⟨xVar [30, 40, 50], by simp, rfl⟩
  · intro m hm t ht
    simp only [twoView, List.mem_singleton] at hm
    simp only [smallEnv, List.mem_singleton] at ht
    subst hm ht
    decide

theorem twoView_good : GoodView (smallEnv (· == ·)) twoView viewSize (fun _ => 0) :=
  twoView_goodFor _

theorem twoView_covered : DimsCovered (smallEnv (· == ·)) twoView none := by
  intro p r part hr hp
  have hall : ∀ n, Chosen none n := fun n l hl => by cases hl
  cases p <;> cases hr <;> cases hp <;>
  · refine ⟨⟨_, List.mem_singleton.2 rfl, hall _, by decide⟩, ?_⟩
    intro w hw _ _ d hd
    simp only [List.mem_singleton] at hw
    subst hw
    exact ⟨_, List.mem_singleton.2 rfl, hall _, hd⟩

theorem twoView_parts : ∀ p ∈ [false, true], twoView.files (smallEnv (· == ·)).refDir p ≠ none := by
  intro p _
  cases p <;> (intro h; cases h)

/-- The order of the partitions. -/
def boolLe (a b : Bool) : Bool := !a || b

/-- The filters are ignored when there is an indexer. -/
theorem C40_counterexample : ¬ C40_full := by
  intro h
  obtain ⟨keys, _, _, hmem, hcase⟩ := h Bool Bool Nat (List Nat) (smallEnv (· == ·)) boolLe
    (by decide) (by decide) [false, true] false (fun _ => false) [(false, (0, 1))] none twoView
    viewSize (fun _ => 0) (by simp [twoView]) twoView_parts twoView_good
    (by
      intro x hx
      simp only [List.mem_singleton] at hx
      subst hx
      decide)
    ⟨timeMeta, by simp [smallEnv], fun l hl => by cases hl⟩
  have hk : keys = [] := by
    cases keys with
    | nil => rfl
    | cons p t => exact absurd ((hmem p).1 (by simp)).2.2.1 (by simp)
  rcases hcase with ⟨_, h1⟩ | ⟨h1, _⟩
  · have h2 := C40_indexer_partial (smallEnv (· == ·)) boolLe (by decide) (by decide)
      [false, true] false (fun _ => true) [(false, (0, 1))] none twoView viewSize (fun _ => 0)
      (by simp [twoView]) twoView_parts twoView_good twoView_covered
      (by
        intro x hx
        simp only [List.mem_singleton] at hx
        subst hx
        decide)
      (fun _ _ _ => rfl)
    obtain ⟨keys', _, _, hm', hc'⟩ := h2
    have hmem' : false ∈ keys' := (hm' false).2 ⟨by simp, by simp, rfl, by simp [twoView_store]⟩
    rcases hc' with ⟨hk', _⟩ | ⟨_, zds, hz, _⟩
    · rw [hk'] at hmem'
      cases hmem'
    · have : load (smallEnv (· == ·)) boolLe [false, true] false (fun _ => true)
          (some [(false, (0, 1))]) none twoView = load (smallEnv (· == ·)) boolLe [false, true]
          false (fun _ => false) (some [(false, (0, 1))]) none twoView := rfl
      rw [← this, hz] at h1
      cases h1
  · exact h1 hk

/-- The hypotheses of `C40_indexer_partial` are met: two partitions, two slices of one of them. -/
example : ∃ (keys : List Bool) (zds : Dataset Nat), false ∈ keys ∧
    load (smallEnv (· == ·)) boolLe [false, true] true (fun _ => true)
      (some [(true, (1, 3)), (false, (0, 1)), (true, (0, 1))]) none twoView = .ok (some zds) ∧
    HoldsSegments "time" none (viewStore (smallEnv (· == ·)) twoView)
      (keys.flatMap fun p => [(true, (1, 3)), (false, (0, 1)), (true, (0, 1))].filter
        fun x => decide (x.1 = p)) zds := by
  obtain ⟨keys, _, _, hm, hc⟩ := C40_indexer_partial (smallEnv (· == ·)) boolLe (by decide)
    (by decide) [false, true] true (fun _ => true)
    [(true, (1, 3)), (false, (0, 1)), (true, (0, 1))] none twoView viewSize (fun _ => 0)
    (by simp [twoView]) twoView_parts twoView_good twoView_covered
    (by
      intro x hx
      simp only [List.mem_cons, List.not_mem_nil, or_false] at hx
      rcases hx with rfl | rfl | rfl <;> decide)
    (fun _ _ _ => rfl)
  have hk : false ∈ keys := (hm false).2 ⟨by simp, by simp, rfl, by simp [twoView_store]⟩
  rcases hc with ⟨h, _⟩ | ⟨_, zds, h1, h2, _⟩
  · rw [h] at hk
    cases hk
  · exact ⟨keys, zds, hk, h1, h2⟩

/-- The hypotheses of `C40_filters_partial` are met. -/
example : ∃ zds, load (smallEnv (· == ·)) boolLe [false, true] true (fun p => p) none none
      twoView = .ok (some zds) ∧
    HoldsWindow "time" viewSize none (viewStore (smallEnv (· == ·)) twoView) [true] zds := by
  rcases C40_filters_partial (smallEnv (· == ·)) boolLe [false, true] true (fun p => p) none
    twoView viewSize (fun _ => 0) (by simp [twoView]) twoView_parts twoView_good
    (.inl twoView_covered) with ⟨_, ps, zds, h1, h2, h3, _⟩ | ⟨h1, _⟩
  · have : ps = [true] := by rw [h2]; simp [twoView_store]
    rw [this] at h3
    exact ⟨zds, h1, h3⟩
  · have := h1 true (by simp) rfl
    rw [twoView_store] at this
    cases this

theorem twoView_only : ViewOnly (smallEnv (· == ·)) twoView (some ["x"]) := by
  constructor
  · intro m hm hc
    simp only [smallEnv, List.mem_singleton] at hm
    subst hm
    have := hc ["x"] rfl
    revert this
    decide
  · exact ⟨xMeta, by simp [twoView], fun l hl => by cases hl; decide⟩

/-- The hypotheses of `C40_slices_ignored` are met: one record is asked, or all of them. -/
example : load (smallEnv (· == ·)) boolLe [false, true] false (fun _ => true)
      (some [(true, (0, 1))]) (some ["x"]) twoView =
    load (smallEnv (· == ·)) boolLe [false, true] false (fun _ => true)
      (some [(true, (0, 3))]) (some ["x"]) twoView :=
  C40_slices_ignored _ _ _ _ _ _ _ _ _ viewSize (fun _ => 0) twoView_parts twoView_good
    twoView_only (by simp)

/-- A variable of the view with a dimension of its own. -/
def yView : State Bool Unit Nat (List Nat) where
  files := fun d _ => if d then
      some { vars := [{ xVar [1, 2] with dims := ["y"] }], check := none }
    else some { vars := [timeVar [1, 2], { timeVar [1, 2] with name := "z", dims := ["y"] }],
                check := none }
  metas := [⟨"x", ["y"], some 9, 0⟩]
  saved := [⟨"x", ["y"], some 9, 0⟩]

/-- The hypotheses of `C40_uncovered_raises` are met: `x` and `time` are selected, but not the
variable of the reference that has the dimension of `x`. -/
example : ∃ err, load { smallEnv (· == ·) with
      refMeta := [timeMeta, ⟨"z", ["y"], none, 0⟩] } (fun _ _ => true) [()] false
      (fun _ => true) none (some ["time", "x"]) yView = .error err := by
  refine C40_uncovered_raises _ _ [()] false (fun _ => true) (some ["time", "x"]) yView
    (by simp [yView]) () _ _ (by simp) rfl rfl rfl ?_ (timeVar [1, 2]) (by simp) ?_ (by decide)
    (by decide +kernel) { xVar [1, 2] with dims := ["y"] } rfl ?_ ⟨_, by simp [yView]; rfl, rfl⟩ "y"
    (by simp) ?_
  · intro v hv
    simp only [List.mem_cons, List.not_mem_nil, or_false] at hv
    rcases hv with rfl | rfl
    · exact ⟨timeMeta, by simp, rfl⟩
    · exact ⟨⟨"z", ["y"], none, 0⟩, by simp, rfl⟩
  · intro l hl
    cases hl
    decide
  · intro l hl
    cases hl
    decide
  · intro v hv hc
    simp only [List.mem_cons, List.not_mem_nil, or_false] at hv
    rcases hv with rfl | rfl
    · decide
    · have := hc _ rfl
      revert this
      decide

end Verif
