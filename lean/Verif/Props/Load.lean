import Verif.Lemmas.Load
import Verif.Lemmas.Sort
import Verif.Props.Dataset
import Verif.Props.Overlap

/-! C51, C54: loads of a collection, with and without indexer. -/

namespace Verif

open Spec Nd Ds Upd Ld

variable {P V : Type}

/-- The immutable variables are added at the end of what was read. -/
theorem finish_ok {dim : String} {other : String → Nat} {st : Store P V} (o : Opts V)
    (ho : o.dim = dim)
    (himm : ∀ iv, o.imm = some iv → GoodImm dim other st iv) {groups : List (Dataset V)}
    {zds : Dataset V} (hz : joinGroups dim groups = .ok zds)
    (hdel : ∀ g ∈ groups, g.delayed = o.delayed) (hfrom : ∀ g ∈ groups, DimsFrom g) {N : Nat}
    (hshape : ∀ v ∈ zds.vars, v.array.shape = v.dims.map fun d => if d = dim then N else other d)
    (hfresh : ∀ iv, o.imm = some iv → ∀ v ∈ zds.vars, ∀ w ∈ iv, w.name ≠ v.name) :
    ∃ r imms, finish o groups = .ok r ∧ r.vars = zds.vars ++ imms ∧
      HoldsImm o.sel (o.imm.getD []) r ∧
      ∀ w' ∈ imms, Chosen o.sel w'.name ∧ ∃ w ∈ o.imm.getD [], w.name = w'.name := by
  subst ho
  cases hi : o.imm with
  | none =>
    refine ⟨zds, [], ?_, by simp, ?_, by simp⟩
    · simp only [finish, bind, Except.bind, hz, hi]
    · intro w hw
      simp at hw
  | some iv =>
    obtain ⟨ids, r, h1, h2, h3, h4, h5⟩ := merge_imm (himm iv hi) o.delayed o.sel
      (joinGroups_delayed hdel hz) (joinGroups_dimsFrom hfrom hz) hshape (hfresh iv hi)
    refine ⟨r, ids.vars, ?_, h3, ?_, ?_⟩
    · simp only [finish, bind, Except.bind, hz, hi, h1, h2]
    · intro w hw hch
      refine ⟨{ w with delayed := o.delayed }, ?_, rfl, rfl, rfl⟩
      rw [h3]
      exact List.mem_append_right _ (h4 w hw hch)
    · intro w' hw'
      obtain ⟨c1, w, hw, rfl⟩ := h5 w' hw'
      exact ⟨c1, w, hw, rfl⟩

/-- C54: a load without indexer returns the selected partitions, in the order of the listing,
one after the other, and the immutable variables, and nothing else. -/
theorem C54_load (o : Opts V) (st : Store P V) (listing : List P) (filters : P → Bool)
    (size : P → Nat) (other : String → Nat) (hu : Uniform o.dim size other st)
    (hst : ∀ q ∈ listing, filters q = true → ∃ vars, st q = some vars)
    (himm : ∀ iv, o.imm = some iv → GoodImm o.dim other st iv)
    (hsel : ∃ q ∈ listing, filters q = true) :
    ∃ zds, load o st listing filters = .ok (some zds) ∧
      HoldsWindow o.dim size o.sel st (listing.filter filters) zds ∧
      HoldsImm o.sel (o.imm.getD []) zds ∧
      ∀ q ∈ listing, filters q = true → OnlyFrom o.sel st (o.imm.getD []) q zds := by
  have hne : listing.filter filters ≠ [] := by
    obtain ⟨q, h1, h2⟩ := hsel
    exact List.ne_nil_of_mem (List.mem_filter.2 ⟨h1, h2⟩)
  generalize hps : listing.filter filters = ps at *
  have hmem : ∀ q, q ∈ ps ↔ q ∈ listing ∧ filters q = true := by
    intro q
    rw [← hps]
    exact List.mem_filter
  obtain ⟨groups, hgroups⟩ := mapPy_exists (openPart o.delayed o.sel st) ps (by
    intro q hq
    obtain ⟨vars, hq'⟩ := hst q ((hmem q).1 hq).1 ((hmem q).1 hq).2
    obtain ⟨g, hg, _⟩ := openPart_ok hu o.delayed o.sel hq'
    exact ⟨g, hg⟩)
  obtain ⟨g1, g2⟩ := mapPy_spec _ _ _ hgroups
  obtain ⟨zds, hz, hc, hw, hv⟩ := joined_holds (del := o.delayed) (sel := o.sel) hu g1 hne (by
    intro j q hq
    obtain ⟨g, hg, hopen⟩ := g2 j q hq
    obtain ⟨hc, hd, vars, hs, h1, h2⟩ := openPart_spec hopen (hu.good.1 q)
    exact ⟨g, vars, hg, hs, hc, hd, h1, h2⟩)
  obtain ⟨q0, hq0⟩ := List.exists_mem_of_ne_nil _ hne
  have hfresh : ∀ iv, o.imm = some iv → ∀ v ∈ zds.vars, ∀ w ∈ iv, w.name ≠ v.name := by
    intro iv hi v hvm w hwm
    obtain ⟨vars, v0, e1, e2, e3, _⟩ := (hv v hvm).1 q0 hq0
    rw [← e3]
    exact (himm iv hi).fresh _ _ e1 v0 e2 w hwm
  obtain ⟨r, imms, hr, hrv, hri, hro⟩ := finish_ok o rfl himm hz
    (by
      intro g hg
      obtain ⟨q, _, hq⟩ := mapPy_mem _ _ _ hgroups g hg
      exact (openPart_spec hq (hu.good.1 q)).2.1)
    (by
      intro g hg
      obtain ⟨q, _, hq⟩ := mapPy_mem _ _ _ hgroups g hg
      exact openPart_dimsFrom hq)
    (fun v hvm => (hv v hvm).2) hfresh
  refine ⟨r, ?_, ⟨?_, ?_⟩, hri, ?_⟩
  · simp only [load, hps, if_neg hne, bind, Except.bind, hgroups, hr]
  · intro q hq vars hs v hvm hch
    obtain ⟨v', h1, h2⟩ := hw.present q hq vars hs v hvm hch
    exact ⟨v', by rw [hrv]; exact List.mem_append_left _ h1, h2⟩
  · intro v' hv' k q vars v hk hs hvm hn
    rw [hrv] at hv'
    rcases List.mem_append.1 hv' with hv' | hv'
    · exact hw.values v' hv' k q vars v hk hs hvm hn
    · obtain ⟨_, w, hwm, hwn⟩ := hro v' hv'
      cases hi : o.imm with
      | none => rw [hi] at hwm; simp at hwm
      | some iv =>
        rw [hi] at hwm
        exact absurd (hwn.trans hn.symm) ((himm iv hi).fresh _ _ hs v hvm w hwm)
  · intro q h1 h2 v' hv'
    have hq : q ∈ ps := (hmem q).2 ⟨h1, h2⟩
    rw [hrv] at hv'
    rcases List.mem_append.1 hv' with hv' | hv'
    · obtain ⟨vars, v0, e1, e2, e3, e4⟩ := (hv v' hv').1 q hq
      exact ⟨e3 ▸ e4, .inl ⟨vars, e1, v0, e2, e3⟩⟩
    · exact ⟨(hro v' hv').1, .inr (hro v' hv').2⟩

/-- C54: without selected partition the load answers None. -/
theorem C54_none (o : Opts V) (st : Store P V) (listing : List P) (filters : P → Bool)
    (h : ∀ q ∈ listing, filters q = false) : load o st listing filters = .ok none := by
  unfold load
  rw [if_pos]
  rw [List.filter_eq_nil_iff]
  intro q hq
  simp [h q hq]

/-! ### With an indexer -/

theorem mapPy_append {α β : Type} (f : α → Py β) (a b : List α) {x y : List β}
    (hx : mapPy f a = .ok x) (hy : mapPy f b = .ok y) : mapPy f (a ++ b) = .ok (x ++ y) := by
  induction a generalizing x with
  | nil => simp only [mapPy] at hx; cases hx; exact hy
  | cons c t ih =>
    simp only [mapPy, bind, Except.bind] at hx
    split at hx
    · cases hx
    · next z hz =>
      split at hx
      · cases hx
      · next zs hzs =>
        cases hx
        simp only [List.cons_append, mapPy, bind, Except.bind, hz, ih hzs]

/-- The records of one segment. -/
def cutPart (o : Opts V) (st : Store P V) (s : P × (Nat × Nat)) : Py (Dataset V) :=
  match openPart o.delayed o.sel st s.1 with
  | .error e => .error e
  | .ok zds => isel zds [(o.dim, .slice ⟨some (s.2.1 : Int), some (s.2.2 : Int), none⟩)]

theorem loadSlices_flatten (o : Opts V) (st : Store P V) (args : List (P × List (Nat × Nat)))
    {r : List (Dataset V)}
    (hne : ∀ x ∈ args, ∃ g, openPart o.delayed o.sel st x.1 = .ok g)
    (h : mapPy (cutPart o st) (args.flatMap fun x => x.2.map fun s => (x.1, s)) = .ok r) :
    ∃ rs, mapPy (loadSlices o st) args = .ok rs ∧ rs.flatten = r := by
  induction args generalizing r with
  | nil => simp only [List.flatMap_nil, mapPy] at h; cases h; exact ⟨[], rfl, rfl⟩
  | cons x t ih =>
    obtain ⟨g, hg⟩ := hne x (by simp)
    have hone : ∀ (l : List (Nat × Nat)) (T : List (P × (Nat × Nat))) (r : List (Dataset V)),
        mapPy (cutPart o st) ((l.map fun s => (x.1, s)) ++ T) = .ok r →
        ∃ a b, mapPy (fun (s : Nat × Nat) => isel g [(o.dim, .slice ⟨some (s.1 : Int),
          some (s.2 : Int), none⟩)]) l = .ok a ∧ mapPy (cutPart o st) T = .ok b ∧ r = a ++ b := by
      intro l
      induction l with
      | nil => intro T r h; exact ⟨[], r, rfl, h, rfl⟩
      | cons s l ihl =>
        intro T r h
        simp only [List.map_cons, List.cons_append, mapPy, bind, Except.bind] at h
        split at h
        · cases h
        · next y hy =>
          split at h
          · cases h
          · next ys hys =>
            cases h
            obtain ⟨a, b, h1, h2, rfl⟩ := ihl T ys hys
            simp only [cutPart, hg] at hy
            exact ⟨y :: a, b, by simp only [mapPy, bind, Except.bind, hy, h1], h2, rfl⟩
    rw [List.flatMap_cons] at h
    obtain ⟨a, b, h1, h2, rfl⟩ := hone _ _ _ h
    obtain ⟨rs, h3, rfl⟩ := ih (fun y hy => hne y (by simp [hy])) h2
    refine ⟨a :: rs, ?_, by simp⟩
    have : loadSlices o st x = .ok a := by
      simp only [loadSlices, bind, Except.bind, hg]
      exact h1
    simp only [mapPy, bind, Except.bind, this, h3]

variable [DecidableEq P]

/-- The segments of the indexer for the partitions `keys`: those of the first one in the order
of the indexer, then those of the second one, etc. -/
def segments (indexer : List (P × (Nat × Nat))) (keys : List P) : List (P × (Nat × Nat)) :=
  keys.flatMap fun p => indexer.filter fun x => decide (x.1 = p)

theorem args_segments (indexer : List (P × (Nat × Nat))) (keys : List P) :
    ((keys.map fun p => (p, (indexer.filter fun x => decide (x.1 = p)).map (·.2))).flatMap
      fun x => x.2.map fun s => (x.1, s)) = segments indexer keys := by
  unfold segments
  induction keys with
  | nil => rfl
  | cons p t ih =>
    simp only [List.map_cons, List.flatMap_cons, ih]
    congr 1
    rw [List.map_map]
    conv => rhs; rw [← List.map_id (indexer.filter fun x => decide (x.1 = p))]
    apply List.map_congr_left
    intro x hx
    have := (List.mem_filter.1 hx).2
    simp only [decide_eq_true_eq] at this
    subst this
    rfl

theorem eraseDups_nodup (l : List P) : l.eraseDups.Nodup := by
  induction h : l.length using Nat.strongRecOn generalizing l with
  | _ n ih =>
    cases l with
    | nil => simp
    | cons x t =>
      rw [List.eraseDups_cons, List.nodup_cons]
      refine ⟨by simp [List.mem_eraseDups], ih _ ?_ _ rfl⟩
      have := List.length_filter_le (fun b => !b == x) t
      simp only [List.length_cons] at h
      omega

/-- The partitions that `loadIndexed` reads. -/
theorem indexer_keys (le : P → P → Bool)
    (trans : ∀ a b c, le a b = true → le b c = true → le a c = true)
    (tot : ∀ a b, (le a b || le b a) = true) (indexer : List (P × (Nat × Nat)))
    (filters : P → Bool) : ∃ keys : List P,
      Vw.indexerArgs le indexer ((fromIndexer le indexer).filter filters) =
        keys.map (fun p => (p, (indexer.filter fun x => decide (x.1 = p)).map (·.2))) ∧
      keys.Pairwise (fun a b => le a b = true) ∧ keys.Nodup ∧
      ∀ p, p ∈ keys ↔ p ∈ indexer.map (·.1) ∧ filters p = true := by
  refine ⟨_, rfl, Sort.isort_pairwise trans tot _, ?_, ?_⟩
  · exact (Sort.isort_perm _).nodup_iff.2 (eraseDups_nodup _)
  · intro p
    rw [(Sort.isort_perm _).mem_iff]
    simp only [List.mem_eraseDups, List.mem_filter, fromIndexer, (Sort.isort_perm _).mem_iff,
      List.any_eq_true, decide_eq_true_eq]
    constructor
    · rintro ⟨⟨h1, h2⟩, _⟩
      exact ⟨h1, h2⟩
    · rintro ⟨h1, h2⟩
      obtain ⟨x, hx, rfl⟩ := List.mem_map.1 h1
      exact ⟨⟨h1, h2⟩, x, hx, rfl⟩

omit [DecidableEq P] in
/-- One segment of a partition, opened and cut. -/
theorem cutPart_ok {size : P → Nat} {other : String → Nat} (o : Opts V) {st : Store P V}
    (hu : Uniform o.dim size other st) {s : P × (Nat × Nat)} {vars : List (Var V)}
    (hs : st s.1 = some vars) (h1 : s.2.1 ≤ s.2.2) (h2 : s.2.2 ≤ size s.1)
    (hdim : ∃ v ∈ vars, Chosen o.sel v.name ∧ o.dim ∈ v.dims) :
    ∃ g, cutPart o st s = .ok g ∧ cutStore o.dim size st s = some (vars.map (pieceVar o.dim s.2)) ∧
      Consistent g ∧ g.delayed = o.delayed ∧ DimsFrom g ∧
      (∀ v ∈ vars.map (pieceVar o.dim s.2), Chosen o.sel v.name →
        getVar g.vars v.name = some { v with delayed := o.delayed }) ∧
      ∀ n w, getVar g.vars n = some w → Chosen o.sel n ∧
        ∃ v, getVar (vars.map (pieceVar o.dim s.2)) n = some v ∧
          v ∈ vars.map (pieceVar o.dim s.2) ∧ w = { v with delayed := o.delayed } := by
  obtain ⟨g, hg, hsh, hlk⟩ := openPart_ok hu o.delayed o.sel hs
  obtain ⟨hc, hd, vars', hs', k1, k2⟩ := openPart_spec hg (hu.good.1 _)
  rw [hs] at hs'
  cases hs'
  obtain ⟨hnd, hok⟩ := hu.good.1 _ _ hs
  obtain ⟨v0, hv0, hch0, hdv0⟩ := hdim
  have hv0g := getVar_some _ _ _ (k1 v0 hv0 hch0)
  obtain ⟨ax, hax⟩ := List.getElem?_of_mem hdv0
  obtain ⟨n, e1, e2⟩ := hc.sizes _ hv0g.1 ax o.dim hax
  have hn : n = size s.1 := by simpa using hlk o.dim n e2
  subst hn
  have hokg : ∀ v ∈ g.vars, ArrOk v.array ∧ v.dims.Nodup := by
    intro v hv
    obtain ⟨_, w, _, hw, rfl⟩ := k2 _ _ (getVar_of_mem _ hc.names v hv)
    exact hok w hw
  obtain ⟨dims, hi⟩ := isel_piece g hc hokg o.dim _ e2 s.2 h1 h2
  have hgv : ∀ n w, getVar (g.vars.map (pieceVar o.dim s.2)) n = some w ↔
      ∃ v, getVar g.vars n = some v ∧ w = pieceVar o.dim s.2 v := by
    intro n w
    unfold getVar
    rw [List.find?_map]
    simp only [Option.map_eq_some_iff]
    constructor
    · rintro ⟨v, h1, rfl⟩; exact ⟨v, h1, rfl⟩
    · rintro ⟨v, h1, rfl⟩; exact ⟨v, h1, rfl⟩
  have hcut : cutPart o st s = .ok { dims, vars := g.vars.map (pieceVar o.dim s.2), attrs := g.attrs, chunks := g.chunks, limit := g.limit, delayed := g.delayed } := by
    simp only [cutPart, hg]
    exact hi
  have hpd : ∀ v : Var V, pieceVar o.dim s.2 { v with delayed := o.delayed } =
      { pieceVar o.dim s.2 v with delayed := o.delayed } := fun v => rfl
  refine ⟨_, hcut, ?_, (C44_derived g _).1 _ hi, hd, isel_dimsFrom hi, ?_, ?_⟩
  · unfold cutStore
    rw [if_pos ⟨h1, h2⟩, hs]
    rfl
  · intro v hv hch
    obtain ⟨w, hw, rfl⟩ := List.mem_map.1 hv
    rw [hgv]
    exact ⟨_, k1 w hw hch, rfl⟩
  · intro n w hw
    obtain ⟨v, hv, rfl⟩ := (hgv n w).1 hw
    obtain ⟨hch, u, hu1, hu2, rfl⟩ := k2 n v hv
    refine ⟨hch, pieceVar o.dim s.2 u, ?_, List.mem_map_of_mem hu2, rfl⟩
    have := getVar_of_mem (vars.map (pieceVar o.dim s.2)) (by
      rw [List.map_map]
      exact hnd) _ (List.mem_map_of_mem hu2)
    rwa [(pieceVar_name _ _ _).1, (getVar_some _ _ _ hu1).2] at this

/-- C51: a load with an indexer returns, for the partitions of the indexer that satisfy the
filters, the records of the slices of the indexer and nothing else. -/
theorem C51_indexed_partial (o : Opts V) (le : P → P → Bool)
    (trans : ∀ a b c, le a b = true → le b c = true → le a c = true)
    (tot : ∀ a b, (le a b || le b a) = true) (st : Store P V) (filters : P → Bool)
    (indexer : List (P × (Nat × Nat))) (size : P → Nat) (other : String → Nat)
    (hu : Uniform o.dim size other st)
    (hst : ∀ x ∈ indexer, filters x.1 = true → ∃ vars, st x.1 = some vars ∧
      ∃ v ∈ vars, Chosen o.sel v.name ∧ o.dim ∈ v.dims)
    (hgood : GoodSlices size indexer)
    (himm : ∀ iv, o.imm = some iv → GoodImm o.dim other st iv)
    (hsel : ∃ x ∈ indexer, filters x.1 = true) :
    ∃ (keys : List P) (zds : Dataset V), loadIndexed o le st filters indexer = .ok (some zds) ∧
      keys.Pairwise (fun a b => le a b = true) ∧ keys.Nodup ∧
      (∀ p, p ∈ keys ↔ p ∈ indexer.map (·.1) ∧ filters p = true) ∧
      HoldsSegments o.dim o.sel st
        (keys.flatMap fun p => indexer.filter fun x => decide (x.1 = p)) zds ∧
      HoldsImm o.sel (o.imm.getD []) zds ∧
      ∀ q ∈ keys, OnlyFrom o.sel st (o.imm.getD []) q zds := by
  obtain ⟨keys, hargs, hpw, hnd, hmem⟩ := indexer_keys le trans tot indexer filters
  show ∃ (keys : List P) (zds : Dataset V), _ ∧ _ ∧ _ ∧ _ ∧ HoldsSegments o.dim o.sel st (segments indexer keys) zds ∧ _
  obtain ⟨x0, hx0, hf0⟩ := hsel
  have hk0 : x0.1 ∈ keys := (hmem _).2 ⟨List.mem_map_of_mem hx0, hf0⟩
  have hsegm : ∀ s, s ∈ segments indexer keys ↔ s ∈ indexer ∧ filters s.1 = true := by
    intro s
    unfold segments
    simp only [List.mem_flatMap, List.mem_filter, decide_eq_true_eq]
    constructor
    · rintro ⟨p, hp, hs, rfl⟩
      exact ⟨hs, ((hmem _).1 hp).2⟩
    · rintro ⟨h1, h2⟩
      exact ⟨s.1, (hmem _).2 ⟨List.mem_map_of_mem h1, h2⟩, h1, rfl⟩
  have hpart : ∀ s ∈ segments indexer keys, ∃ vars, st s.1 = some vars ∧ s.2.1 ≤ s.2.2 ∧
      s.2.2 ≤ size s.1 ∧ ∃ v ∈ vars, Chosen o.sel v.name ∧ o.dim ∈ v.dims := by
    intro s hs
    obtain ⟨h1, h2⟩ := (hsegm s).1 hs
    obtain ⟨vars, h3, h4⟩ := hst s h1 h2
    exact ⟨vars, h3, (hgood s h1).1, (hgood s h1).2, h4⟩
  have hne : segments indexer keys ≠ [] := List.ne_nil_of_mem ((hsegm x0).2 ⟨hx0, hf0⟩)
  obtain ⟨groups, hgroups⟩ := mapPy_exists (cutPart o st) (segments indexer keys) (by
    intro s hs
    obtain ⟨vars, a1, a2, a3, a4⟩ := hpart s hs
    obtain ⟨g, hg, _⟩ := cutPart_ok o hu a1 a2 a3 a4
    exact ⟨g, hg⟩)
  obtain ⟨rs, hrs, hfl⟩ := loadSlices_flatten o st
    (keys.map fun p => (p, (indexer.filter fun x => decide (x.1 = p)).map (·.2)))
    (by
      intro x hx
      obtain ⟨p, hp, rfl⟩ := List.mem_map.1 hx
      obtain ⟨h1, h2⟩ := (hmem p).1 hp
      obtain ⟨y, hy, rfl⟩ := List.mem_map.1 h1
      obtain ⟨vars, h3, _⟩ := hst y hy h2
      obtain ⟨g, hg, _⟩ := openPart_ok hu o.delayed o.sel h3
      exact ⟨g, hg⟩)
    (by rw [args_segments]; exact hgroups)
  obtain ⟨g1, g2⟩ := mapPy_spec _ _ _ hgroups
  obtain ⟨zds, hz, hc, hw, hv⟩ := joined_holds (del := o.delayed) (sel := o.sel)
    (cutStore_uniform hu) g1 hne (by
      intro j s hs
      obtain ⟨g, hg, hcut⟩ := g2 j s hs
      obtain ⟨vars, a1, a2, a3, a4⟩ := hpart s (List.mem_of_getElem? hs)
      obtain ⟨g', hg', b1, b2, b3, _, b4, b5⟩ := cutPart_ok o hu a1 a2 a3 a4
      rw [hcut] at hg'
      cases hg'
      exact ⟨g, _, hg, b1, b2, b3, b4, b5⟩)
  have hgr : ∀ g ∈ groups, g.delayed = o.delayed ∧ DimsFrom g := by
    intro g hg
    obtain ⟨s, hs, hcut⟩ := mapPy_mem _ _ _ hgroups g hg
    obtain ⟨vars, a1, a2, a3, a4⟩ := hpart s hs
    obtain ⟨g', hg', b1, b2, b3, b4, _⟩ := cutPart_ok o hu a1 a2 a3 a4
    rw [hcut] at hg'
    cases hg'
    exact ⟨b3, b4⟩
  -- where the variables come from
  have hfrom : ∀ v ∈ zds.vars, ∀ q ∈ keys, ∃ vars v0, st q = some vars ∧ v0 ∈ vars ∧
      v0.name = v.name ∧ Chosen o.sel v0.name := by
    intro v hvm q hq
    obtain ⟨h1, h2⟩ := (hmem q).1 hq
    obtain ⟨y, hy, rfl⟩ := List.mem_map.1 h1
    obtain ⟨cvars, w, e1, e2, e3, e4⟩ := (hv v hvm).1 y ((hsegm y).2 ⟨hy, h2⟩)
    obtain ⟨_, _, vs, e5, rfl⟩ := cutStore_some e1
    obtain ⟨v0, hv0, rfl⟩ := List.mem_map.1 e2
    exact ⟨vs, v0, e5, hv0, e3, e4⟩
  have hfresh : ∀ iv, o.imm = some iv → ∀ v ∈ zds.vars, ∀ w ∈ iv, w.name ≠ v.name := by
    intro iv hi v hvm w hwm
    obtain ⟨vars, v0, e1, e2, e3, _⟩ := hfrom v hvm _ hk0
    rw [← e3]
    exact (himm iv hi).fresh _ _ e1 v0 e2 w hwm
  obtain ⟨r, imms, hr, hrv, hri, hro⟩ := finish_ok o rfl himm hz (fun g hg => (hgr g hg).1)
    (fun g hg => (hgr g hg).2) (fun v hvm => (hv v hvm).2) hfresh
  have hseg := holdsSegments_of_cut hu (segs := segments indexer keys)
    (fun s hs => ⟨(hpart s hs).choose_spec.2.1, (hpart s hs).choose_spec.2.2.1⟩) hw
  refine ⟨keys, r, ?_, hpw, hnd, hmem, ⟨?_, ?_⟩, hri, ?_⟩
  · simp only [loadIndexed, hargs]
    rw [if_neg (by
      intro h
      rw [List.map_eq_nil_iff] at h
      rw [h] at hk0
      cases hk0)]
    simp only [bind, Except.bind, hrs, hfl, hr]
  · intro s hs vars hsv v hvm hch
    obtain ⟨v', h1, h2⟩ := hseg.present s hs vars hsv v hvm hch
    exact ⟨v', by rw [hrv]; exact List.mem_append_left _ h1, h2⟩
  · intro v' hv' k q lo hi vars v hk hs hvm hn
    rw [hrv] at hv'
    rcases List.mem_append.1 hv' with hv' | hv'
    · exact hseg.values v' hv' k q lo hi vars v hk hs hvm hn
    · obtain ⟨_, w, hwm, hwn⟩ := hro v' hv'
      cases him : o.imm with
      | none => rw [him] at hwm; simp at hwm
      | some iv =>
        rw [him] at hwm
        exact absurd (hwn.trans hn.symm) ((himm iv him).fresh _ _ hs v hvm w hwm)
  · intro q hq v' hv'
    rw [hrv] at hv'
    rcases List.mem_append.1 hv' with hv' | hv'
    · obtain ⟨vars, v0, e1, e2, e3, e4⟩ := hfrom v' hv' q hq
      exact ⟨e3 ▸ e4, .inl ⟨vars, e1, v0, e2, e3⟩⟩
    · exact ⟨(hro v' hv').1, .inr (hro v' hv').2⟩

/-- C51: when no partition of the indexer satisfies the filters the load answers None. -/
theorem C51_none (o : Opts V) (le : P → P → Bool) (st : Store P V) (filters : P → Bool)
    (indexer : List (P × (Nat × Nat))) (h : ∀ x ∈ indexer, filters x.1 = false) :
    loadIndexed o le st filters indexer = .ok none := by
  have : (fromIndexer le indexer).filter filters = [] := by
    rw [List.filter_eq_nil_iff]
    intro q hq
    rw [fromIndexer, (Sort.isort_perm _).mem_iff, List.mem_eraseDups, List.mem_map] at hq
    obtain ⟨x, hx, rfl⟩ := hq
    simp [h x hx]
  simp [loadIndexed, this, Vw.indexerArgs, Sort.isort]

theorem loadIndexed_error (o : Opts V) (le : P → P → Bool)
    (trans : ∀ a b c, le a b = true → le b c = true → le a c = true)
    (tot : ∀ a b, (le a b || le b a) = true) (st : Store P V) (filters : P → Bool)
    (indexer : List (P × (Nat × Nat))) (x : P × (Nat × Nat)) (hx : x ∈ indexer)
    (hf : filters x.1 = true)
    (h : ∀ r, loadSlices o st (x.1, (indexer.filter fun y => decide (y.1 = x.1)).map (·.2)) ≠
      .ok r) : ∃ e, loadIndexed o le st filters indexer = .error e := by
  obtain ⟨keys, hargs, _, _, hmem⟩ := indexer_keys le trans tot indexer filters
  have hk : x.1 ∈ keys := (hmem _).2 ⟨List.mem_map_of_mem hx, hf⟩
  simp only [loadIndexed, hargs]
  rw [if_neg (by
    intro h
    rw [List.map_eq_nil_iff] at h
    rw [h] at hk
    cases hk)]
  cases hm : mapPy (loadSlices o st) (keys.map fun p =>
      (p, (indexer.filter fun x => decide (x.1 = p)).map (·.2))) with
  | error e => exact ⟨e, rfl⟩
  | ok rs =>
    exfalso
    obtain ⟨i, hi⟩ := List.getElem?_of_mem hk
    obtain ⟨r, _, hr⟩ := (mapPy_spec _ _ _ hm).2 i _ (by rw [List.getElem?_map, hi]; rfl)
    exact h r hr

/-- C51 is violated by a partition of the indexer that is not in the collection: the load
raises (collection/abc.py:619-623, the collection is not listed). -/
theorem C51_absent_raises (o : Opts V) (le : P → P → Bool)
    (trans : ∀ a b c, le a b = true → le b c = true → le a c = true)
    (tot : ∀ a b, (le a b || le b a) = true) (st : Store P V) (filters : P → Bool)
    (indexer : List (P × (Nat × Nat))) (x : P × (Nat × Nat)) (hx : x ∈ indexer)
    (hf : filters x.1 = true) (h : st x.1 = none) :
    ∃ e, loadIndexed o le st filters indexer = .error e := by
  refine loadIndexed_error o le trans tot st filters indexer x hx hf fun r hr => ?_
  simp only [loadSlices, openPart, h, bind, Except.bind] at hr
  cases hr

/-- C51 is violated when no selected variable has the dimension of the partitioning: the load
raises. -/
theorem C51_no_dimension_raises (o : Opts V) (le : P → P → Bool)
    (trans : ∀ a b c, le a b = true → le b c = true → le a c = true)
    (tot : ∀ a b, (le a b || le b a) = true) (st : Store P V) (hgood : GoodStore st)
    (filters : P → Bool) (indexer : List (P × (Nat × Nat))) (x : P × (Nat × Nat))
    (hx : x ∈ indexer) (hf : filters x.1 = true) (vars : List (Var V)) (hs : st x.1 = some vars)
    (hd : ∀ v ∈ vars, Chosen o.sel v.name → o.dim ∉ v.dims) :
    ∃ e, loadIndexed o le st filters indexer = .error e := by
  refine loadIndexed_error o le trans tot st filters indexer x hx hf fun r hr => ?_
  simp only [loadSlices, bind, Except.bind] at hr
  split at hr
  · cases hr
  · next g hg =>
    obtain ⟨hc, _, vars', hs', _, k2⟩ := openPart_spec hg (hgood.1 _)
    rw [hs] at hs'
    cases hs'
    have hnl : g.dims.lookup o.dim = none := by
      cases hl : g.dims.lookup o.dim with
      | none => rfl
      | some n =>
        exfalso
        obtain ⟨l1, l2, hl', _⟩ := List.lookup_eq_some_iff.1 hl
        obtain ⟨v, hv, i, e1, _⟩ := openPart_dimsFrom hg o.dim n (by rw [hl']; simp)
        obtain ⟨hch, w, _, hw, rfl⟩ := k2 _ _ (getVar_of_mem _ hc.names v hv)
        exact hd w hw hch (List.mem_of_getElem? e1)
    have hxm : x ∈ indexer.filter fun y => decide (y.1 = x.1) :=
      List.mem_filter.2 ⟨hx, decide_eq_true (rfl : x.1 = x.1)⟩
    obtain ⟨i, hi⟩ := List.getElem?_of_mem (List.mem_map_of_mem (f := (·.2)) hxm)
    obtain ⟨y, _, hy⟩ := (mapPy_spec _ _ _ hr).2 i _ hi
    unfold isel at hy
    rw [if_pos (by simpa using hnl)] at hy
    cases hy

/-- C51, full statement: the partitions absent from the collection are skipped. -/
def C51_full : Prop :=
  ∀ (P V : Type) [DecidableEq P] (o : Opts V) (le : P → P → Bool),
    (∀ a b c, le a b = true → le b c = true → le a c = true) →
    (∀ a b, (le a b || le b a) = true) → ∀ (st : Store P V) (filters : P → Bool)
    (indexer : List (P × (Nat × Nat))) (size : P → Nat) (other : String → Nat),
    Uniform o.dim size other st →
    (∀ x ∈ indexer, ∀ vars, st x.1 = some vars → ∃ v ∈ vars, Chosen o.sel v.name ∧
      o.dim ∈ v.dims) →
    GoodSlices size indexer → (∀ iv, o.imm = some iv → GoodImm o.dim other st iv) →
    (∃ x ∈ indexer, filters x.1 = true ∧ st x.1 ≠ none) →
    ∃ (keys : List P) (zds : Dataset V), loadIndexed o le st filters indexer = .ok (some zds) ∧
      keys.Pairwise (fun a b => le a b = true) ∧ keys.Nodup ∧
      (∀ p, p ∈ keys ↔ p ∈ indexer.map (·.1) ∧ filters p = true ∧ st p ≠ none) ∧
      HoldsSegments o.dim o.sel st
        (keys.flatMap fun p => indexer.filter fun x => decide (x.1 = p)) zds ∧
      HoldsImm o.sel (o.imm.getD []) zds ∧
      ∀ q ∈ keys, OnlyFrom o.sel st (o.imm.getD []) q zds

/-- The options of the examples. -/
def allOpts : Opts Nat := { dim := "d", delayed := false, sel := none, imm := immCfg.imm }

def strLe (a b : String) : Bool := decide (a ≤ b)

theorem strLe_trans (a b c : String) (h1 : strLe a b = true) (h2 : strLe b c = true) :
    strLe a c = true := by
  simp only [strLe, decide_eq_true_eq] at *
  exact String.le_trans h1 h2

theorem strLe_total (a b : String) : (strLe a b || strLe b a) = true := by
  simp only [strLe, Bool.or_eq_true, decide_eq_true_eq]
  exact String.le_total a b

theorem immCfg_good (iv : List (Var Nat)) (h : immCfg.imm = some iv) :
    GoodImm "d" (fun _ => 2) twoParts iv := by
  cases h
  refine ⟨by decide, ?_, ?_⟩
  · intro p vars hp v hv w hw
    simp only [List.mem_singleton] at hw
    subst hw
    rcases twoParts_cases p vars hp with ⟨_, rfl⟩ | ⟨_, rfl⟩ <;>
    · simp only [List.mem_singleton] at hv
      subst hv
      decide
  · intro w hw
    simp only [List.mem_singleton] at hw
    subst hw
    exact ⟨by decide, rfl⟩

theorem twoParts_axis (p : String) (vars : List (Var Nat)) (h : twoParts p = some vars) :
    ∃ v ∈ vars, Chosen none v.name ∧ "d" ∈ v.dims := by
  rcases twoParts_cases p vars h with ⟨_, rfl⟩ | ⟨_, rfl⟩ <;>
  exact ⟨_, List.mem_singleton.2 rfl, (fun l hl => by cases hl), by decide⟩

theorem C51_counterexample : ¬ C51_full := by
  intro h
  obtain ⟨keys, zds, h1, _⟩ := h String Nat allOpts strLe strLe_trans strLe_total twoParts
    (fun _ => true) [("p", (0, 1)), ("r", (0, 1))] sizeTwo (fun _ => 2) twoParts_uniform
    (fun x _ vars hv => twoParts_axis x.1 vars hv)
    (by
      intro x hx
      simp only [List.mem_cons, List.not_mem_nil, or_false] at hx
      rcases hx with rfl | rfl <;> decide)
    immCfg_good ⟨("p", (0, 1)), by simp, rfl, by decide⟩
  obtain ⟨e, he⟩ := C51_absent_raises allOpts strLe strLe_trans strLe_total twoParts
    (fun _ => true) [("p", (0, 1)), ("r", (0, 1))] ("r", (0, 1)) (by simp) rfl (by decide)
  rw [he] at h1
  cases h1

/-- The hypotheses of `C51_indexed_partial` are met: slices of two partitions, two of them in
the second one and not in order. -/
example : ∃ (keys : List String) (zds : Dataset Nat), loadIndexed allOpts strLe twoParts
    (fun _ => true) [("q", (1, 2)), ("p", (0, 1)), ("q", (0, 1))] = .ok (some zds) ∧
    HoldsSegments "d" none twoParts
      (keys.flatMap fun p => [("q", (1, 2)), ("p", (0, 1)), ("q", (0, 1))].filter
        fun x => decide (x.1 = p)) zds := by
  obtain ⟨keys, zds, h1, _, _, _, h2, _⟩ := C51_indexed_partial allOpts strLe strLe_trans
    strLe_total twoParts (fun _ => true) [("q", (1, 2)), ("p", (0, 1)), ("q", (0, 1))] sizeTwo
    (fun _ => 2) twoParts_uniform
    (by
      intro x hx _
      simp only [List.mem_cons, List.not_mem_nil, or_false] at hx
      rcases hx with rfl | rfl | rfl
      · exact ⟨_, rfl, twoParts_axis "q" _ rfl⟩
      · exact ⟨_, rfl, twoParts_axis "p" _ rfl⟩
      · exact ⟨_, rfl, twoParts_axis "q" _ rfl⟩)
    (by
      intro x hx
      simp only [List.mem_cons, List.not_mem_nil, or_false] at hx
      rcases hx with rfl | rfl | rfl <;> decide)
    immCfg_good ⟨("p", (0, 1)), by simp, rfl⟩
  exact ⟨keys, zds, h1, h2⟩

/-- The hypotheses of `C54_load` are met by two partitions and an immutable variable. -/
example : ∃ zds, load allOpts twoParts ["p", "q"] (fun p => decide (p ≠ "p")) = .ok (some zds) ∧
    HoldsWindow "d" sizeTwo none twoParts ["q"] zds := by
  obtain ⟨zds, h1, h2, _⟩ := C54_load allOpts twoParts ["p", "q"] (fun p => decide (p ≠ "p"))
    sizeTwo (fun _ => 2) twoParts_uniform
    (by
      intro q hq _
      simp only [List.mem_cons, List.not_mem_nil, or_false] at hq
      rcases hq with rfl | rfl
      · exact ⟨_, rfl⟩
      · exact ⟨_, rfl⟩)
    immCfg_good ⟨"q", by simp, by decide⟩
  exact ⟨zds, h1, h2⟩

end Verif
