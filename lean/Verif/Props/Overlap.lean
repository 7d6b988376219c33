import Verif.Lemmas.Joined
import Verif.Props.Update

/-! C33, C34, C35: loads with overlap, trimmed updates, map. -/

namespace Verif

open Spec Nd Ds Upd

variable {P V : Type} [DecidableEq P]

omit [DecidableEq P] in
theorem neighbours_get (parts : List P) (d i k : Nat) :
    (neighbours parts d i)[k]? = if i - d + k < i + d + 1 then parts[i - d + k]? else none := by
  unfold neighbours
  rw [List.getElem?_drop, List.getElem?_take]

omit [DecidableEq P] in
/-- C33, the window: the neighbours of a partition are those at most `d` positions away. -/
theorem C33_neighbours (parts : List P) (d i : Nat) (q : P) :
    q ∈ neighbours parts d i ↔
      ∃ j : Nat, parts[j]? = some q ∧ i ≤ j + d ∧ j ≤ i + d := by
  constructor
  · intro h
    obtain ⟨k, hk⟩ := List.getElem?_of_mem h
    rw [neighbours_get] at hk
    split at hk
    · next hlt => exact ⟨_, hk, by omega, by omega⟩
    · cases hk
  · rintro ⟨j, hj, h1, h2⟩
    refine List.mem_of_getElem? (i := j - (i - d)) ?_
    rw [neighbours_get, if_pos (by omega), show i - d + (j - (i - d)) = j by omega]
    exact hj

theorem idxOf?_nodup {parts : List P} (hnd : parts.Nodup) {i : Nat} {p : P}
    (h : parts[i]? = some p) : parts.idxOf? p = some i := by
  cases hi : parts.idxOf? p with
  | none =>
    have := List.mem_of_getElem? h
    simp [List.idxOf?_eq_none_iff] at hi
    exact absurd this hi
  | some j =>
    have hj := idxOf?_spec hi
    obtain ⟨h1, h2⟩ := List.getElem?_eq_some_iff.1 h
    obtain ⟨h3, h4⟩ := List.getElem?_eq_some_iff.1 hj
    congr 1
    exact (List.getElem_inj hnd).1 (h4.trans h2.symm)

/-- C33, the window: the partitions loaded for the partition at the position `i`. -/
theorem C33_window (parts : List P) (hnd : parts.Nodup) (d i : Nat) (p : P)
    (hp : parts[i]? = some p) : window parts d p = .ok (neighbours parts d i) := by
  unfold window
  rw [idxOf?_nodup hnd hp]
  simp only
  congr 1
  rw [window_list, neighbours, List.drop_take]
  congr 1
  omega

example : window ["a", "b", "c", "d", "e"] 1 "c" = .ok ["b", "c", "d"] ∧
    window ["a", "b", "c", "d", "e"] 2 "b" = .ok ["a", "b", "c", "d"] := by decide

/-- C33, full statement: the load of a partition with overlap succeeds, the dataset holds the
partition and its neighbours one after the other and the immutable variables, and the slice
designates the records of the partition. -/
def C33_full : Prop :=
  ∀ (P V : Type) [DecidableEq P] (c : Cfg P V) (st : Store P V) (size : P → Nat)
    (other : String → Nat) (i : Nat) (p : P),
    Uniform c.dim size other st → c.parts.Nodup →
    (∀ q ∈ c.parts, ∃ vars, st q = some vars) →
    (∀ iv, c.imm = some iv → GoodImm c.dim other st iv) →
    (∃ vars, st p = some vars ∧ ∃ v ∈ vars, Chosen c.sel v.name ∧ c.dim ∈ v.dims) →
    c.parts[i]? = some p →
    ∃ zds ind, loadOverlap c st p = .ok (zds, ind) ∧
      HoldsWindow c.dim size c.sel st (neighbours c.parts c.depth i) zds ∧
      ind = (((neighbours c.parts c.depth i).take (i - (i - c.depth))).map size |>.sum,
        (((neighbours c.parts c.depth i).take (i - (i - c.depth))).map size).sum + size p) ∧
      (neighbours c.parts c.depth i)[i - (i - c.depth)]? = some p ∧
      ∀ iv, c.imm = some iv → ∀ w ∈ iv, Chosen c.sel w.name →
        ∃ v' ∈ zds.vars, v'.name = w.name ∧ v'.array = w.array

/-- C33: this holds without immutable variables.  Missing: with immutable variables the load
always raises (`C33_immutable`). -/
theorem C33_overlap_partial (c : Cfg P V) (st : Store P V) (size : P → Nat)
    (other : String → Nat) (i : Nat) (p : P) (hu : Uniform c.dim size other st)
    (hnd : c.parts.Nodup) (hst : ∀ q ∈ c.parts, ∃ vars, st q = some vars)
    (himm : c.imm = none)
    (hdim : ∃ vars, st p = some vars ∧ ∃ v ∈ vars, Chosen c.sel v.name ∧ c.dim ∈ v.dims)
    (hp : c.parts[i]? = some p) :
    ∃ zds ind, loadOverlap c st p = .ok (zds, ind) ∧
      HoldsWindow c.dim size c.sel st (neighbours c.parts c.depth i) zds ∧
      ind = (((neighbours c.parts c.depth i).take (i - (i - c.depth))).map size |>.sum,
        (((neighbours c.parts c.depth i).take (i - (i - c.depth))).map size).sum + size p) ∧
      (neighbours c.parts c.depth i)[i - (i - c.depth)]? = some p ∧
      ∀ v' ∈ zds.vars, (∃ vars v, st p = some vars ∧ v ∈ vars ∧ v.name = v'.name ∧
        Chosen c.sel v.name) ∧
        v'.array.shape = v'.dims.map fun d => if d = c.dim then
          ((neighbours c.parts c.depth i).map size).sum else other d := by
  have hw := C33_window c.parts hnd c.depth i p hp
  generalize hps : neighbours c.parts c.depth i = ps at *
  have hpk : ps[i - (i - c.depth)]? = some p := by
    rw [← hps, neighbours_get, if_pos (by omega), show i - c.depth + (i - (i - c.depth)) = i by
      omega]
    exact hp
  generalize i - (i - c.depth) = k at *
  have hsub : ∀ q ∈ ps, ∃ vars, st q = some vars := by
    intro q hq
    rw [← hps, C33_neighbours] at hq
    obtain ⟨j, hj, _⟩ := hq
    exact hst q (List.mem_of_getElem? hj)
  obtain ⟨pvars, hpv, pv, hpvm, hpch, hpdim⟩ := hdim
  -- opening the partitions
  obtain ⟨groups, hgroups⟩ := mapPy_exists (openPart c.delayed c.sel st) ps (by
    intro q hq
    obtain ⟨vars, hq'⟩ := hsub q hq
    obtain ⟨g, hg, _⟩ := openPart_ok hu c.delayed c.sel hq'
    exact ⟨g, hg⟩)
  obtain ⟨g1, g2, g3⟩ := groups_spec hgroups hu.good.1
  have hgi : ∀ (j : Nat) (q : P), ps[j]? = some q → ∃ g vars, groups[j]? = some g ∧
      st q = some vars ∧ Consistent g ∧ g.delayed = c.delayed ∧
      (∀ v ∈ vars, Chosen c.sel v.name → getVar g.vars v.name = some { v with delayed := c.delayed }) ∧
      (∀ n w, getVar g.vars n = some w → Chosen c.sel n ∧
        ∃ v, getVar vars n = some v ∧ v ∈ vars ∧ w = { v with delayed := c.delayed }) ∧
      (∀ w ∈ g.vars, w.array.shape = w.dims.map fun d => if d = c.dim then size q else other d) ∧
      ∃ n, g.dims.lookup c.dim = some n ∧ n = size q := by
    intro j q hq
    obtain ⟨g, hg, hopen⟩ := g3 j q hq
    obtain ⟨hc, hd, vars, hs, h1, h2⟩ := openPart_spec hopen (hu.good.1 q)
    obtain ⟨g', hg', h3, h4⟩ := openPart_ok hu c.delayed c.sel hs
    rw [hopen] at hg'
    cases hg'
    refine ⟨g, vars, hg, hs, hc, hd, h1, h2, h3, ?_⟩
    obtain ⟨w, hwm, hwn⟩ := hu.names p q pvars vars hpv hs pv hpvm
    have hwd : w.dims = pv.dims := hu.good.2 q p vars pvars hs hpv w hwm pv hpvm hwn
    have hwg := h1 w hwm (by rw [hwn]; exact hpch)
    rw [← hwd] at hpdim
    obtain ⟨ax, hax⟩ := List.getElem?_of_mem hpdim
    obtain ⟨n, e1, e2⟩ := hc.sizes _ (getVar_some _ _ _ hwg).1 ax c.dim hax
    exact ⟨n, e2, by simpa using h4 c.dim n e2⟩
  -- the slice
  have hcalc : ∀ (qs : List P) (gs : List (Dataset V)) (start : Nat) (last : Nat × Nat) (k : Nat),
      gs.length = qs.length → (∀ (j : Nat) q g, qs[j]? = some q → gs[j]? = some g →
        g.dims.lookup c.dim = some (size q)) → qs[k]? = some p → p ∉ qs.take k →
      calcSlice c.dim p start last (gs.zip qs) =
        .ok (start + ((qs.take k).map size).sum,
          start + ((qs.take k).map size).sum + size p) := by
    intro qs
    induction qs with
    | nil => intro gs start last k _ _ hk; simp at hk
    | cons q t ih =>
      intro gs start last k hlen hsz hk hfirst
      cases gs with
      | nil => simp at hlen
      | cons g gs =>
        simp only [List.zip_cons_cons, calcSlice, hsz 0 q g rfl rfl]
        cases k with
        | zero =>
          simp only [List.getElem?_cons_zero, Option.some.injEq] at hk
          subst hk
          simp
        | succ k =>
          simp only [List.take_succ_cons, List.mem_cons, not_or] at hfirst
          rw [if_neg hfirst.1, ih gs _ _ k (by simpa using hlen) (fun j q' g' h1 h2 =>
            hsz (j + 1) q' g' (by simpa using h1) (by simpa using h2)) (by simpa using hk)
            hfirst.2]
          simp only [List.take_succ_cons, List.map_cons, List.sum_cons, Nat.add_assoc]
  have hslice := hcalc ps groups 0 (0, 0) k g1 (by
    intro j q g hq hg
    obtain ⟨g', vars, hg', _, _, _, _, _, _, n, hn, rfl⟩ := hgi j q hq
    rw [hg] at hg'
    cases hg'
    exact hn) hpk (not_mem_take (window_nodup hw hnd) hpk)
  -- joining
  obtain ⟨zds, hz, _, hold, hvars⟩ := joined_holds hu g1 (fun h => by rw [h] at hpk; simp at hpk)
    (fun j q hq => by
      obtain ⟨g, vars, h1, h2, h3, h4, h5, h6, _⟩ := hgi j q hq
      exact ⟨g, vars, h1, h2, h3, h4, h5, h6⟩)
  simp only [Nat.zero_add] at hslice
  refine ⟨zds, _, by
    simp only [loadOverlap, bind, Except.bind, hw, hgroups, hslice, hz, himm], hold, rfl,
    hpk, fun v' hv' => ?_⟩
  obtain ⟨h1, h2⟩ := hvars v' hv'
  exact ⟨h1 p (List.mem_of_getElem? hpk), h2⟩

/-- C33 is violated with immutable variables: the variables of the partition are merged with
themselves (collection/detail.py:244-248), so the load raises whatever the collection. -/
theorem C33_immutable (c : Cfg P V) (st : Store P V) (p : P) (hgood : GoodStore st)
    (hnd : c.parts.Nodup) (iv : List (Var V)) (himm : c.imm = some iv) :
    ∃ e, loadOverlap c st p = .error e := by
  cases h : loadOverlap c st p with
  | error e => exact ⟨e, rfl⟩
  | ok r =>
    exfalso
    obtain ⟨ps, groups, zds, hps, hgr, hind, hz, hm⟩ := loadOverlap_spec h
    rw [himm] at hm
    obtain ⟨o, ho, hmerge⟩ := hm
    obtain ⟨g1, g2, g3⟩ := groups_spec hgr hgood.1
    obtain ⟨k, hk⟩ := window_self hps
    obtain ⟨hdims, _⟩ := calcSlice_spec c.dim p ps groups g1 k hk
      (not_mem_take (window_nodup hps hnd) hk) 0 (0, 0) _ hind
    obtain ⟨_, hznames, hzv⟩ := joinGroups_var g2 hz
    obtain ⟨q0, hq0⟩ : ∃ q0, ps[0]? = some q0 :=
      ⟨_, List.getElem?_eq_getElem (by have := (List.getElem?_eq_some_iff.1 hk).1; omega)⟩
    obtain ⟨g0, hg0, hopen0⟩ := g3 0 q0 hq0
    obtain ⟨n, hn⟩ := hdims 0 g0 (by omega) hg0
    cases hv0 : g0.vars with
    | nil =>
      rw [openPart_dims_nil hopen0 hv0] at hn
      simp at hn
    | cons w t =>
      have hmem : w.name ∈ zds.vars.map (·.name) := by
        rw [hznames g0 (by rw [List.head?_eq_getElem?]; exact hg0), hv0]
        simp
      obtain ⟨v', hv', hvn⟩ := List.mem_map.1 hmem
      obtain ⟨ws, _, w2, _⟩ := hzv v' hv'
      obtain ⟨g, hg, hopen⟩ := g3 k p hk
      rw [ho] at hopen
      cases hopen
      obtain ⟨x, _, hx⟩ := w2 k o hg
      obtain ⟨hx1, hx2⟩ := getVar_some _ _ _ hx
      exact mergeInto_names hmerge x hx1 v' hv' hx2.symm

/-- Two partitions and an immutable variable. -/
def immCfg : Cfg String Nat :=
  { plain 1 ["p", "q"] with
    imm := some [{ name := "g", delayed := false, dims := ["i"], array := vec [7, 8], fill := none,
                   props := 0 }] }

def twoParts : Store String Nat :=
  storeOf [("p", [dvar "x" [1]]), ("q", [dvar "x" [2, 3]])]

def sizeTwo (p : String) : Nat := if p = "p" then 1 else 2

theorem twoParts_cases (p : String) (vars : List (Var Nat)) (h : twoParts p = some vars) :
    (p = "p" ∧ vars = [dvar "x" [1]]) ∨ (p = "q" ∧ vars = [dvar "x" [2, 3]]) := by
  unfold twoParts storeOf at h
  rw [lookup_cons, lookup_cons] at h
  split at h
  · next hp => cases h; exact .inl ⟨hp, rfl⟩
  · split at h
    · next hq => cases h; exact .inr ⟨hq, rfl⟩
    · simp at h

theorem twoParts_uniform : Uniform "d" sizeTwo (fun _ => 2) twoParts := by
  refine ⟨goodStore_storeOf _ (by
    intro x hx
    simp only [List.mem_cons, List.not_mem_nil, or_false] at hx
    rcases hx with rfl | rfl
    · exact ⟨by decide, fun v hv => by simp at hv; exact ⟨_, _, hv⟩⟩
    · exact ⟨by decide, fun v hv => by simp at hv; exact ⟨_, _, hv⟩⟩), ?_, ?_⟩
  · intro p q vs ws hp hq v hv
    rcases twoParts_cases p vs hp with ⟨_, rfl⟩ | ⟨_, rfl⟩ <;>
    rcases twoParts_cases q ws hq with ⟨_, rfl⟩ | ⟨_, rfl⟩ <;>
    · simp only [List.mem_singleton] at hv
      subst hv
      exact ⟨_, List.mem_singleton.2 rfl, rfl⟩
  · intro p vars hp v hv
    rcases twoParts_cases p vars hp with ⟨rfl, rfl⟩ | ⟨rfl, rfl⟩ <;>
    · simp only [List.mem_singleton] at hv
      subst hv
      rfl

theorem C33_counterexample : ¬ C33_full := by
  intro h
  obtain ⟨zds, ind, h1, _⟩ := h String Nat immCfg twoParts sizeTwo (fun _ => 2) 0 "p"
    twoParts_uniform (by decide) (by
      intro q hq
      simp only [immCfg, plain, List.mem_cons, List.not_mem_nil, or_false] at hq
      rcases hq with rfl | rfl
      · exact ⟨_, rfl⟩
      · exact ⟨_, rfl⟩)
    (by
      intro iv hiv
      cases hiv
      refine ⟨by decide, ?_, ?_⟩
      · intro p vars hp v hv w hw
        simp only [List.mem_singleton] at hw
        subst hw
        rcases twoParts_cases p vars hp with ⟨_, rfl⟩ | ⟨_, rfl⟩ <;>
        · simp only [List.mem_singleton] at hv
          subst hv
          decide
      · intro w hw
        simp only [List.mem_singleton] at hw
        subst hw
        exact ⟨by decide, rfl⟩)
    ⟨_, rfl, _, List.mem_singleton.2 rfl, (fun l hl => by cases hl), by decide⟩ rfl
  obtain ⟨e, he⟩ := C33_immutable immCfg twoParts "p" twoParts_uniform.good (by decide) _ rfl
  rw [he] at h1
  cases h1

/-- The hypotheses of `C33_overlap_partial` are met by two partitions. -/
example : ∃ zds ind, loadOverlap (plain 1 ["p", "q"]) twoParts "q" = .ok (zds, ind) ∧
    ind = (1, 3) := by
  obtain ⟨zds, ind, h1, _, h2, _⟩ := C33_overlap_partial (plain 1 ["p", "q"]) twoParts sizeTwo
    (fun _ => 2) 1 "q" twoParts_uniform (by decide) (by
      intro q hq
      simp only [plain, List.mem_cons, List.not_mem_nil, or_false] at hq
      rcases hq with rfl | rfl
      · exact ⟨_, rfl⟩
      · exact ⟨_, rfl⟩) rfl
    ⟨_, rfl, _, List.mem_singleton.2 rfl, (fun l hl => by cases hl), by decide⟩ rfl
  exact ⟨zds, ind, h1, h2⟩

theorem lookup_of_mem {d : List (String × Nat)} (hnd : (d.map (·.1)).Nodup) {x : String × Nat}
    (hx : x ∈ d) : d.lookup x.1 = some x.2 := by
  induction d with
  | nil => simp at hx
  | cons y t ih =>
    simp only [List.map_cons, List.nodup_cons] at hnd
    rw [lookup_cons]
    rcases List.mem_cons.1 hx with rfl | hx
    · simp
    · rw [if_neg, ih hnd.2 hx]
      intro he
      exact hnd.1 (List.mem_map.2 ⟨x, hx, he⟩)

omit [DecidableEq P] in
/-- C33, depth 0: the load of a partition without overlap gives the chosen variables of this
partition and the chosen immutable variables, and nothing else. -/
theorem C33_alone (c : Cfg P V) (st : Store P V) (size : P → Nat) (other : String → Nat)
    (p : P) (hu : Uniform c.dim size other st) (vars : List (Var V)) (hp : st p = some vars)
    (himm : ∀ iv, c.imm = some iv → GoodImm c.dim other st iv) :
    ∃ zds, loadDataset c st p = .ok zds ∧
      (∀ v ∈ vars, Chosen c.sel v.name → { v with delayed := c.delayed } ∈ zds.vars) ∧
      (∀ iv, c.imm = some iv → ∀ w ∈ iv, Chosen c.sel w.name →
        { w with delayed := c.delayed } ∈ zds.vars) ∧
      ∀ v' ∈ zds.vars, Chosen c.sel v'.name ∧ ∃ v, v' = { v with delayed := c.delayed } ∧
        (v ∈ vars ∨ ∃ iv, c.imm = some iv ∧ v ∈ iv) := by
  obtain ⟨g, hg, _, hgd⟩ := openPart_ok hu c.delayed c.sel hp
  obtain ⟨hc, hdel, vars', hs, h1, h2⟩ := openPart_spec hg (hu.good.1 p)
  rw [hp] at hs
  cases hs
  have hback : ∀ v' ∈ g.vars, Chosen c.sel v'.name ∧ ∃ v, v' = { v with delayed := c.delayed } ∧
      v ∈ vars := by
    intro v' hv'
    obtain ⟨hch, v, _, hv, he⟩ := h2 _ _ (getVar_of_mem _ hc.names v' hv')
    exact ⟨hch, v, he, hv⟩
  cases hi : c.imm with
  | none =>
    refine ⟨g, by simp only [loadDataset, hg, hi, bind, Except.bind], ?_, by simp, ?_⟩
    · intro v hv hch
      exact (getVar_some _ _ _ (h1 v hv hch)).1
    · intro v' hv'
      obtain ⟨hch, v, he, hv⟩ := hback v' hv'
      exact ⟨hch, v, he, .inl hv⟩
  | some iv =>
    have hgi := himm iv hi
    have key : ∀ L : List (Var V), (∀ w, w ∈ L ↔ ∃ v ∈ iv, Chosen c.sel v.name ∧
        w = { v with delayed := c.delayed }) → (L.map (·.name)).Nodup →
        ∃ zds, (do
          let o ← mk L [] [] 0 (some c.delayed)
          mergeInto g o) = .ok zds ∧ zds.vars = g.vars ++ L := by
      intro L hL hn
      obtain ⟨dims, e1, e2⟩ := mk_sized L [] [] 0 c.delayed other hn
        (fun w hw => by obtain ⟨v, _, _, rfl⟩ := (hL w).1 hw; rfl)
        (fun w hw => by obtain ⟨v, hv, _, rfl⟩ := (hL w).1 hw; exact (hgi.shapes v hv).2)
      obtain ⟨hoc, _⟩ := mk_spec _ _ _ _ _ _ e1
      simp only [bind, Except.bind, e1, mergeInto, Ds.merge]
      rw [if_neg (by simp [hdel]), mergeVars_fresh g.vars L hn (by
        intro v hv w hw
        obtain ⟨_, x, rfl, hx⟩ := hback v hv
        obtain ⟨y, hy, _, rfl⟩ := (hL w).1 hw
        exact hgi.fresh p vars hp x hx y hy)]
      simp only
      rw [if_neg (by
        rintro ⟨a, ha, b, hb, hab, hne⟩
        have ha' := hgd _ _ (lookup_of_mem hc.keys ha)
        obtain ⟨hbm, hb'⟩ := e2 _ _ (lookup_of_mem hoc.keys hb)
        obtain ⟨w, hw, hwd⟩ := List.mem_flatMap.1 hbm
        obtain ⟨v, hv, _, rfl⟩ := (hL w).1 hw
        have hbd : b.1 ≠ c.dim := by
          intro hbe
          rw [hbe] at hwd
          exact (hgi.shapes v hv).1 hwd
        rw [hab, if_neg hbd] at ha'
        exact hne (ha'.trans hb'.symm))]
      exact ⟨_, rfl, rfl⟩
    obtain ⟨zds, hz, hzv⟩ := key ((iv.filter fun v => match c.sel with
        | none => true
        | some l => decide (v.name ∈ l)).map fun v => { v with delayed := c.delayed }) (by
      intro w
      rw [List.mem_map]
      constructor
      · rintro ⟨v, hv, rfl⟩
        obtain ⟨hv1, hv2⟩ := List.mem_filter.1 hv
        refine ⟨v, hv1, ?_, rfl⟩
        intro l hl
        rw [hl] at hv2
        simpa using hv2
      · rintro ⟨v, hv, hch, rfl⟩
        refine ⟨v, List.mem_filter.2 ⟨hv, ?_⟩, rfl⟩
        cases hsel : c.sel with
        | none => rfl
        | some l => simpa using hch l hsel) (by
      rw [List.map_map]
      exact (List.Sublist.map _ List.filter_sublist).nodup hgi.names)
    have hmem : ∀ w, w ∈ zds.vars ↔ w ∈ g.vars ∨ ∃ v ∈ iv, Chosen c.sel v.name ∧
        w = { v with delayed := c.delayed } := by
      intro w
      rw [hzv, List.mem_append, List.mem_map]
      constructor
      · rintro (h | ⟨v, hv, rfl⟩)
        · exact .inl h
        · obtain ⟨hv1, hv2⟩ := List.mem_filter.1 hv
          refine .inr ⟨v, hv1, ?_, rfl⟩
          intro l hl
          rw [hl] at hv2
          simpa using hv2
      · rintro (h | ⟨v, hv, hch, rfl⟩)
        · exact .inl h
        · refine .inr ⟨v, List.mem_filter.2 ⟨hv, ?_⟩, rfl⟩
          cases hsel : c.sel with
          | none => rfl
          | some l => simpa using hch l hsel
    refine ⟨zds, ?_, ?_, ?_, ?_⟩
    · simp only [loadDataset, hg, hi, bind, Except.bind]
      exact hz
    · intro v hv hch
      exact (hmem _).2 (.inl (getVar_some _ _ _ (h1 v hv hch)).1)
    · intro iv' hiv' w hw hch
      cases hiv'
      exact (hmem _).2 (.inr ⟨w, hw, hch, rfl⟩)
    · intro v' hv'
      rcases (hmem _).1 hv' with h | ⟨v, hv, hch, rfl⟩
      · obtain ⟨hch, v, he, hv⟩ := hback v' h
        exact ⟨hch, v, he, .inl hv⟩
      · exact ⟨hch, v, rfl, .inr ⟨iv, rfl, hv⟩⟩

/-- The hypotheses of `C33_alone` are met with an immutable variable. -/
example : ∃ zds, loadDataset immCfg twoParts "q" = .ok zds ∧ zds.vars.map (·.name) = ["x", "g"] :=
  ⟨_, rfl, rfl⟩

/-! ### C34 -/

/-- An array that can be written in the partition without changing it. -/
def NoChange (st : Store P V) (p : P) (x : String × Py (Arr V)) : Prop :=
  ∀ st', writeItem st p x = .ok st' → st' = st

theorem setPart_self {st : Store P V} {p : P} {vars : List (Var V)} (h : st p = some vars) :
    setPart st p vars = st := by
  funext q
  unfold setPart
  split
  · next hq => rw [hq, h]
  · rfl

theorem noChange_of {st : Store P V} {p : P} {n : String} {r : Py (Arr V)}
    (h : ∀ a vars w, r = .ok a → st p = some vars → getVar vars n = some w →
      a.shape = w.array.shape → a = w.array) : NoChange st p (n, r) := by
  intro st' hw
  unfold writeItem at hw
  cases r with
  | error e => simp only [bind, Except.bind] at hw; cases hw
  | ok a =>
    simp only [bind, Except.bind] at hw
    split at hw
    · cases hw
    · next vars hv =>
      split at hw
      · cases hw
      · next vars' hvars' =>
        cases hw
        cases hg : getVar vars n with
        | none => simp [writeVar, hg] at hvars'
        | some w =>
          have hs : a.shape = w.array.shape := by
            simp only [writeVar, hg] at hvars'
            split at hvars'
            · cases hvars'
            · next hne => simpa using hne
          have hav := h a vars w rfl hv hg hs
          subst hav
          rw [writeVar_self hg hvars']
          exact setPart_self hv

theorem mergeVars_result {vars l vs : List (Var V)} (h : mergeVars vars l = (vs, .ok ())) :
    vs = vars ++ l := by
  induction l generalizing vars with
  | nil => simp only [mergeVars] at h; cases h; simp
  | cons x t ih =>
    simp only [mergeVars] at h
    split at h
    · simp at h
    · rw [ih h]; simp

theorem mergeInto_vars {z o r : Dataset V} (h : mergeInto z o = .ok r) :
    r.vars = z.vars ++ o.vars := by
  unfold mergeInto Ds.merge at h
  split at h
  · next r' heq =>
    cases h
    split at heq
    · cases heq
    · split at heq
      · cases heq
      · next vs hvs =>
        split at heq
        · cases heq
        · cases heq
          exact mergeVars_result hvs
  · cases h

/-- The identity never gives an array that changes the partition. -/
theorem items_identity {c : Cfg P V} {st : Store P V} (hgood : GoodStore st)
    (hnd : c.parts.Nodup) (htrim : c.depth ≠ 0 → c.trim = true) {p : P}
    {l : List (String × Py (Arr V))} (h : items c identity st p = .ok l) :
    ∀ x ∈ l, NoChange st p x := by
  unfold items at h
  by_cases hd : c.depth = 0
  · rw [if_pos hd] at h
    simp only [bind, Except.bind] at h
    split at h
    · cases h
    · next zds hz =>
      simp only [identity] at h
      cases h
      intro x hx
      simp only [List.map_map, List.mem_map] at hx
      obtain ⟨v', hv', rfl⟩ := hx
      refine noChange_of fun a vars w ha hvars hw _ => ?_
      cases ha
      simp only [loadDataset, bind, Except.bind] at hz
      split at hz
      · cases hz
      · next g hg =>
        obtain ⟨hc, _, vars', hs, h1, h2⟩ := openPart_spec hg (hgood.1 p)
        rw [hvars] at hs
        cases hs
        have hmain : v' ∈ g.vars → v'.array = w.array := by
          intro hm
          obtain ⟨_, v, hv, _, he⟩ := h2 _ _ (getVar_of_mem _ hc.names v' hm)
          rw [hw] at hv
          cases hv
          rw [he]
        split at hz
        · cases hz
          exact hmain hv'
        · next iv himm =>
          split at hz
          · cases hz
          · next o ho =>
            rw [mergeInto_vars hz] at hv'
            rcases List.mem_append.1 hv' with hm | hm
            · exact hmain hm
            · exfalso
              obtain ⟨hw1, hw2⟩ := getVar_some _ _ _ hw
              have hch : Chosen c.sel v'.name := by
                intro l hl
                have hov := (mk_spec _ _ _ _ _ _ ho).2.1
                have : ∀ (L acc : List (Var V)), (∀ v ∈ acc, v.name ∈ l) →
                    (∀ v ∈ L, v.name ∈ l) → ∀ v ∈ L.foldl setVar acc, v.name ∈ l := by
                  intro L
                  induction L with
                  | nil => intro acc ha _; exact ha
                  | cons x t ih =>
                    intro acc ha hL
                    refine ih _ ?_ fun v hv => hL v (by simp [hv])
                    have hx := hL x (by simp)
                    clear ih hL
                    induction acc with
                    | nil => simp [setVar, hx]
                    | cons y u ihu =>
                      simp only [setVar]
                      split
                      · intro v hv
                        rcases List.mem_cons.1 hv with rfl | hv
                        · exact hx
                        · exact ha v (by simp [hv])
                      · intro v hv
                        rcases List.mem_cons.1 hv with rfl | hv
                        · exact ha _ (by simp)
                        · exact ihu (fun v hv => ha v (by simp [hv])) v hv
                rw [hov] at hm
                refine this _ [] (by simp) ?_ v' hm
                intro v hv
                obtain ⟨y, hy, rfl⟩ := List.mem_map.1 hv
                have := (List.mem_filter.1 hy).2
                rw [hl] at this
                simpa using this
              have := h1 w hw1 (by rw [hw2]; exact hch)
              obtain ⟨e1, e2⟩ := getVar_some _ _ _ this
              exact mergeInto_names hz v' hm _ e1 hw2
  · rw [if_neg hd] at h
    simp only [bind, Except.bind] at h
    split at h
    · cases h
    · next r hr =>
      obtain ⟨zds, ind⟩ := r
      simp only [identity] at h
      cases h
      cases himm : c.imm with
      | some iv =>
        obtain ⟨e, he⟩ := C33_immutable c st p hgood hnd iv himm
        rw [he] at hr
        cases hr
      | none =>
        obtain ⟨ps, groups, z, hps, hgr, hind, hz, hm⟩ := loadOverlap_spec hr
        rw [himm] at hm
        subst hm
        intro x hx
        simp only [List.map_map, List.mem_map] at hx
        obtain ⟨v', hv', rfl⟩ := hx
        refine noChange_of fun a vars w ha hvars hw hs => ?_
        simp only [htrim hd, if_true] at ha
        obtain ⟨vars', w', k1, k2, k3⟩ := trim_overlap hgood hnd hps hgr hind hz hv' ha
        rw [hvars] at k1
        cases k1
        rw [hw] at k2
        cases k2
        exact k3 hs

theorem writeAll_noChange {st : Store P V} {p : P} (l : List (String × Py (Arr V)))
    (h : ∀ x ∈ l, NoChange st p x) : (writeAll st p l).1 = st := by
  induction l with
  | nil => rfl
  | cons x t ih =>
    simp only [writeAll]
    split
    · rfl
    · next st' hst' =>
      rw [h x (by simp) st' hst']
      exact ih fun y hy => h y (by simp [hy])

theorem updateParts_identity {c : Cfg P V} {st : Store P V} (hgood : GoodStore st)
    (hnd : c.parts.Nodup) (htrim : c.depth ≠ 0 → c.trim = true) (isLazy : Bool) (order : List P) :
    (updateParts c identity isLazy st order).1 = st := by
  have hlazy : ∀ (p : P) (ks : List Nat), (writeLazy c identity p st ks).1 = st := by
    intro p ks
    induction ks with
    | nil => rfl
    | cons k t ih =>
      simp only [writeLazy]
      split
      · rfl
      · next l hl =>
        split
        · rfl
        · next x hx =>
          split
          · rfl
          · next st' hst' =>
            rw [items_identity hgood hnd htrim hl x (List.mem_of_getElem? hx) st' hst']
            exact ih
  have hone : ∀ p, (updatePart c identity isLazy st p).1 = st := by
    intro p
    unfold updatePart
    split
    · rfl
    · next l hl =>
      split
      · exact hlazy p _
      · exact writeAll_noChange l (items_identity hgood hnd htrim hl)
  induction order with
  | nil => rfl
  | cons p t ih =>
    have := hone p
    simp only [updateParts]
    split
    · next st' e he => rw [he] at this; exact this
    · next st' he =>
      rw [he] at this
      simp only at this
      rw [this]
      exact ih

/-- C34: an update with a callback that returns its input leaves the collection unchanged,
whatever the depth, the selection of variables, the outcome and the kind of arrays; with an
overlap the results must be trimmed. -/
theorem C34_unchanged (c : Cfg P V) (depth : Int) (isLazy : Bool) (known vars : List String)
    (workers : Int) (st : Store P V) (hgood : GoodStore st) (hnd : c.parts.Nodup)
    (htrim : depth ≠ 0 → c.trim = true) :
    (update c depth identity isLazy known vars workers st).1 = st := by
  rcases update_cases c depth identity isLazy known vars workers st with
    ⟨e, h⟩ | ⟨_, _, h⟩ | ⟨h0, c', h1, h2, _, _, _, h6, _, h⟩
  · rw [h]
  · rw [h]
  · rw [h]
    refine updateParts_identity hgood (by rw [h2]; exact hnd) (fun hd => ?_) isLazy c.parts
    rw [h6]
    exact htrim (by omega)

/-- C34: the same holds whatever the order in which the workers act, and at every moment. -/
theorem C34_unchanged_interleaved (c : Cfg P V) (st : Store P V) (hgood : GoodStore st)
    (hnd : c.parts.Nodup) (htrim : c.depth ≠ 0 → c.trim = true) (sched : List P) :
    ((Machine.start st).run c identity sched).store = st := by
  suffices h : ∀ m : Machine P V, m.store = st →
      (∀ p l, m.loc p = .writing l → ∀ x ∈ l, NoChange st p x) →
      (m.run c identity sched).store = st by
    exact h _ rfl (by intro p l hl; cases hl)
  induction sched with
  | nil => intro m hm _; exact hm
  | cons p t ih =>
    intro m hm hw
    refine ih (m.step c identity p) ?_ ?_
    · unfold Machine.step
      simp only
      split
      · split <;> exact hm
      · exact hm
      · next x u hx =>
        split
        · exact hm
        · next st' hst' =>
          rw [hm] at hst'
          exact hw p _ hx x (by simp) st' hst'
      · exact hm
      · exact hm
    · intro q l hq
      unfold Machine.step at hq
      simp only at hq
      split at hq
      · split at hq
        · simp only at hq
          split at hq
          · cases hq
          · exact hw q l hq
        · next l' hl' =>
          simp only at hq
          split at hq
          · next hqp =>
            cases hq
            rw [hqp]
            rw [hm] at hl'
            exact items_identity hgood hnd htrim hl'
          · exact hw q l hq
      · simp only at hq
        split at hq
        · cases hq
        · exact hw q l hq
      · next x u hx =>
        split at hq
        · simp only at hq
          split at hq
          · cases hq
          · exact hw q l hq
        · simp only at hq
          split at hq
          · next hqp =>
            cases hq
            rw [hqp]
            intro y hy
            exact hw p _ hx y (by simp [hy])
          · exact hw q l hq
      · exact hw q l hq
      · exact hw q l hq

theorem trim_key (dims : List String) (hnd : dims.Nodup) (d : String) (ax : Nat)
    (hax : dims[ax]? = some d) (s : Ix) :
    (List.replicate dims.length (Ix.slice .all)).set ax s = dims.map (sliceOf [(d, s)]) := by
  induction dims generalizing ax with
  | nil => simp at hax
  | cons e t ih =>
    rw [List.nodup_cons] at hnd
    cases ax with
    | zero =>
      simp only [List.getElem?_cons_zero, Option.some.injEq] at hax
      subst hax
      simp only [List.length_cons, List.replicate_succ, List.set_cons_zero, List.map_cons]
      refine congr (congrArg List.cons ?_) ?_
      · simp [sliceOf]
      · have : ∀ x ∈ t, sliceOf [(e, s)] x = Ix.slice .all := by
          intro x hx
          have : (x == e) = false := by
            simp only [beq_eq_false_iff_ne]
            rintro rfl
            exact hnd.1 hx
          simp [sliceOf, List.lookup, this]
        rw [List.map_congr_left this, List.map_const']
    | succ ax =>
      simp only [List.length_cons, List.replicate_succ, List.set_cons_succ, List.map_cons]
      have hne : e ≠ d := by
        rintro rfl
        exact hnd.1 (List.mem_of_getElem? (by simpa using hax))
      rw [ih hnd.2 ax (by simpa using hax)]
      congr 1
      have : (e == d) = false := by simpa using hne
      simp [sliceOf, List.lookup, this]

/-- C34, full statement: an update of a well formed collection with a callback that returns
its input succeeds and leaves the collection unchanged. -/
def C34_full : Prop :=
  ∀ (P V : Type) [DecidableEq P] (c : Cfg P V) (depth : Int) (isLazy : Bool)
    (known vars : List String) (workers : Int) (st : Store P V) (size : P → Nat)
    (other : String → Nat),
    Uniform c.dim size other st → c.parts.Nodup → c.parts ≠ [] →
    (∀ q ∈ c.parts, ∃ vars, st q = some vars ∧ ∃ v ∈ vars, Chosen c.sel v.name ∧ c.dim ∈ v.dims) →
    (∀ iv, c.imm = some iv → GoodImm c.dim other st iv) →
    c.trim = true → vars ≠ [] → 0 < workers → 0 ≤ depth →
    update c depth identity isLazy known vars workers st = (st, .ok ())

/-- The items of the identity can be written. -/
theorem items_identity_ok {c : Cfg P V} {st : Store P V} {size : P → Nat}
    {other : String → Nat} (hu : Uniform c.dim size other st) (hnd : c.parts.Nodup)
    (hst : ∀ q ∈ c.parts, ∃ vars, st q = some vars ∧
      ∃ v ∈ vars, Chosen c.sel v.name ∧ c.dim ∈ v.dims)
    (himm : c.imm = none) (htrim : c.trim = true)
    (hall : c.depth ≠ 0 → ∀ q vars, st q = some vars → ∀ v ∈ vars, Chosen c.sel v.name →
      c.dim ∈ v.dims) (p : P) (hp : p ∈ c.parts) :
    ∃ l, items c identity st p = .ok l ∧ ∀ x ∈ l, writeItem st p x = .ok st := by
  obtain ⟨vars, hs, _⟩ := hst p hp
  have hwrite : ∀ n w, getVar vars n = some w → writeItem st p (n, .ok w.array) = .ok st := by
    intro n w hw
    simp only [writeItem, bind, Except.bind, hs, writeVar, hw, ne_eq, not_true_eq_false, if_false]
    rw [setVar_self hw, setPart_self hs]
  by_cases hd : c.depth = 0
  · obtain ⟨zds, hz, _, _, h3⟩ := C33_alone c st size other p hu vars hs (by simp [himm])
    refine ⟨_, by simp only [items, hd, if_true, bind, Except.bind, hz, identity]; rfl, ?_⟩
    intro x hx
    simp only [List.map_map, List.mem_map] at hx
    obtain ⟨v', hv', rfl⟩ := hx
    obtain ⟨_, v, rfl, hv | ⟨iv, hiv, _⟩⟩ := h3 v' hv'
    · exact hwrite v.name v (getVar_of_mem vars (hu.good.1 p vars hs).1 v hv)
    · rw [himm] at hiv; cases hiv
  · obtain ⟨i, hi⟩ := List.getElem?_of_mem hp
    obtain ⟨zds, ind, hload, hwin, hind, hpk, hvs⟩ := C33_overlap_partial c st size other i p hu
      hnd (fun q hq => by obtain ⟨vars, h, _⟩ := hst q hq; exact ⟨vars, h⟩) himm (hst p hp) hi
    obtain ⟨ps, groups, z, hps, hgr, hcalc, hz, hm⟩ := loadOverlap_spec hload
    rw [himm] at hm
    simp only at hm
    subst hm
    obtain ⟨g1, g2, _⟩ := groups_spec hgr hu.good.1
    obtain ⟨hzc, _, _⟩ := joinGroups_var g2 hz
    refine ⟨_, by
      simp only [items, hd, if_false, bind, Except.bind, hload, identity, htrim, if_true]; rfl, ?_⟩
    intro x hx
    simp only [List.map_map, List.mem_map] at hx
    obtain ⟨v', hv', rfl⟩ := hx
    obtain ⟨⟨vars', v, hs', hv, hvn, hch⟩, hshape⟩ := hvs v' hv'
    rw [hs] at hs'
    cases hs'
    obtain ⟨hdims, hval, _⟩ := hwin.values v' hv' _ p vars v hpk hs hv hvn
    have hdim := hall hd p vars hs v hv hch
    have hdnd : v'.dims.Nodup := by rw [hdims]; exact ((hu.good.1 p vars hs).2 v hv).2
    obtain ⟨ax, hax⟩ := List.getElem?_of_mem hdim
    obtain ⟨hsum, _⟩ := hval ax hax
    rw [← hdims] at hax
    have hidx := idxOf?_of_nodup hdnd hax
    obtain ⟨_, w, n, _, _, _, _, _, hok, _, hi2, hcase⟩ :=
      overlap_var hu.good hnd hps hgr hcalc hz hv' hidx
    have hsum_le : ∀ (l : List P) (k : Nat), l[k]? = some p →
        ((l.take k).map size).sum + size p ≤ (l.map size).sum := by
      intro l
      induction l with
      | nil => intro k hk; simp at hk
      | cons a t ih =>
        intro k hk
        cases k with
        | zero =>
          simp only [List.getElem?_cons_zero, Option.some.injEq] at hk
          subst hk
          simp
        | succ k =>
          have := ih k (by simpa using hk)
          simp only [List.take_succ_cons, List.map_cons, List.sum_cons]
          omega
    have hle : ind.2 ≤ ((neighbours c.parts c.depth i).map size).sum := by
      rw [hind]
      exact hsum_le _ _ hpk
    have hlo : ind.1 ≤ ind.2 := by
      rw [hind]
      exact Nat.le_add_right _ _
    have hget : trimArray zds c.dim ind v'.name v'.array = .ok (piece ax v'.array ind) := by
      unfold trimArray
      rw [getVar_of_mem _ hzc.names v' hv']
      simp only [hidx]
      rw [trim_key v'.dims hdnd c.dim ax hax,
        getitem_piece c.dim ind ((neighbours c.parts c.depth i).map size).sum hlo hle
          v'.dims hdnd 0 v'.array hok (by
            intro j e he
            refine ⟨if e = c.dim then ((neighbours c.parts c.depth i).map size).sum else other e,
              ?_, fun h => by simp [h]⟩
            rw [Nat.zero_add, hshape, List.getElem?_map, he]; rfl)]
      simp [hidx]
    obtain ⟨vars', w', k1, k2, k3⟩ := trim_overlap hu.good hnd hps hgr hcalc hz hv' hget
    rw [hs] at k1
    cases k1
    have hwv : getVar vars v'.name = some v := by
      rw [← hvn]; exact getVar_of_mem vars (hu.good.1 p vars hs).1 v hv
    rw [hwv] at k2
    cases k2
    have hsz : (piece ax v'.array ind).shape = v.array.shape := by
      have hlt : ax < v'.array.shape.length := (List.getElem?_eq_some_iff.1 hsum).1
      rw [(piece_shape ax v'.array ind hlt).1, hshape, set_sizes v'.dims hdnd c.dim ax hax,
        hu.shapes p vars hs v hv, hdims]
      have : ind.2 - ind.1 = size p := by rw [hind]; simp
      rw [this]
    show writeItem st p (v'.name, trimArray zds c.dim ind v'.name v'.array) = .ok st
    rw [hget, k3 hsz]
    exact hwrite _ _ hwv

theorem updateParts_identity_ok {c : Cfg P V} {st : Store P V} {size : P → Nat}
    {other : String → Nat} (hu : Uniform c.dim size other st) (hnd : c.parts.Nodup)
    (hst : ∀ q ∈ c.parts, ∃ vars, st q = some vars ∧
      ∃ v ∈ vars, Chosen c.sel v.name ∧ c.dim ∈ v.dims)
    (himm : c.imm = none) (htrim : c.trim = true)
    (hall : c.depth ≠ 0 → ∀ q vars, st q = some vars → ∀ v ∈ vars, Chosen c.sel v.name →
      c.dim ∈ v.dims) (isLazy : Bool) (order : List P) (ho : ∀ p ∈ order, p ∈ c.parts) :
    updateParts c identity isLazy st order = (st, .ok ()) := by
  have hone : ∀ p ∈ c.parts, updatePart c identity isLazy st p = (st, .ok ()) := by
    intro p hp
    obtain ⟨l, hl, hw⟩ := items_identity_ok hu hnd hst himm htrim hall p hp
    unfold updatePart
    rw [hl]
    simp only
    split
    · have : ∀ ks : List Nat, (∀ k ∈ ks, k < l.length) →
          writeLazy c identity p st ks = (st, .ok ()) := by
        intro ks
        induction ks with
        | nil => intro _; rfl
        | cons k t ih =>
          intro hk
          have hlt := hk k (by simp)
          simp only [writeLazy, hl, List.getElem?_eq_getElem hlt,
            hw _ (List.getElem_mem hlt)]
          exact ih fun j hj => hk j (by simp [hj])
      exact this _ fun k hk => List.mem_range.1 hk
    · clear hl
      induction l with
      | nil => rfl
      | cons x t ih =>
        simp only [writeAll, hw x (by simp)]
        exact ih fun y hy => hw y (by simp [hy])
  induction order with
  | nil => rfl
  | cons p t ih =>
    simp only [updateParts, hone p (ho p (by simp))]
    exact ih fun q hq => ho q (by simp [hq])

/-- C34: without immutable variables, and when with an overlap all the variables have the
partitioned dimension, the update succeeds and leaves the collection unchanged.  Missing:
with immutable variables the update raises (`C34_counterexample`, and with an overlap
`C33_immutable`). -/
theorem C34_identity_partial (c : Cfg P V) (depth : Int) (isLazy : Bool)
    (known vars : List String) (workers : Int) (st : Store P V) (size : P → Nat)
    (other : String → Nat) (hu : Uniform c.dim size other st) (hnd : c.parts.Nodup)
    (hne : c.parts ≠ [])
    (hst : ∀ q ∈ c.parts, ∃ vars, st q = some vars ∧
      ∃ v ∈ vars, Chosen c.sel v.name ∧ c.dim ∈ v.dims)
    (himm : c.imm = none)
    (hall : depth ≠ 0 → ∀ q vars, st q = some vars → ∀ v ∈ vars, c.dim ∈ v.dims)
    (htrim : c.trim = true) (hv : vars ≠ []) (hw : 0 < workers) (hd : 0 ≤ depth) :
    update c depth identity isLazy known vars workers st = (st, .ok ()) := by
  unfold update
  rw [if_neg hv]
  cases vars with
  | nil => exact absurd rfl hv
  | cons v vs =>
    simp only
    rw [if_neg (by omega)]
    obtain ⟨bs, h1, h2, _⟩ := C19_split_sequence c.parts (some workers) hne (by simp [hw])
    simp only [h1]
    rw [h2]
    refine updateParts_identity_ok (c := { c with
      depth := depth.toNat
      sel := if depth ≠ 0 then c.sel.map fun l => l ++ (v :: vs).filter (· ∉ l) else c.sel })
      (size := size) (other := other) hu hnd ?_ himm htrim ?_ isLazy
      c.parts (fun _ h => h)
    · intro q hq
      obtain ⟨vars, hs, x, hx, hch, hdm⟩ := hst q hq
      refine ⟨vars, hs, x, hx, ?_, hdm⟩
      intro l hl
      simp only at hl
      split at hl
      · rw [Option.map_eq_some_iff] at hl
        obtain ⟨l', hl', rfl⟩ := hl
        exact List.mem_append_left _ (hch l' hl')
      · exact hch l hl
    · intro hd' q vars hs x hx _
      simp only at hd'
      exact hall (by omega) q vars hs x hx

/-- The hypotheses of `C34_identity_partial` are met by an update of two partitions. -/
example : update (plain 0 ["p", "q"]) 1 identity true [] ["x"] 2 twoParts = (twoParts, .ok ()) :=
  C34_identity_partial (plain 0 ["p", "q"]) 1 true [] ["x"] 2 twoParts sizeTwo (fun _ => 2)
    twoParts_uniform (by decide) (by decide) (by
      intro q hq
      simp only [plain, List.mem_cons, List.not_mem_nil, or_false] at hq
      rcases hq with rfl | rfl
      · exact ⟨_, rfl, _, List.mem_singleton.2 rfl, (fun l hl => by cases hl), by decide⟩
      · exact ⟨_, rfl, _, List.mem_singleton.2 rfl, (fun l hl => by cases hl), by decide⟩) rfl
    (by
      intro _ q vars hs v hv
      rcases twoParts_cases q vars hs with ⟨_, rfl⟩ | ⟨_, rfl⟩ <;>
      · simp only [List.mem_singleton] at hv
        subst hv
        decide) rfl (by decide) (by decide) (by decide)

/-- C34 is violated with immutable variables: they are part of the dataset given to the
callback, but cannot be written in the partitions. -/
theorem C34_counterexample : ¬ C34_full := by
  intro h
  have h1 := h String Nat immCfg 0 false [] ["x"] 1 twoParts sizeTwo (fun _ => 2)
    twoParts_uniform (by decide) (by decide) (by
      intro q hq
      simp only [immCfg, plain, List.mem_cons, List.not_mem_nil, or_false] at hq
      rcases hq with rfl | rfl
      · exact ⟨_, rfl, _, List.mem_singleton.2 rfl, (fun l hl => by cases hl), by decide⟩
      · exact ⟨_, rfl, _, List.mem_singleton.2 rfl, (fun l hl => by cases hl), by decide⟩)
    (by
      intro iv hiv
      cases hiv
      refine ⟨by decide, ?_, ?_⟩
      · intro p vars hp v hv w hw
        simp only [List.mem_singleton] at hw
        subst hw
        rcases twoParts_cases p vars hp with ⟨_, rfl⟩ | ⟨_, rfl⟩ <;>
        · simp only [List.mem_singleton] at hv
          subst hv
          decide
      · intro w hw
        simp only [List.mem_singleton] at hw
        subst hw
        exact ⟨by decide, rfl⟩) rfl (by decide) (by decide) (by decide)
  have h2 : (update immCfg 0 identity false [] ["x"] 1 twoParts).2 = .error .valueError := rfl
  rw [h1] at h2
  cases h2

/-! ### C35 -/

omit [DecidableEq P] in
/-- C35: `map` gives one result for each selected partition, in order, with the keys of this
partition and the result of the callback for its content; if it raises, the load or the
callback of a selected partition raised, or its path could not be parsed. -/
theorem C35_map {K R : Type} (c : Cfg P V) (parse : P → Py K) (f : Callback V R)
    (st : Store P V) :
    (∀ r, mapParts c parse f st = .ok r → r.length = c.parts.length ∧
      ∀ (i : Nat) (p : P), c.parts[i]? = some p → ∃ k res zds, r[i]? = some (k, res) ∧
        parse p = .ok k ∧ loadDataset c st p = .ok zds ∧ f zds none = .ok res) ∧
    ∀ e, mapParts c parse f st = .error e → ∃ p ∈ c.parts,
      loadDataset c st p = .error e ∨ parse p = .error e ∨
      ∃ zds, loadDataset c st p = .ok zds ∧ f zds none = .error e := by
  constructor
  · intro r hr
    obtain ⟨h1, h2⟩ := mapPy_spec _ _ _ hr
    refine ⟨h1, fun i p hp => ?_⟩
    obtain ⟨y, hy, hf⟩ := h2 i p hp
    simp only [bind, Except.bind] at hf
    split at hf
    · cases hf
    · next zds hz =>
      split at hf
      · cases hf
      · next k hk =>
        split at hf
        · cases hf
        · next res hres =>
          cases hf
          exact ⟨k, res, zds, hy, hk, hz, hres⟩
  · intro e he
    unfold mapParts at he
    generalize c.parts = l at *
    induction l with
    | nil => cases he
    | cons p t ih =>
      simp only [mapPy, bind, Except.bind] at he ih
      split at he
      · next e' he' =>
        cases he
        refine ⟨p, by simp, ?_⟩
        split at he'
        · next hz => cases he'; exact .inl hz
        · next zds hz =>
          split at he'
          · next hk => cases he'; exact .inr (.inl hk)
          · split at he'
            · next hf => cases he'; exact .inr (.inr ⟨zds, hz, hf⟩)
            · cases he'
      · split at he
        · next e' he' =>
          cases he
          obtain ⟨q, hq, h⟩ := ih he'
          exact ⟨q, by simp [hq], h⟩
        · cases he

/-- C35: the same for `map_overlap`, with the dataset and the slice of C33. -/
theorem C35_map_overlap {K R : Type} (c : Cfg P V) (parse : P → Py K) (f : Callback V R)
    (st : Store P V) :
    ∀ r, mapOverlap c parse f st = .ok r → r.length = c.parts.length ∧
      ∀ (i : Nat) (p : P), c.parts[i]? = some p → ∃ k res zds ind, r[i]? = some (k, res) ∧
        parse p = .ok k ∧ loadOverlap c st p = .ok (zds, ind) ∧ f zds (some ind) = .ok res := by
  intro r hr
  obtain ⟨h1, h2⟩ := mapPy_spec _ _ _ hr
  refine ⟨h1, fun i p hp => ?_⟩
  obtain ⟨y, hy, hf⟩ := h2 i p hp
  simp only [bind, Except.bind] at hf
  split at hf
  · cases hf
  · next z hz =>
    obtain ⟨zds, ind⟩ := z
    simp only at hf
    split at hf
    · cases hf
    · next k hk =>
      split at hf
      · cases hf
      · next res hres =>
        cases hf
        exact ⟨k, res, zds, ind, hy, hk, hz, hres⟩

end Verif
