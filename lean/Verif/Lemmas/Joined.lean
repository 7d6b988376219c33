import Verif.Lemmas.OverlapLoad

/-! Datasets made of several partitions one after the other. -/

namespace Verif

open Spec Nd Ds Upd

variable {P V : Type}

/-- The datasets opened for the partitions `ps`, one after the other. -/
theorem joined_holds {st : Store P V} {dim : String} {del : Bool} {sel : Option (List String)}
    {size : P → Nat} {other : String → Nat} (hu : Uniform dim size other st) {ps : List P}
    {groups : List (Dataset V)} (g1 : groups.length = ps.length) (hps : ps ≠ [])
    (hgi : ∀ (j : Nat) (q : P), ps[j]? = some q → ∃ g vars, groups[j]? = some g ∧
      st q = some vars ∧ Consistent g ∧ g.delayed = del ∧
      (∀ v ∈ vars, Chosen sel v.name → getVar g.vars v.name = some { v with delayed := del }) ∧
      (∀ n w, getVar g.vars n = some w → Chosen sel n ∧
        ∃ v, getVar vars n = some v ∧ v ∈ vars ∧ w = { v with delayed := del })) :
    ∃ zds, joinGroups dim groups = .ok zds ∧ Consistent zds ∧
      HoldsWindow dim size sel st ps zds ∧
      ∀ v' ∈ zds.vars, (∀ q ∈ ps, ∃ vars v, st q = some vars ∧ v ∈ vars ∧ v.name = v'.name ∧
        Chosen sel v.name) ∧
        v'.array.shape = v'.dims.map fun d => if d = dim then (ps.map size).sum else other d := by
  have hne : groups ≠ [] := by
    rintro rfl
    exact hps (List.eq_nil_of_length_eq_zero g1.symm)
  have hsrc : ∀ g ∈ groups, ∃ (j : Nat) (q : P), ps[j]? = some q ∧ groups[j]? = some g := by
    intro g hg
    obtain ⟨j, hj⟩ := List.getElem?_of_mem hg
    have : j < ps.length := by rw [← g1]; exact (List.getElem?_eq_some_iff.1 hj).1
    exact ⟨j, _, List.getElem?_eq_getElem this, hj⟩
  have g2 : ∀ g ∈ groups, Consistent g := by
    intro g hg
    obtain ⟨j, q, hq, hj⟩ := hsrc g hg
    obtain ⟨g', _, hg', _, hc, _⟩ := hgi j q hq
    rw [hj] at hg'
    cases hg'
    exact hc
  have hsame : ∀ g ∈ groups, ∀ g' ∈ groups, ∀ w ∈ g.vars, ∃ w' ∈ g'.vars,
      w'.name = w.name ∧ w'.dims = w.dims := by
    intro g hg g' hg' w hwg
    obtain ⟨j, q, hq, hj⟩ := hsrc g hg
    obtain ⟨j', q', hq', hj'⟩ := hsrc g' hg'
    obtain ⟨x, vars, hx, hs, hc, _, _, h2⟩ := hgi j q hq
    obtain ⟨x', vars', hx', hs', hc', _, h1', _⟩ := hgi j' q' hq'
    rw [hj] at hx
    cases hx
    rw [hj'] at hx'
    cases hx'
    obtain ⟨hch, v, hv1, hv2, rfl⟩ := h2 _ _ (getVar_of_mem _ hc.names w hwg)
    obtain ⟨w', hw', hwn'⟩ := hu.names q q' vars vars' hs hs' v hv2
    have := h1' w' hw' (by rw [hwn']; exact hch)
    refine ⟨_, (getVar_some _ _ _ this).1, hwn', ?_⟩
    exact hu.good.2 q' q vars' vars hs' hs w' hw' v hv2 hwn'
  obtain ⟨zds, hz, hzs⟩ := joinGroups_ok (dim := dim) (other := other) (b := del) groups
    (ps.map size) hne (by simp [g1]) g2 (by
      intro g hg
      obtain ⟨j, q, hq, hj⟩ := hsrc g hg
      obtain ⟨g', _, hg', _, _, hd, _⟩ := hgi j q hq
      rw [hj] at hg'
      cases hg'
      exact hd) (by
      intro g hg w hwg
      obtain ⟨j, q, hq, hj⟩ := hsrc g hg
      obtain ⟨g', vars, hg', hs, hc, _, _, h2⟩ := hgi j q hq
      rw [hj] at hg'
      cases hg'
      obtain ⟨_, v, _, hv, rfl⟩ := h2 _ _ (getVar_of_mem _ hc.names w hwg)
      exact ((hu.good.1 q vars hs).2 v hv).2) hsame (by
      intro j g n hj hn w hwg
      rw [List.getElem?_map, Option.map_eq_some_iff] at hn
      obtain ⟨q, hq, rfl⟩ := hn
      obtain ⟨g', vars, hg', hs, hc, _, _, h3⟩ := hgi j q hq
      rw [hj] at hg'
      cases hg'
      obtain ⟨_, v, _, hv, rfl⟩ := h3 _ _ (getVar_of_mem _ hc.names w hwg)
      exact hu.shapes q vars hs v hv)
  obtain ⟨hzc, hznames, hzv⟩ := joinGroups_var g2 hz
  refine ⟨zds, hz, hzc, ?_, ?_⟩
  · obtain ⟨g0, hg0⟩ : ∃ g0, groups[0]? = some g0 := by
      cases groups with
      | nil => exact absurd rfl hne
      | cons g t => exact ⟨g, rfl⟩
    have hhead : groups.head? = some g0 := by rw [List.head?_eq_getElem?]; exact hg0
    constructor
    · intro q hq vars hs v hv hch
      obtain ⟨j, hj⟩ := List.getElem?_of_mem hq
      obtain ⟨g, vars', hg, hs', hc, _, h1, _⟩ := hgi j q hj
      rw [hs] at hs'
      cases hs'
      obtain ⟨w0, hw0, hn0, _⟩ := hsame g (List.mem_of_getElem? hg) g0 (List.mem_of_getElem? hg0)
        _ (getVar_some _ _ _ (h1 v hv hch)).1
      have : w0.name ∈ zds.vars.map (·.name) := by
        rw [hznames g0 hhead]; exact List.mem_map_of_mem hw0
      obtain ⟨v', hv', hvn⟩ := List.mem_map.1 this
      exact ⟨v', hv', by rw [hvn, hn0]⟩
    · intro v' hv' j q vars v hq hs hv hvn
      obtain ⟨ws, w1, w2, w0, hw0, hwd, hno, hcase⟩ := hzv v' hv'
      -- the variable in each group
      have hall : ∀ (j : Nat) (q : P), ps[j]? = some q → ∃ w vars v, ws[j]? = some w ∧
          st q = some vars ∧ getVar vars v'.name = some v ∧ v ∈ vars ∧
          w = { v with delayed := del } ∧ v.dims = v'.dims := by
        intro j q hq
        obtain ⟨g, vars, hg, hs, _, _, _, h2⟩ := hgi j q hq
        obtain ⟨w, e1, e2⟩ := w2 j g hg
        obtain ⟨_, v, h3, h4, h5⟩ := h2 _ _ e2
        obtain ⟨q0, hq0⟩ : ∃ q0, ps[0]? = some q0 :=
          ⟨_, List.getElem?_eq_getElem (by have := (List.getElem?_eq_some_iff.1 hq).1; omega)⟩
        obtain ⟨g0', vars0, hg0', hs0, _, _, _, h20⟩ := hgi 0 q0 hq0
        obtain ⟨w0', e10, e20⟩ := w2 0 g0' hg0'
        rw [hw0] at e10
        cases e10
        obtain ⟨_, v0, h30, h40, h50⟩ := h20 _ _ e20
        refine ⟨w, vars, v, e1, hs, h3, h4, h5, ?_⟩
        rw [hwd, h50]
        exact hu.good.2 q q0 vars vars0 hs hs0 v h4 v0 h40
          ((getVar_some _ _ _ h3).2.trans (getVar_some _ _ _ h30).2.symm)
      obtain ⟨w, vars', v2, hwj, hs', hv2, hv2m, hweq, hv2d⟩ := hall j q hq
      rw [hs] at hs'
      cases hs'
      have hveq : v2 = v := by
        have := getVar_of_mem vars (hu.good.1 q vars hs).1 v hv
        rw [hvn, hv2] at this
        cases this
        rfl
      subst hveq
      refine ⟨hv2d.symm, ?_, ?_⟩
      · intro ax hax
        have hdnd : v'.dims.Nodup := by rw [← hv2d]; exact ((hu.good.1 q vars hs).2 _ hv).2
        rw [hv2d] at hax
        have hidx := idxOf?_of_nodup hdnd hax
        have hshape : v'.array.shape[ax]? = some (ps.map size).sum := by
          rw [hzs v' hv', List.getElem?_map, hax]; simp
        refine ⟨hshape, ?_⟩
        intro ix m hm hlt
        have hsz : ∀ (j : Nat) (q : P), ps[j]? = some q → ∃ w, ws[j]? = some w ∧
            w.array.shape = v'.dims.map fun d => if d = dim then size q else other d := by
          intro j q hq
          obtain ⟨w, vars, v, h1, h2, h3, h4, h5, h6⟩ := hall j q hq
          refine ⟨w, h1, ?_⟩
          rw [h5, ← h6]
          exact hu.shapes q vars h2 v h4
        have hwsl : ws.length = ps.length := w1.trans g1
        have hconc := concatenate_sizes hdnd hax other (ws.map (·.array)) (ps.map size)
          (by
            intro h
            rw [List.map_eq_nil_iff] at h
            rw [h] at hw0
            simp at hw0) (by simp [hwsl]) (by
            intro j a n ha hn
            rw [List.getElem?_map, Option.map_eq_some_iff] at ha hn
            obtain ⟨w, hwj, rfl⟩ := ha
            obtain ⟨q, hqj, rfl⟩ := hn
            obtain ⟨w', e1, e2⟩ := hsz j q hqj
            rw [hwj] at e1
            cases e1
            exact e2)
        have htake : ((ws.map (·.array)).take j).filterMap (·.shape[ax]?) =
            (ps.take j).map size := by
          apply List.ext_getElem?
          clear hwj hq hs hv
          have : ∀ (us : List (Var V)) (qs : List P), us.length = qs.length →
              (∀ (i : Nat) q, qs[i]? = some q → ∃ w, us[i]? = some w ∧
                w.array.shape[ax]? = some (size q)) → ∀ j,
              ((us.map (·.array)).take j).filterMap (·.shape[ax]?) = (qs.take j).map size := by
            intro us
            induction us with
            | nil => intro qs hl _ j; cases qs with
              | nil => simp
              | cons _ _ => simp at hl
            | cons u us ih =>
              intro qs hl hh j
              cases qs with
              | nil => simp at hl
              | cons q qs =>
                cases j with
                | zero => simp
                | succ j =>
                  obtain ⟨w, e1, e2⟩ := hh 0 q rfl
                  simp only [List.getElem?_cons_zero, Option.some.injEq] at e1
                  subst e1
                  simp only [List.map_cons, List.take_succ_cons, List.filterMap_cons, e2]
                  rw [ih qs (by simpa using hl) (fun i q' hq' => by
                    simpa using hh (i + 1) q' (by simpa using hq')) j]
          intro i
          rw [this ws ps hwsl (fun i q hq => by
            obtain ⟨w, e1, e2⟩ := hsz i q hq
            refine ⟨w, e1, ?_⟩
            rw [e2, List.getElem?_map, hax]; simp) j]
        have hwn : w.array.shape[ax]? = some (size q) := by
          obtain ⟨w', e1, e2⟩ := hsz j q hq
          rw [hwj] at e1
          cases e1
          rw [e2, List.getElem?_map, hax]; simp
        have hget : v'.array.get = concatGet ax (ws.map (·.array)) := by
          have hax0 : w0.dims.idxOf? dim = some ax := by rw [← hwd]; exact hidx
          rcases hcase ax hax0 with ⟨e0, e⟩ | ⟨_, e⟩ | ⟨_, _, e⟩
          · rw [e]
            have hws : ws = [w0] := by
              cases ws with
              | nil => simp at hw0
              | cons u t =>
                simp only [List.getElem?_cons_zero, Option.some.injEq] at hw0
                have := w1.trans e0
                simp only [List.length_cons, Nat.add_eq_right] at this
                rw [hw0, List.eq_nil_of_length_eq_zero this]
            obtain ⟨q0, hq0⟩ : ∃ q0, ps[0]? = some q0 :=
              ⟨_, List.getElem?_eq_getElem (by
                have := (List.getElem?_eq_some_iff.1 hq).1; omega)⟩
            obtain ⟨w', vars', v', h1, h2, _, h4, h5, _⟩ := hall 0 q0 hq0
            rw [hw0] at h1
            cases h1
            have hok : ArrOk w0.array := by
              rw [h5]
              exact ((hu.good.1 q0 vars' h2).2 v' h4).1
            have hlt' : ax < w0.array.shape.length := by
              rw [← e]; exact (List.getElem?_eq_some_iff.1 hshape).1
            have hn := List.getElem?_eq_getElem hlt'
            have h1 := concatenate_pieces hok hn [(0, w0.array.shape[ax])] (by simp)
              ⟨rfl, by omega, rfl⟩
            have hp1 : piece ax w0.array (0, w0.array.shape[ax]) = w0.array := by
              have := takeAxis_range hok hn
              simpa [piece] using this
            rw [List.map_cons, List.map_nil, hp1] at h1
            rw [hws] at hconc ⊢
            rw [List.map_cons, List.map_nil, h1] at hconc
            simp only [Except.ok.injEq] at hconc
            exact congrArg Arr.get hconc
          · rw [hconc] at e
            simp only [Except.ok.injEq] at e
            rw [← e]
          · rw [hconc] at e; cases e
        rw [hget, ← htake]
        have hwk : (ws.map (·.array))[j]? = some w.array := by simp [hwj]
        rw [concatGet_append ax _ j w.array hwk (by
          intro b hb
          obtain ⟨x, hx, rfl⟩ := List.mem_map.1 hb
          obtain ⟨t, ht⟩ := List.getElem?_of_mem hx
          have htl : t < ps.length := by rw [← hwsl]; exact (List.getElem?_eq_some_iff.1 ht).1
          obtain ⟨w', e1, e2⟩ := hsz t _ (List.getElem?_eq_getElem htl)
          rw [ht] at e1
          cases e1
          rw [e2, List.length_map]
          exact (List.getElem?_eq_some_iff.1 hax).1) (size q) m hwn hlt ix hm, hweq]
      · intro hdno hj0
        subst hj0
        rw [hw0] at hwj
        cases hwj
        rw [hno (idxOf?_none.2 (by rw [← hwd, ← hv2d]; exact hdno)), hweq]
  · intro v' hv'
    refine ⟨fun q hq => ?_, hzs v' hv'⟩
    obtain ⟨k, hpk⟩ := List.getElem?_of_mem hq
    obtain ⟨ws, w1, w2, _⟩ := hzv v' hv'
    obtain ⟨g, vars, hg, hs, _, _, _, h2⟩ := hgi k q hpk
    obtain ⟨w, e1, e2⟩ := w2 k g hg
    obtain ⟨hch, v, h3, h4, _⟩ := h2 _ _ e2
    have := (getVar_some _ _ _ h3).2
    exact ⟨vars, v, hs, h4, this, by rw [this]; exact hch⟩

end Verif
