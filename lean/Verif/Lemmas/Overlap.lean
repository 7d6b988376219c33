import Verif.Lemmas.OverlapArray
import Verif.Lemmas.Update

/-! Lemmas about the partitions loaded with their neighbours. -/

namespace Verif

open Spec Nd Ds Upd

variable {P V : Type} [DecidableEq P]

omit [DecidableEq P] in
theorem window_list (parts : List P) (d w m : Nat) :
    ((List.range m).filterMap fun k => if d ≤ w + k then parts[w + k - d]? else none) =
      (parts.drop (w - d)).take (m - (d - w)) := by
  induction m with
  | zero => simp
  | succ m ih =>
    rw [List.range_succ, List.filterMap_append, ih]
    simp only [List.filterMap_cons, List.filterMap_nil]
    by_cases h : d ≤ w + m
    · rw [if_pos h, show m + 1 - (d - w) = (m - (d - w)) + 1 by omega, List.take_add_one,
        List.getElem?_drop, show w - d + (m - (d - w)) = w + m - d by omega]
      cases parts[w + m - d]? <;> rfl
    · rw [if_neg h, show m - (d - w) = 0 by omega, show m + 1 - (d - w) = 0 by omega]
      simp

theorem idxOf?_spec {l : List P} {p : P} {w : Nat} (h : l.idxOf? p = some w) :
    l[w]? = some p := by
  induction l generalizing w with
  | nil => simp [List.idxOf?] at h
  | cons e t ih =>
    rw [List.idxOf?, List.findIdx?_cons] at h
    by_cases he : e = p
    · simp [he] at h; subst h; simp [he]
    · have : (e == p) = false := by simpa using he
      simp only [this, Bool.false_eq_true, if_false] at h
      cases hi : t.idxOf? p with
      | none => rw [List.idxOf?] at hi; rw [hi] at h; cases h
      | some k =>
        have := ih hi
        rw [List.idxOf?] at hi
        rw [hi] at h
        cases h
        simpa using this

theorem window_eq {parts ps : List P} {depth : Nat} {p : P}
    (h : window parts depth p = .ok ps) :
    ∃ w, parts.idxOf? p = some w ∧
      ps = (parts.drop (w - depth)).take (2 * depth + 1 - (depth - w)) := by
  unfold window at h
  split at h
  · cases h
  · next w hw =>
    cases h
    exact ⟨w, hw, window_list parts depth w (2 * depth + 1)⟩

/-- The partition is in its window. -/
theorem window_self {parts ps : List P} {depth : Nat} {p : P}
    (h : window parts depth p = .ok ps) : ∃ k : Nat, ps[k]? = some p := by
  obtain ⟨w, hw, rfl⟩ := window_eq h
  have hp := idxOf?_spec hw
  refine ⟨w - (w - depth), ?_⟩
  rw [List.getElem?_take, if_pos (by omega), List.getElem?_drop,
    show w - depth + (w - (w - depth)) = w by omega]
  exact hp

theorem window_nodup {parts ps : List P} {depth : Nat} {p : P}
    (h : window parts depth p = .ok ps) (hnd : parts.Nodup) : ps.Nodup := by
  obtain ⟨w, hw, rfl⟩ := window_eq h
  exact ((List.take_sublist _ _).trans (List.drop_sublist _ _)).nodup hnd

/-- The slice computed for a partition. -/
theorem calcSlice_spec (dim : String) (p : P) (ps : List P) (groups : List (Dataset V))
    (hlen : groups.length = ps.length) (k : Nat) (hk : ps[k]? = some p)
    (hfirst : p ∉ ps.take k) (start : Nat) (last ind : Nat × Nat)
    (h : calcSlice dim p start last (groups.zip ps) = .ok ind) :
    (∀ i g, i ≤ k → groups[i]? = some g → ∃ n, g.dims.lookup dim = some n) ∧
    ∃ g n, groups[k]? = some g ∧ g.dims.lookup dim = some n ∧
      ind = (start + ((groups.take k).filterMap (·.dims.lookup dim)).sum,
        start + ((groups.take k).filterMap (·.dims.lookup dim)).sum + n) := by
  induction ps generalizing groups k start last with
  | nil => simp at hk
  | cons q t ih =>
    cases groups with
    | nil => simp at hlen
    | cons g gs =>
      simp only [List.zip_cons_cons, calcSlice] at h
      cases hd : g.dims.lookup dim with
      | none => rw [hd] at h; cases h
      | some size =>
        rw [hd] at h
        simp only at h
        cases k with
        | zero =>
          simp only [List.getElem?_cons_zero, Option.some.injEq] at hk
          subst hk
          rw [if_pos rfl] at h
          cases h
          refine ⟨?_, g, size, rfl, hd, by simp⟩
          intro i g' hi hg'
          have : i = 0 := by omega
          subst this
          simp only [List.getElem?_cons_zero, Option.some.injEq] at hg'
          subst hg'
          exact ⟨_, hd⟩
        | succ k =>
          simp only [List.take_succ_cons, List.mem_cons, not_or] at hfirst
          rw [if_neg hfirst.1] at h
          obtain ⟨h1, g', n, h2, h3, h4⟩ := ih gs (by simpa using hlen) k (by simpa using hk)
            hfirst.2 _ _ h
          refine ⟨?_, g', n, by simpa using h2, h3, ?_⟩
          · intro i g'' hi hg''
            cases i with
            | zero =>
              simp only [List.getElem?_cons_zero, Option.some.injEq] at hg''
              subst hg''
              exact ⟨_, hd⟩
            | succ i => exact h1 i g'' (by omega) (by simpa using hg'')
          · rw [h4]
            simp only [List.take_succ_cons, List.filterMap_cons, hd, List.sum_cons, Nat.add_assoc]

/-- The variables of a joined dataset. -/
theorem joinGroups_var {dim : String} {groups : List (Dataset V)} {zds : Dataset V}
    (hcons : ∀ g ∈ groups, Consistent g) (h : joinGroups dim groups = .ok zds) :
    Consistent zds ∧ (∀ g0, groups.head? = some g0 → zds.vars.map (·.name) = g0.vars.map (·.name)) ∧
    ∀ v' ∈ zds.vars, ∃ ws : List (Var V), ws.length = groups.length ∧
      (∀ (k : Nat) (g : Dataset V), groups[k]? = some g →
        ∃ w, ws[k]? = some w ∧ getVar g.vars v'.name = some w) ∧
      ∃ w0, ws[0]? = some w0 ∧ v'.dims = w0.dims ∧
        (w0.dims.idxOf? dim = none → v'.array = w0.array) ∧
        ∀ ax, w0.dims.idxOf? dim = some ax →
          (groups.length = 1 ∧ v'.array = w0.array) ∨
          (groups.length ≠ 1 ∧ concatenate ax (ws.map (·.array)) = .ok v'.array) ∨
          (groups.length ≠ 1 ∧ v'.array = w0.array ∧
            concatenate ax (ws.map (·.array)) = .error .valueError) := by
  match groups, h with
  | [], h => simp [joinGroups] at h
  | [g], h =>
    simp only [joinGroups] at h
    cases h
    have hg := hcons zds (by simp)
    refine ⟨hg, by simp, ?_⟩
    intro v' hv'
    refine ⟨[v'], rfl, ?_, v', rfl, rfl, fun _ => rfl, fun ax _ => .inl ⟨rfl, rfl⟩⟩
    intro k g' hk
    cases k with
    | zero =>
      simp only [List.getElem?_cons_zero, Option.some.injEq] at hk
      subst hk
      exact ⟨v', rfl, getVar_of_mem _ hg.names v' hv'⟩
    | succ k => simp at hk
  | g :: o :: rest, h =>
    simp only [joinGroups] at h
    have hg := hcons g (by simp)
    unfold concat at h
    split at h
    · cases h
    split at h
    · cases h
    simp only [bind, Except.bind] at h
    split at h
    · cases h
    next vars hvars =>
    obtain ⟨hl, hv⟩ := mapPy_spec _ _ _ hvars
    obtain ⟨hc, hfold, _⟩ := mk_spec _ _ _ _ _ _ h
    have hres : ∀ (i : Nat) (v : Var V), g.vars[i]? = some v → ∃ v' ws, vars[i]? = some v' ∧
        mapPy (fun o : Dataset V => getVarE o.vars v.name) (o :: rest) = .ok ws ∧
        concatVar v ws dim = .ok v' := by
      intro i v hi
      obtain ⟨v', h1, h2⟩ := hv i v hi
      split at h2
      · cases h2
      · next ws hws => exact ⟨v', ws, h1, hws, h2⟩
    have hname : ∀ (v v' : Var V) ws, concatVar v ws dim = .ok v' →
        v'.name = v.name ∧ v'.dims = v.dims ∧ (v.dims.idxOf? dim = none → v'.array = v.array) ∧
        ∀ ax, v.dims.idxOf? dim = some ax →
          concatenate ax (v.array :: ws.map (·.array)) = .ok v'.array ∨
          (v'.array = v.array ∧
            concatenate ax (v.array :: ws.map (·.array)) = .error .valueError) := by
      intro v v' ws h
      unfold concatVar at h
      split at h
      · cases h
      · split at h
        · cases h
        · split at h
          · next hx => cases h; exact ⟨rfl, rfl, fun _ => rfl, fun ax hax => by rw [hx] at hax; cases hax⟩
          · next ax hx =>
            split at h
            · next a ha =>
              cases h
              exact ⟨rfl, rfl, fun hc => (by rw [hx] at hc; cases hc), fun ax' hax => by rw [hx] at hax; cases hax; exact .inl ha⟩
            · next ha =>
              cases h
              exact ⟨rfl, rfl, fun _ => rfl, fun ax' hax => by rw [hx] at hax; cases hax; exact .inr ⟨rfl, ha⟩⟩
            · cases h
    have hnames : (vars.map (·.name)) = g.vars.map (·.name) := by
      apply List.ext_getElem?
      intro i
      rw [List.getElem?_map, List.getElem?_map]
      cases hi : g.vars[i]? with
      | none =>
        rw [List.getElem?_eq_none_iff] at hi
        rw [List.getElem?_eq_none (by omega)]
      | some v =>
        obtain ⟨v', ws, h1, _, h2⟩ := hres i v hi
        rw [h1]
        simp [(hname v v' ws h2).1]
    have hds' : zds.vars = vars := by
      rw [hfold]
      have := foldl_setVar_id vars [] (by simpa [hnames] using hg.names)
      simpa using this
    refine ⟨hc, by rw [hds']; simpa [eq_comm] using hnames, ?_⟩
    rw [hds']
    intro v' hv'
    obtain ⟨i, hi⟩ := List.getElem?_of_mem hv'
    have hlt : i < g.vars.length := by
      rw [← hl]; exact (List.getElem?_eq_some_iff.1 hi).1
    obtain ⟨v'', ws, h1, h2, h3⟩ := hres i g.vars[i] (List.getElem?_eq_getElem hlt)
    rw [hi] at h1
    cases h1
    obtain ⟨n1, n2, n0, n3⟩ := hname _ _ _ h3
    obtain ⟨w1, w2⟩ := mapPy_spec _ _ _ h2
    refine ⟨g.vars[i] :: ws, by simp [w1], ?_, g.vars[i], rfl, n2, n0, ?_⟩
    · intro k g' hk
      cases k with
      | zero =>
        simp only [List.getElem?_cons_zero, Option.some.injEq] at hk
        subst hk
        exact ⟨_, rfl, by rw [n1]; exact getVar_of_mem _ hg.names _ (List.getElem_mem hlt)⟩
      | succ k =>
        obtain ⟨w, g1, g2⟩ := w2 k g' (by simpa using hk)
        refine ⟨w, by simpa using g1, ?_⟩
        unfold getVarE at g2
        split at g2
        · cases g2
        · next w' hw' => cases g2; rw [n1]; exact hw'
    · intro ax hax
      rcases n3 ax hax with hx | hx
      · exact .inr (.inl ⟨by simp, hx⟩)
      · exact .inr (.inr ⟨by simp, hx.1, hx.2⟩)


omit [DecidableEq P] in
/-- Opening a partition. -/
theorem openPart_spec {del : Bool} {sel : Option (List String)} {st : Store P V} {q : P}
    {g : Dataset V} (h : openPart del sel st q = .ok g) (hgood : ∀ vars, st q = some vars →
      GoodVars vars) :
    Consistent g ∧ g.delayed = del ∧ ∃ vars, st q = some vars ∧
      (∀ v ∈ vars, Chosen sel v.name → getVar g.vars v.name = some { v with delayed := del }) ∧
      ∀ n w, getVar g.vars n = some w → Chosen sel n ∧
        ∃ v, getVar vars n = some v ∧ v ∈ vars ∧ w = { v with delayed := del } := by
  unfold openPart at h
  cases hs : st q with
  | none => rw [hs] at h; cases h
  | some vars =>
    rw [hs] at h
    simp only [openGroup] at h
    obtain ⟨hnd, _⟩ := hgood vars hs
    have hnames : (((vars.filter fun v => match sel with
        | none => true
        | some l => decide (v.name ∈ l)).map fun v => { v with delayed := del }).map
          (·.name)).Nodup := by
      rw [List.map_map]
      exact (List.Sublist.map _ List.filter_sublist).nodup hnd
    obtain ⟨hc, hv, _, _, _, hdel⟩ := mk_spec _ _ _ _ _ _ h
    have hvars := foldl_setVar_id ((vars.filter fun v => match sel with
        | none => true
        | some l => decide (v.name ∈ l)).map fun v => { v with delayed := del }) []
      (by rw [List.nil_append]; exact hnames)
    rw [List.nil_append] at hvars
    replace hv := hv.trans hvars
    refine ⟨hc, hdel del rfl, vars, rfl, ?_, ?_⟩
    · intro v hvm hch
      have hm : ({ v with delayed := del } : Var V) ∈ g.vars := by
        rw [hv]
        refine List.mem_map.2 ⟨v, List.mem_filter.2 ⟨hvm, ?_⟩, rfl⟩
        cases sel with
        | none => rfl
        | some l => simpa using hch l rfl
      exact getVar_of_mem g.vars hc.names _ hm
    · intro n w hw
      obtain ⟨h1, h2⟩ := getVar_some _ _ _ hw
      rw [hv] at h1
      obtain ⟨v, hvf, rfl⟩ := List.mem_map.1 h1
      obtain ⟨hvm, hsel⟩ := List.mem_filter.1 hvf
      simp only at h2
      refine ⟨?_, v, ?_, hvm, rfl⟩
      · intro l hl
        subst hl
        rw [← h2]
        simpa using hsel
      · rw [← h2]
        exact getVar_of_mem vars hnd v hvm

/-- What a successful load with overlap did, apart from the immutable variables. -/
theorem loadOverlap_spec {c : Cfg P V} {st : Store P V} {p : P} {r : Dataset V × (Nat × Nat)}
    (h : loadOverlap c st p = .ok r) :
    ∃ ps groups zds, window c.parts c.depth p = .ok ps ∧
      mapPy (openPart c.delayed c.sel st) ps = .ok groups ∧
      calcSlice c.dim p 0 (0, 0) (groups.zip ps) = .ok r.2 ∧
      joinGroups c.dim groups = .ok zds ∧
      (match c.imm with
        | none => r.1 = zds
        | some _ => ∃ o, openPart c.delayed c.sel st p = .ok o ∧ mergeInto zds o = .ok r.1) := by
  simp only [loadOverlap, bind, Except.bind] at h
  split at h
  · cases h
  · next ps hps =>
    split at h
    · cases h
    · next groups hgroups =>
      split at h
      · cases h
      · next ind hind =>
        split at h
        · cases h
        · next zds hzds =>
          refine ⟨ps, groups, zds, hps, hgroups, ?_, hzds, ?_⟩
          · split at h
            · cases h; exact hind
            · split at h
              · cases h
              · split at h
                · cases h
                · cases h; exact hind
          · split at h
            · next himm => cases h; rw [himm]
            · next b himm =>
              rw [himm]
              split at h
              · cases h
              · next o ho =>
                split at h
                · cases h
                · next z hz => cases h; exact ⟨o, ho, hz⟩

omit [DecidableEq P] in
theorem groups_spec {c : Cfg P V} {st : Store P V} {ps : List P} {groups : List (Dataset V)}
    (h : mapPy (openPart c.delayed c.sel st) ps = .ok groups)
    (hgood : ∀ q vars, st q = some vars → GoodVars vars) :
    groups.length = ps.length ∧ (∀ g ∈ groups, Consistent g) ∧
    (∀ (k : Nat) (q : P), ps[k]? = some q → ∃ g, groups[k]? = some g ∧
      openPart c.delayed c.sel st q = .ok g) := by
  obtain ⟨h1, h2⟩ := mapPy_spec _ _ _ h
  refine ⟨h1, fun g hg => ?_, h2⟩
  obtain ⟨q, _, hq⟩ := mapPy_mem _ _ _ h g hg
  exact (openPart_spec hq (hgood q)).1

omit [DecidableEq P] in
theorem not_mem_take {l : List P} (hnd : l.Nodup) {k : Nat} {p : P} (hk : l[k]? = some p) :
    p ∉ l.take k := by
  induction l generalizing k with
  | nil => simp at hk
  | cons a t ih =>
    rw [List.nodup_cons] at hnd
    cases k with
    | zero => simp
    | succ k =>
      rw [List.take_succ_cons, List.mem_cons, not_or]
      refine ⟨?_, ih hnd.2 (by simpa using hk)⟩
      rintro rfl
      exact hnd.1 (List.mem_of_getElem? (by simpa using hk))

/-- The sizes of the groups along the dimension are those of the arrays of a variable that
has this dimension. -/
theorem sizes_eq {groups : List (Dataset V)} {ws : List (Var V)} {dim n : String} {ax : Nat}
    (hlen : ws.length = groups.length)
    (hw : ∀ (k : Nat) (g : Dataset V), groups[k]? = some g →
      ∃ w, ws[k]? = some w ∧ getVar g.vars n = some w ∧ w.dims[ax]? = some dim)
    (hcons : ∀ g ∈ groups, Consistent g) :
    (ws.map (·.array)).filterMap (·.shape[ax]?) = groups.filterMap (·.dims.lookup dim) := by
  induction groups generalizing ws with
  | nil => cases ws with
    | nil => rfl
    | cons _ _ => simp at hlen
  | cons g t ih =>
    cases ws with
    | nil => simp at hlen
    | cons w u =>
      obtain ⟨w', h1, h2, h3⟩ := hw 0 g rfl
      simp only [List.getElem?_cons_zero, Option.some.injEq] at h1
      subst h1
      obtain ⟨m, e1, e2⟩ := (hcons g (by simp)).sizes w (getVar_some _ _ _ h2).1 ax dim h3
      simp only [List.map_cons, List.filterMap_cons, e1, e2]
      rw [ih (by simpa using hlen) (fun k g' hk => by
        simpa using hw (k + 1) g' (by simpa using hk)) fun g' hg' => hcons g' (by simp [hg'])]


/-- Where the records of the partition are, in a variable of the dataset loaded with overlap:
`w` is the variable of the partition, `n` its size along the dimension. -/
theorem overlap_var {c : Cfg P V} {st : Store P V} (hgood : GoodStore st)
    (hnd : c.parts.Nodup) {p : P} {ps : List P} {groups : List (Dataset V)} {zds : Dataset V}
    {ind : Nat × Nat} (hps : window c.parts c.depth p = .ok ps)
    (hgr : mapPy (openPart c.delayed c.sel st) ps = .ok groups)
    (hind : calcSlice c.dim p 0 (0, 0) (groups.zip ps) = .ok ind)
    (hz : joinGroups c.dim groups = .ok zds) {v' : Var V} (hv' : v' ∈ zds.vars) {ax : Nat}
    (hax : v'.dims.idxOf? c.dim = some ax) :
    ∃ vars w n, st p = some vars ∧ getVar vars v'.name = some w ∧ w ∈ vars ∧
      w.dims = v'.dims ∧ ArrOk w.array ∧ ArrOk v'.array ∧
      w.array.shape[ax]? = some n ∧ ind.2 = ind.1 + n ∧
      ((∃ m, v'.array.shape[ax]? = some m ∧ m ≤ ind.1) ∨
        ((∃ m, v'.array.shape[ax]? = some m ∧ ind.2 ≤ m) ∧
         ∀ idx j, idx[ax]? = some j → j < n →
          v'.array.get (idx.set ax (ind.1 + j)) = w.array.get idx)) := by
  obtain ⟨g1, g2, g3⟩ := groups_spec hgr hgood.1
  obtain ⟨_, _, hjv⟩ := joinGroups_var g2 hz
  obtain ⟨ws, w1, w2, w0, hw0, hdims, _, hcase⟩ := hjv v' hv'
  obtain ⟨k, hk⟩ := window_self hps
  obtain ⟨_, g, n, hgk, hgn, hindeq⟩ := calcSlice_spec c.dim p ps groups g1 k hk
    (not_mem_take (window_nodup hps hnd) hk) 0 (0, 0) ind hind
  -- all the variables have the same dimensions
  have hall : ∀ (i : Nat) (gi : Dataset V), groups[i]? = some gi → ∃ w, ws[i]? = some w ∧
      getVar gi.vars v'.name = some w ∧ w.dims = v'.dims ∧ ArrOk w.array := by
    have hsrc : ∀ (i : Nat) (gi : Dataset V) (w : Var V), groups[i]? = some gi →
        getVar gi.vars v'.name = some w → ∃ q vars v, st q = some vars ∧ v ∈ vars ∧
          v.name = v'.name ∧ w.dims = v.dims ∧ w.array = v.array := by
      intro i gi w hi hw
      obtain ⟨q, hq⟩ : ∃ q, ps[i]? = some q := by
        have : i < ps.length := by rw [← g1]; exact (List.getElem?_eq_some_iff.1 hi).1
        exact ⟨_, List.getElem?_eq_getElem this⟩
      obtain ⟨gi', h1, h2⟩ := g3 i q hq
      rw [hi] at h1
      cases h1
      obtain ⟨_, _, vars, hs, _, h5⟩ := openPart_spec h2 (hgood.1 q)
      obtain ⟨_, v, h6, h7, h8⟩ := h5 _ _ hw
      subst h8
      exact ⟨q, vars, v, hs, h7, (getVar_some _ _ _ h6).2, rfl, rfl⟩
    intro i gi hi
    obtain ⟨w, h1, h2⟩ := w2 i gi hi
    obtain ⟨q, vars, v, hs, hv, hvn, hd, ha⟩ := hsrc i gi w hi h2
    refine ⟨w, h1, h2, ?_, ?_⟩
    · obtain ⟨g0, hg0⟩ : ∃ g0, groups[0]? = some g0 := by
        have : i < groups.length := (List.getElem?_eq_some_iff.1 hi).1
        exact ⟨_, List.getElem?_eq_getElem (by omega)⟩
      obtain ⟨w0', k1, k2⟩ := w2 0 g0 hg0
      rw [hw0] at k1
      cases k1
      obtain ⟨q', vars', v'', hs', hv'', hvn', hd', _⟩ := hsrc 0 g0 w0 hg0 k2
      rw [hd, hdims, hd']
      exact hgood.2 q q' vars vars' hs hs' v hv v'' hv'' (by rw [hvn, hvn'])
    · rw [ha]; exact ((hgood.1 q vars hs).2 v hv).1
  obtain ⟨w, hw1, hw2, hw3, hw4⟩ := hall k g hgk
  obtain ⟨g', hg', hopen⟩ := g3 k p hk
  rw [hgk] at hg'
  cases hg'
  obtain ⟨hgc, _, vars, hs, _, h5⟩ := openPart_spec hopen (hgood.1 p)
  obtain ⟨_, v, h6, h7, h8⟩ := h5 _ _ hw2
  have haxw : w.dims[ax]? = some c.dim := by rw [hw3]; exact idxOf?_getElem hax
  have hwn : w.array.shape[ax]? = some n := by
    obtain ⟨m, e1, e2⟩ := hgc.sizes w (getVar_some _ _ _ hw2).1 ax c.dim haxw
    rw [hgn] at e2
    cases e2
    exact e1
  have hsz := sizes_eq (n := v'.name) (dim := c.dim) (ax := ax) w1 (fun i gi hi => by
    obtain ⟨w, e1, e2, e3, _⟩ := hall i gi hi
    exact ⟨w, e1, e2, by rw [e3]; exact idxOf?_getElem hax⟩) g2
  have hszk : ((ws.map (·.array)).take k).filterMap (·.shape[ax]?) =
      (groups.take k).filterMap (·.dims.lookup c.dim) := by
    rw [← List.map_take]
    refine sizes_eq (n := v'.name) (by simp [w1]) (fun i gi hi => ?_)
      fun gi hgi => g2 gi (List.mem_of_mem_take hgi)
    rw [List.getElem?_take] at hi
    split at hi
    · next hik =>
      obtain ⟨w, e1, e2, e3, _⟩ := hall i gi hi
      exact ⟨w, by rw [List.getElem?_take, if_pos hik]; exact e1, e2, by
        rw [e3]; exact idxOf?_getElem hax⟩
    · cases hi
  have hwsok : ∀ b ∈ ws.map (·.array), ArrOk b := by
    intro b hb
    obtain ⟨x, hx, rfl⟩ := List.mem_map.1 hb
    obtain ⟨i, hi⟩ := List.getElem?_of_mem hx
    have : i < groups.length := by rw [← w1]; exact (List.getElem?_eq_some_iff.1 hi).1
    obtain ⟨w', e1, _, _, e4⟩ := hall i groups[i] (List.getElem?_eq_getElem this)
    rw [hi] at e1
    cases e1
    exact e4
  have h0ok : ArrOk w0.array := hwsok _ (List.mem_map_of_mem (List.mem_of_getElem? hw0))
  have hwsax : ∀ b ∈ ws.map (·.array), ax < b.shape.length := by
    intro b hb
    obtain ⟨x, hx, rfl⟩ := List.mem_map.1 hb
    obtain ⟨i, hi⟩ := List.getElem?_of_mem hx
    have : i < groups.length := by rw [← w1]; exact (List.getElem?_eq_some_iff.1 hi).1
    obtain ⟨w', e1, e2, e3, _⟩ := hall i groups[i] (List.getElem?_eq_getElem this)
    rw [hi] at e1
    cases e1
    obtain ⟨m, e4, _⟩ := (g2 _ (List.getElem_mem this)).sizes x (getVar_some _ _ _ e2).1 ax c.dim
      (by rw [e3]; exact idxOf?_getElem hax)
    exact (List.getElem?_eq_some_iff.1 e4).1
  have hind1 : ind.1 = (((ws.map (·.array)).take k).filterMap (·.shape[ax]?)).sum := by
    rw [hszk, hindeq]; simp
  have hind2 : ind.2 = ind.1 + n := by rw [hindeq]
  have hax0 : w0.dims.idxOf? c.dim = some ax := by rw [← hdims]; exact hax
  have hwk : (ws.map (·.array))[k]? = some w.array := by simp [hw1]
  refine ⟨vars, v, n, hs, h6, h7, by rw [← hw3, h8], by rw [h8] at hw4; exact hw4, ?_,
    by rw [h8] at hwn; exact hwn, hind2, ?_⟩
  · rcases hcase ax hax0 with ⟨_, e⟩ | ⟨_, e⟩ | ⟨_, e, _⟩
    · rw [e]; exact h0ok
    · exact concatenate_arrOk hwsok e
    · rw [e]; exact h0ok
  · have hkzero : k = 0 → v'.array = w0.array →
        ((∃ m, v'.array.shape[ax]? = some m ∧ ind.2 ≤ m) ∧
         ∀ idx j, idx[ax]? = some j → j < n →
          v'.array.get (idx.set ax (ind.1 + j)) = v.array.get idx) := by
      intro hk0 he
      subst hk0
      rw [hw0] at hw1
      cases hw1
      have hi0 : ind.1 = 0 := by rw [hind1]; rfl
      refine ⟨⟨n, by rw [he]; exact hwn, by omega⟩, ?_⟩
      intro idx j hj hlt
      rw [hi0, Nat.zero_add, set_self hj, he, h8]
    have hksucc : k ≠ 0 → v'.array = w0.array → ∃ m, v'.array.shape[ax]? = some m ∧ m ≤ ind.1 := by
      intro hk0 he
      cases k with
      | zero => exact absurd rfl hk0
      | succ k =>
        cases ws with
        | nil => simp at hw0
        | cons x t =>
          simp only [List.getElem?_cons_zero, Option.some.injEq] at hw0
          subst hw0
          have := hwsax x.array (by simp)
          refine ⟨x.array.shape[ax], by rw [he]; exact List.getElem?_eq_getElem this, ?_⟩
          rw [hind1]
          simp only [List.map_cons, List.take_succ_cons, List.filterMap_cons,
            List.getElem?_eq_getElem this, List.sum_cons]
          omega
    rcases hcase ax hax0 with ⟨e0, e⟩ | ⟨_, e⟩ | ⟨_, e, _⟩
    · refine .inr (hkzero ?_ e)
      have := (List.getElem?_eq_some_iff.1 hgk).1
      omega
    · refine .inr ?_
      have hshape : v'.array.shape[ax]? = some ((ws.map (·.array)).filterMap (·.shape[ax]?)).sum ∧
          v'.array.get = concatGet ax (ws.map (·.array)) := by
        cases ws with
        | nil => simp at hw0
        | cons x t =>
          simp only [List.map_cons, concatenate] at e
          split at e
          · next hcond =>
            simp only [Except.ok.injEq] at e
            rw [← e]
            refine ⟨?_, rfl⟩
            simp [hcond.1]
          · cases e
      refine ⟨⟨_, hshape.1, ?_⟩, ?_⟩
      · rw [hind2, hind1]
        have hsplit : ws.map (·.array) = (ws.map (·.array)).take k ++ (ws.map (·.array)).drop k :=
          (List.take_append_drop k _).symm
        have hdrop : (ws.map (·.array)).drop k = w.array :: (ws.map (·.array)).drop (k + 1) := by
          rw [List.drop_eq_getElem_cons (List.getElem?_eq_some_iff.1 hwk).1]
          congr 1
          exact (List.getElem?_eq_some_iff.1 hwk).2
        conv => rhs; rw [hsplit, List.filterMap_append, List.sum_append, hdrop]
        simp only [List.filterMap_cons, hwn, List.sum_cons]
        omega
      · intro idx j hj hlt
        rw [hshape.2, hind1, concatGet_append ax _ k w.array hwk hwsax n j hwn hlt idx hj, h8]
    · by_cases hk0 : k = 0
      · exact .inr (hkzero hk0 e)
      · exact .inl (hksucc hk0 e)

/-- Trimming a variable loaded with overlap gives the array of the partition, or an array of
another shape. -/
theorem trim_overlap {c : Cfg P V} {st : Store P V} (hgood : GoodStore st)
    (hnd : c.parts.Nodup) {p : P} {ps : List P} {groups : List (Dataset V)} {zds : Dataset V}
    {ind : Nat × Nat} (hps : window c.parts c.depth p = .ok ps)
    (hgr : mapPy (openPart c.delayed c.sel st) ps = .ok groups)
    (hind : calcSlice c.dim p 0 (0, 0) (groups.zip ps) = .ok ind)
    (hz : joinGroups c.dim groups = .ok zds) {v' : Var V} (hv' : v' ∈ zds.vars) {a : Arr V}
    (ha : trimArray zds c.dim ind v'.name v'.array = .ok a) :
    ∃ vars w, st p = some vars ∧ getVar vars v'.name = some w ∧
      (a.shape = w.array.shape → a = w.array) := by
  obtain ⟨g1, g2, g3⟩ := groups_spec hgr hgood.1
  obtain ⟨hzc, _, _⟩ := joinGroups_var g2 hz
  unfold trimArray at ha
  rw [getVar_of_mem zds.vars hzc.names v' hv'] at ha
  simp only at ha
  cases hax : v'.dims.idxOf? c.dim with
  | none => rw [hax] at ha; cases ha
  | some ax =>
    rw [hax] at ha
    simp only at ha
    obtain ⟨vars, w, n, h1, h2, h3, h4, h5, h6, h7, h8, h9⟩ :=
      overlap_var hgood hnd hps hgr hind hz hv' hax
    obtain ⟨m, e1, e2⟩ := getitem_trim h6 v'.dims.length 0 ax ind (by omega)
      (List.getElem?_eq_some_iff.1 (idxOf?_getElem hax)).1 ha
    rw [Nat.zero_add] at e1 e2
    refine ⟨vars, w, h1, h2, fun hshape => ?_⟩
    have haok : ArrOk a := by
      rw [e2]
      refine takeAxis_arrOk h6 e1 _ fun q hq => ?_
      obtain ⟨x, hx, rfl⟩ := List.mem_map.1 hq
      rw [List.mem_range] at hx
      omega
    have hmlt := (List.getElem?_eq_some_iff.1 e1).1
    have hasz : a.shape[ax]? = some (min ind.2 m - ind.1) := by
      rw [e2]; simp [takeAxis, hmlt]
    have hn : n = min ind.2 m - ind.1 := by
      rw [hshape, h7] at hasz
      simpa using hasz
    refine arr_ext haok h5 hshape fun idx hidx => ?_
    have hlen : ax < idx.length := by
      rw [hidx.1, hshape]; exact (List.getElem?_eq_some_iff.1 h7).1
    have hj := List.getElem?_eq_getElem hlen
    have hjlt : idx[ax] < n := by
      rw [hn]; exact hidx.2 ax _ _ hj hasz
    rcases h9 with ⟨m', hm', hle⟩ | ⟨⟨m', hm', hle⟩, hval⟩
    · rw [e1] at hm'
      cases hm'
      omega
    · rw [← hval idx idx[ax] hj hjlt, e2]
      simp only [takeAxis, hj, Option.bind_some, List.getElem?_map]
      rw [List.getElem?_range (by omega)]
      rfl

end Verif
