import Verif.Lemmas.Variable

/-! The names of the variables of a load, and `fill_attrs`, which raises for the others. -/

namespace Verif

open Spec Nd Ds Upd

variable {D P V H : Type}

theorem filled_ok {names : List String} {r : Py (Option (Dataset V))}
    (h : ∀ zds, r = .ok (some zds) → ∀ v ∈ zds.vars, v.name ∈ names) : filled names r = r := by
  unfold filled
  split
  · rfl
  · rfl
  · next zds =>
    simp only [fillAttrs, bind, Except.bind, if_pos (h zds rfl)]

theorem filled_iff {names : List String} {r : Py (Option (Dataset V))} {z : Dataset V} :
    filled names r = .ok (some z) ↔ r = .ok (some z) ∧ ∀ v ∈ z.vars, v.name ∈ names := by
  unfold filled
  split
  · simp
  · simp
  · next zds =>
    simp only [fillAttrs, bind, Except.bind]
    by_cases hz : ∀ v ∈ zds.vars, v.name ∈ names
    · rw [if_pos hz]
      simp only [Except.ok.injEq, Option.some.injEq]
      constructor
      · rintro rfl
        exact ⟨rfl, hz⟩
      · exact fun h => h.1
    · rw [if_neg hz]
      simp only [Except.ok.injEq, Option.some.injEq, reduceCtorEq, false_iff, not_and]
      rintro rfl
      exact hz

theorem mk_names {vars : List (Var V)} {attrs : List (String × String)}
    {chunks : List (String × Nat)} {limit : Nat} {del : Option Bool} {ds : Dataset V}
    (h : mk vars attrs chunks limit del = .ok ds) (v : Var V) (hv : v ∈ ds.vars) : v ∈ vars := by
  rw [(mk_spec _ _ _ _ _ _ h).2.1] at hv
  rcases foldl_setVar_mem _ _ _ hv with h1 | h1
  · exact h1
  · cases h1

theorem isel_names {ds r : Dataset V} {slices : List (String × Ix)} (h : isel ds slices = .ok r)
    (v : Var V) (hv : v ∈ r.vars) : ∃ u ∈ ds.vars, u.name = v.name := by
  unfold isel at h
  split at h
  · cases h
  · simp only [bind, Except.bind] at h
    split at h
    · cases h
    · next vars hvars =>
      obtain ⟨u, hu, hue⟩ := mapPy_mem _ _ _ hvars v (mk_names h v hv)
      refine ⟨u, hu, ?_⟩
      simp only [Var.isel, bind, Except.bind] at hue
      split at hue
      · cases hue
      · cases hue
        rfl

theorem openGroup_selected {del : Bool} {l : List String} {vars : List (Var V)} {g : Dataset V}
    (h : openGroup del (some l) vars = .ok g) (w : Var V) (hw : w ∈ g.vars) : w.name ∈ l := by
  unfold openGroup at h
  obtain ⟨v, hv, rfl⟩ := List.mem_map.1 (mk_names h w hw)
  have := (List.mem_filter.1 hv).2
  simpa using this

theorem openArray_name {del : Bool} {part : Option (Vw.Part V H)} {n : String} {v : Var V}
    (h : Vw.openArray del part n = .ok v) : v.name = n := by
  unfold Vw.openArray at h
  split at h
  · cases h
  · simp only [bind, Except.bind, getVarE] at h
    split at h
    · cases h
    · next w hw =>
      cases h
      split at hw
      · cases hw
      · next x hx =>
        cases hw
        exact (getVar_some _ _ _ hx).2

theorem addArrays_names (l : List (Var V)) {z r : Dataset V} (h : Vw.addArrays z l = .ok r)
    (v : Var V) (hv : v ∈ r.vars) : (∃ u ∈ z.vars, u.name = v.name) ∨ ∃ u ∈ l, u.name = v.name := by
  induction l generalizing z with
  | nil => cases h; exact .inl ⟨v, hv, rfl⟩
  | cons x t ih =>
    simp only [Vw.addArrays, bind, Except.bind] at h
    split at h
    · cases h
    · next z' hz =>
      rcases ih h with ⟨u, hu, e⟩ | ⟨u, hu, e⟩
      · unfold Vw.addArray at hz
        split at hz
        · next z2 hz2 =>
          cases hz
          simp only [Ds.addVariable] at hz2
          split at hz2
          · cases hz2
          · split at hz2
            · cases hz2
            · cases hz2
              rcases setVar_mem _ _ _ hu with rfl | h1
              · exact .inr ⟨x, List.mem_cons_self .., e⟩
              · exact .inl ⟨u, h1, e⟩
        · cases hz
      · exact .inr ⟨u, List.mem_cons_of_mem _ hu, e⟩

theorem loadOne_names {e : Vw.Env D V H} {del : Bool} {refSel names : List String}
    {ref cur : Option (Vw.Part V H)} {slices : List (Nat × Nat)} {z : Dataset V}
    (h : Vw.loadOne e del refSel names ref cur slices = .ok z) (v : Var V) (hv : v ∈ z.vars) :
    v.name ∈ refSel ∨ v.name ∈ names := by
  unfold Vw.loadOne at h
  split at h
  · cases h
  · simp only [bind, Except.bind] at h
    split at h
    · cases h
    · next z0 hz0 =>
      split at h
      · split at h
        · cases h
        · next vars hvars =>
          obtain ⟨n, hn, hne⟩ := mapPy_mem _ _ _ hvars v (mk_names h v hv)
          exact .inr (openArray_name hne ▸ hn)
      · split at h
        · cases h
        · next vars hvars =>
          split at h
          · cases h
          · next z1 hz1 =>
            have key : ∀ v ∈ z1.vars, v.name ∈ refSel ∨ v.name ∈ names := by
              intro v hv
              rcases addArrays_names _ hz1 v hv with ⟨u, hu, e⟩ | ⟨u, hu, e⟩
              · exact .inl (e ▸ openGroup_selected hz0 u hu)
              · obtain ⟨n, hn, hne⟩ := mapPy_mem _ _ _ hvars u hu
                exact .inr (e ▸ openArray_name hne ▸ hn)
            split at h
            · cases h
              exact key v hv
            · split at h
              · cases h
              · next l hl =>
                obtain ⟨g, hg, u, hu, e, _⟩ := joinGroups_fill h v hv
                obtain ⟨s, _, hs⟩ := mapPy_mem _ _ _ hl g (List.mem_of_getElem? hg)
                obtain ⟨x, hx, e'⟩ := isel_names hs u hu
                rw [← e, ← e']
                exact key x hx

theorem selectNames_sub {metas : List (VarMeta V)} {sel : Option (List String)} {n : String}
    (h : n ∈ Vw.selectNames metas sel) : n ∈ metas.map (·.name) :=
  (List.mem_filter.1 h).1

variable [DecidableEq P]

/-- The variables of a load of a view are variables of the reference or of the view. -/
theorem loadBare_names {e : Vw.Env D V H} {le : P → P → Bool} {listing : List P} {del : Bool}
    {filters : P → Bool} {indexer : Option (List (P × (Nat × Nat)))} {sel : Option (List String)}
    {st : Vw.State D P V H} {z : Dataset V}
    (h : Vw.loadBare e le listing del filters indexer sel st = .ok (some z)) (v : Var V)
    (hv : v ∈ z.vars) : v.name ∈ (e.refMeta ++ st.metas).map (·.name) := by
  unfold Vw.loadBare at h
  split at h
  · cases h
  · simp only at h
    split at h
    · cases h
    · cases h
    · next zds rest hmap =>
      simp only [bind, Except.bind] at h
      split at h
      · cases h
      · next z' hz =>
        cases h
        obtain ⟨g, hg, u, hu, e', _⟩ := joinGroups_fill hz v hv
        obtain ⟨x, _, hx⟩ := mapPy_mem _ _ _ hmap g (List.mem_of_getElem? hg)
        rw [← e', List.map_append, List.mem_append]
        rcases loadOne_names hx u hu with h1 | h1
        · exact .inl (selectNames_sub h1)
        · exact .inr (selectNames_sub h1)

/-- `fill_attrs` does not raise in a load of a view. -/
theorem view_load_eq (e : Vw.Env D V H) (le : P → P → Bool) (listing : List P) (del : Bool)
    (filters : P → Bool) (indexer : Option (List (P × (Nat × Nat)))) (sel : Option (List String))
    (st : Vw.State D P V H) :
    Vw.load e le listing del filters indexer sel st =
      Vw.loadBare e le listing del filters indexer sel st :=
  filled_ok fun _ hz v hv => loadBare_names hz v hv

end Verif
