import Verif.Lemmas.PipelineInsert
import Verif.Lemmas.OverlapLoad

/-! Conditions under which a dataset is inserted. -/

namespace Verif

open Spec Nd Ds Sch Pipe

variable {P V : Type} [DecidableEq P]

omit [DecidableEq P]

/-- `delayed` is that of the variables when it is not given. -/
theorem mk_none_ok {vars : List (Var V)} {b : Bool} (hne : vars ≠ [])
    (hk : ∀ v ∈ vars, v.delayed = b) (hn : (vars.map (·.name)).Nodup)
    (attrs : List (String × String)) (chunks : List (String × Nat)) (limit : Nat) :
    mk vars attrs chunks limit none = mk vars attrs chunks limit (some b) := by
  have hfold : vars.foldl setVar [] = vars := by
    have := foldl_setVar_id vars [] (by simpa using hn)
    simpa using this
  simp only [mk, hfold]
  cases vars with
  | nil => exact absurd rfl hne
  | cons v t =>
    have hv := hk v List.mem_cons_self
    subst hv
    simp only [updateDims, bind, Except.bind, ne_eq, not_true_eq_false, if_false]

theorem keyVars_ok {zds : Dataset V} (hn : (zds.vars.map (·.name)).Nodup) (l : List String)
    (h : ∀ name ∈ l, ∃ v ∈ zds.vars, v.name = name ∧ v.array.shape.length = 1) :
    ∃ vs, keyVars zds l = .ok vs := by
  induction l with
  | nil => exact ⟨[], rfl⟩
  | cons a t ih =>
    obtain ⟨vs, hvs⟩ := ih fun name hname => h name (List.mem_cons_of_mem _ hname)
    obtain ⟨v, h1, h2, h3⟩ := h a List.mem_cons_self
    have hg := getVar_of_mem _ hn v h1
    rw [h2] at hg
    refine ⟨v :: vs, ?_⟩
    simp [keyVars, getVarE, hg, Split.checkDims, h3, hvs, bind, Except.bind]

theorem splitDataset_ok {sc : Scheme V} (hsc : GoodScheme sc) {zds : Dataset V}
    (hn : (zds.vars.map (·.name)).Nodup) (hok : ∀ v ∈ zds.vars, ArrOk v.array)
    (hne : sc.variables ≠ []) {n : Nat} (hpos : 0 < n)
    (hkeys : ∀ name ∈ sc.variables, ∃ v ∈ zds.vars, v.name = name ∧ v.array.shape = [n] ∧
      ∀ i x, v.array.get [i] = some x → (sc.asKey x).isSome)
    (hm : KeysMonotone sc zds.vars) :
    ∃ ps, splitDataset sc zds = .ok ps ∧ ps ≠ [] := by
  obtain ⟨vs, hvs⟩ := keyVars_ok hn sc.variables fun name hname => by
    obtain ⟨v, h1, h2, h3, _⟩ := hkeys name hname
    exact ⟨v, h1, h2, by rw [h3]; rfl⟩
  obtain ⟨v1, v2⟩ := keyVars_spec _ _ hvs
  have hcol : ∀ (j : Nat) (name : String), sc.variables[j]? = some name → ∃ v, vs[j]? = some v ∧
      v ∈ zds.vars ∧ v.name = name ∧ (column v.array).length = n ∧
      (∀ i, (column v.array)[i]? = v.array.get [i]) ∧
      ∃ ks, keysOf sc (column v.array) = .ok ks ∧ ks.length = n ∧
        ∀ i : Nat, ks[i]? = (column v.array)[i]?.bind sc.asKey := by
    intro j name hj
    obtain ⟨v, h1, h2, h3, _⟩ := v2 j name hj
    obtain ⟨u, u1, u2, u3, u4⟩ := hkeys name (List.mem_of_getElem? hj)
    have g1 := getVar_of_mem _ hn v h2
    have g2 := getVar_of_mem _ hn u u1
    rw [h3] at g1
    rw [u2, g1] at g2
    cases g2
    obtain ⟨c1, c2⟩ := column_spec (hok v h2) u3
    obtain ⟨ks, hks⟩ := mapPy_exists (fun x : V => (match sc.asKey x with
        | none => .error .typeError
        | some k => .ok k : Py Int)) (column v.array) (by
      intro x hx
      obtain ⟨i, hi⟩ := List.getElem?_of_mem hx
      rw [c2 i] at hi
      obtain ⟨k, hk⟩ := Option.isSome_iff_exists.1 (u4 i x hi)
      exact ⟨k, by rw [hk]⟩)
    have hks : keysOf sc (column v.array) = .ok ks := hks
    obtain ⟨k1, k2⟩ := keysOf_spec hks
    refine ⟨v, h1, h2, h3, c1, c2, ks, hks, by rw [k1, c1], fun i => ?_⟩
    cases hx : (column v.array)[i]? with
    | none =>
      rw [List.getElem?_eq_none_iff] at hx
      rw [List.getElem?_eq_none (by rw [k1]; exact hx)]
      rfl
    | some x => exact (k2 i x hx).symm
  have hsorted : ∀ rows : List (List Int),
      (∀ i row, rows[i]? = some row → KeyAt sc zds.vars i row) → Verif.KeysSorted rows := by
    intro rows hrow
    rw [Verif.KeysSorted, List.pairwise_iff_getElem]
    intro i j hi hj hij
    exact hm i j _ _ hij (hrow i _ (List.getElem?_eq_getElem hi))
      (hrow j _ (List.getElem?_eq_getElem hj))
  have hchain : ∀ {κ : Type} (ps : List (κ × (Nat × Nat))), Chain 0 n (ps.map (·.2)) → ps ≠ [] := by
    rintro κ ps h rfl
    simp only [List.map_nil, Chain] at h
    omega
  simp only [splitDataset, bind, Except.bind, hvs]
  cases hdate : sc.date with
  | true =>
    obtain ⟨name, hvar⟩ := List.length_eq_one_iff.1 (hsc hdate)
    obtain ⟨v, c1, c2, c3, c4, c5, ks, c6, c7, c8⟩ := hcol 0 name (by rw [hvar]; rfl)
    cases vs with
    | nil => simp at c1
    | cons v' t =>
      simp only [List.getElem?_cons_zero, Option.some.injEq] at c1
      subst c1
      have hs : Verif.KeysSorted ks := by
        have := hsorted (ks.map fun k => [k]) (by
          intro i row hr
          rw [List.getElem?_map] at hr
          cases hki : ks[i]? with
          | none => rw [hki] at hr; cases hr
          | some k =>
            rw [hki] at hr
            cases hr
            refine ⟨by rw [hvar]; rfl, ?_⟩
            intro j nm hj
            rw [hvar] at hj
            cases j with
            | zero =>
              simp only [List.getElem?_cons_zero, Option.some.injEq] at hj
              subst hj
              rw [c8 i] at hki
              cases hx : (column v'.array)[i]? with
              | none => rw [hx] at hki; cases hki
              | some x =>
                rw [hx] at hki
                exact ⟨v', c2, c3, x, by rw [← c5 i]; exact hx, hki⟩
            | succ j => simp at hj)
        rw [Verif.KeysSorted, List.pairwise_map] at this
        refine this.imp fun {a b} hab => ?_
        rcases Int.lt_or_le b a with hlt | hle
        · exact absurd (List.cons_lt_cons_iff.2 (.inl hlt)) (List.not_lt.2 hab)
        · exact hle
      obtain ⟨pieces, hp⟩ := C11_sorted_accepted_dates ks zds.delayed
        (by intro he; rw [he] at c7; simp at c7; omega) hs
      have hc := C09_cover_dates ks zds.delayed pieces hp
      rw [c7] at hc
      refine ⟨pieces.map fun p => ([p.1], p.2), ?_, ?_⟩
      · simp [splitDate, c6, Split.dateSplit, hp, bind, Except.bind]
      · intro he
        exact hchain pieces hc (List.map_eq_nil_iff.1 he)
  | false =>
    obtain ⟨cols, hcols⟩ := mapPy_exists (keysOf sc) (vs.map fun v => column v.array) (by
      intro c hc
      obtain ⟨v, hv, rfl⟩ := List.mem_map.1 hc
      obtain ⟨j, hj⟩ := List.getElem?_of_mem hv
      have hl := (List.getElem?_eq_some_iff.1 hj).1
      rw [v1] at hl
      obtain ⟨u, e1, _, _, _, _, ks, e2, _⟩ := hcol j _ (List.getElem?_eq_getElem hl)
      rw [hj] at e1
      cases e1
      exact ⟨ks, e2⟩)
    obtain ⟨m1, m2⟩ := mapPy_spec _ _ _ hcols
    have hcl : cols.length = sc.variables.length := by rw [m1, List.length_map, v1]
    have hmap : (sc.variables.zip cols).map (·.2) = cols := by
      rw [List.map_snd_zip]
      omega
    have hcj : ∀ (j : Nat) (c : List Int), cols[j]? = some c → ∃ v name,
        sc.variables[j]? = some name ∧ v ∈ zds.vars ∧ v.name = name ∧ c.length = n ∧
        ∀ i : Nat, c[i]? = (v.array.get [i]).bind sc.asKey := by
      intro j c hj
      have hl := (List.getElem?_eq_some_iff.1 hj).1
      rw [hcl] at hl
      obtain ⟨v, e1, e2, e3, e4, e5, ks, e6, e7, e8⟩ := hcol j _ (List.getElem?_eq_getElem hl)
      obtain ⟨c', f1, f2⟩ := m2 j (column v.array) (by rw [List.getElem?_map, e1]; rfl)
      rw [hj] at f1
      cases f1
      rw [e6] at f2
      cases f2
      exact ⟨v, _, List.getElem?_eq_getElem hl, e2, e3, e7, fun i => by rw [e8 i, e5 i]⟩
    have hlen : ∀ c ∈ cols, c.length = n := by
      intro c hc
      obtain ⟨j, hj⟩ := List.getElem?_of_mem hc
      obtain ⟨_, _, _, _, _, h, _⟩ := hcj j c hj
      exact h
    obtain ⟨m, hv⟩ : ∃ m, Split.vstackT cols = .ok m := by
      cases hcs : cols with
      | nil =>
        rw [hcs] at hcl
        exact absurd (List.length_eq_zero_iff.1 hcl.symm) hne
      | cons c cs =>
        rw [hcs] at hlen
        simp only [Split.vstackT]
        rw [if_pos (by
          rw [List.all_eq_true]
          intro d hd
          rw [decide_eq_true_eq, hlen d (List.mem_cons_of_mem _ hd),
            hlen c List.mem_cons_self])]
        exact ⟨_, rfl⟩
    obtain ⟨t1, t2, t3⟩ := vstackT_spec _ _ hv
    have hml : m.length = n := by
      cases hcs : cols with
      | nil =>
        rw [hcs] at hcl
        exact absurd (List.length_eq_zero_iff.1 hcl.symm) hne
      | cons c cs =>
        rw [← t1 c (by rw [hcs]; exact List.mem_cons_self)]
        exact hlen c (by rw [hcs]; exact List.mem_cons_self)
    have hrow : ∀ i row, m[i]? = some row → KeyAt sc zds.vars i row := by
      intro i row hr
      have hi := (List.getElem?_eq_some_iff.1 hr).1
      have hrl := t2 row (List.mem_of_getElem? hr)
      refine ⟨by rw [hrl, hcl], ?_⟩
      intro j name hj
      have hl := (List.getElem?_eq_some_iff.1 hj).1
      rw [← hcl] at hl
      have hc := List.getElem?_eq_getElem hl
      obtain ⟨v, nm, f1, f2, f3, f4, f5⟩ := hcj j _ hc
      rw [hj] at f1
      cases f1
      have h3 := t3 i j _ hi hc
      rw [hr, Option.bind_some, f5 i] at h3
      have hjr : j < row.length := by rw [hrl]; exact hl
      cases hx : v.array.get [i] with
      | none =>
        rw [hx, List.getElem?_eq_getElem hjr] at h3
        cases h3
      | some x =>
        rw [hx] at h3
        exact ⟨v, f2, f3, x, hx, h3.symm⟩
    obtain ⟨pieces, hp⟩ := C11_sorted_accepted_rows m zds.delayed
      (by intro he; rw [he] at hml; simp at hml; omega) (hsorted m hrow)
    have hc := C09_cover_rows m zds.delayed pieces hp
    rw [hml] at hc
    refine ⟨pieces.map fun p => ((sc.variables.zip p.1).map (·.2), p.2), ?_, ?_⟩
    · have hfst : (sc.variables.zip cols).map (·.1) = sc.variables := by
        rw [List.map_fst_zip]
        omega
      simp [splitSequence, hcols, Split.sequenceSplit, hmap, hv, hp, hfst, bind, Except.bind,
        pure, Except.pure]
    · intro he
      exact hchain pieces hc (List.map_eq_nil_iff.1 he)

theorem selectByDims_ok {ds : Dataset V} (hc : Consistent ds) (d : String) (b : Bool)
    (hne : (ds.vars.filter fun v => decide (d ∈ v.dims) == b) ≠ []) :
    ∃ ds', selectByDims ds [d] b = .ok ds' := by
  have hf : (ds.vars.filter fun v : Var V =>
      if [d] = [] then v.dims.isEmpty == b else (v.dims.any fun x => decide (x ∈ [d])) == b) =
      ds.vars.filter fun v => decide (d ∈ v.dims) == b := by
    apply List.filter_congr
    intro v _
    rw [if_neg (by simp)]
    congr 1
    rw [Bool.eq_iff_iff]
    simp
  simp only [selectByDims, derive, hf]
  rw [mk_none_ok hne (fun v hv => hc.kind v (List.mem_filter.1 hv).1)
    ((List.Sublist.map _ List.filter_sublist).nodup hc.names)]
  obtain ⟨dims, h, _⟩ := mk_ok (ds.vars.filter fun v => decide (d ∈ v.dims) == b) ds.attrs ds.chunks
    ds.limit ds.delayed ds.dims ((List.Sublist.map _ List.filter_sublist).nodup hc.names)
    (fun v hv => hc.kind v (List.mem_filter.1 hv).1)
    (fun v hv => hc.sizes v (List.mem_filter.1 hv).1)
  exact ⟨_, h⟩

end Verif
