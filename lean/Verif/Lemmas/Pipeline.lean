import Verif.Spec.Pipeline
import Verif.Lemmas.SchemaInsert
import Verif.Lemmas.DatasetOps
import Verif.Props.Split
import Verif.Props.Collection

/-! The split of a dataset. -/

namespace Verif

open Spec Nd Ds Pipe

variable {V : Type}

theorem keyVars_spec {zds : Dataset V} (l : List String) (vs : List (Var V))
    (h : keyVars zds l = .ok vs) : vs.length = l.length ∧
      ∀ (j : Nat) (n : String), l[j]? = some n → ∃ v, vs[j]? = some v ∧ v ∈ zds.vars ∧
        v.name = n ∧ v.array.shape.length = 1 := by
  induction l generalizing vs with
  | nil => simp only [keyVars] at h; cases h; simp
  | cons a t ih =>
    simp only [keyVars, bind, Except.bind, getVarE] at h
    cases hg : getVar zds.vars a with
    | none => rw [hg] at h; cases h
    | some v =>
      rw [hg] at h
      simp only [Split.checkDims, List.all_cons, List.all_nil, Bool.and_true,
        decide_eq_true_eq] at h
      split at h
      · cases h
      · next hd =>
        split at hd
        · next h1 =>
          split at h
          · cases h
          · next ws hws =>
            cases h
            obtain ⟨i1, i2⟩ := ih ws hws
            refine ⟨by simp [i1], ?_⟩
            intro j n hj
            cases j with
            | zero =>
              simp only [List.getElem?_cons_zero, Option.some.injEq] at hj
              subst hj
              obtain ⟨g1, g2⟩ := getVar_some _ _ _ hg
              exact ⟨v, rfl, g1, g2, h1⟩
            | succ j => simpa using i2 j n (by simpa using hj)
        · cases hd

theorem inside_one (n i : Nat) : Inside [n] [i] ↔ i < n := by
  constructor
  · rintro ⟨_, h⟩
    exact h 0 i n rfl rfl
  · intro h
    refine ⟨rfl, fun k x m hx hm => ?_⟩
    cases k with
    | zero =>
      simp only [List.getElem?_cons_zero, Option.some.injEq] at hx hm
      omega
    | succ k => simp at hx

theorem column_spec {a : Arr V} (ha : ArrOk a) {n : Nat} (hs : a.shape = [n]) :
    (column a).length = n ∧ ∀ i, (column a)[i]? = a.get [i] := by
  have hval : ∀ i, i < n → ∃ x, a.get [i] = some x := fun i hi =>
    (ha [i]).2 (by rw [hs]; exact (inside_one n i).2 hi)
  have hnone : ∀ i, n ≤ i → a.get [i] = none := by
    intro i hi
    cases hg : a.get [i] with
    | none => rfl
    | some x =>
      have := (ha [i]).1 ⟨x, hg⟩
      rw [hs] at this
      have := (inside_one n i).1 this
      omega
  have key : ∀ m, m ≤ n → ((List.range m).filterMap fun i => a.get [i]).length = m ∧
      ∀ i, i < m → ((List.range m).filterMap fun i => a.get [i])[i]? = a.get [i] := by
    intro m
    induction m with
    | zero => simp
    | succ m ih =>
      intro hm
      obtain ⟨i1, i2⟩ := ih (by omega)
      obtain ⟨x, hx⟩ := hval m (by omega)
      rw [List.range_succ, List.filterMap_append]
      simp only [List.filterMap_cons, hx, List.filterMap_nil, List.length_append, i1,
        List.length_singleton, true_and]
      intro i hi
      by_cases he : i < m
      · rw [List.getElem?_append_left (by rw [i1]; exact he)]
        exact i2 i he
      · have : i = m := by omega
        subst this
        rw [List.getElem?_append_right (by rw [i1]; omega), i1, hx]
        simp
  have hc : column a = (List.range n).filterMap fun i => a.get [i] := by
    unfold column
    rw [hs]
  rw [hc]
  obtain ⟨k1, k2⟩ := key n (Nat.le_refl n)
  refine ⟨k1, fun i => ?_⟩
  by_cases hi : i < n
  · exact k2 i hi
  · rw [hnone i (by omega), List.getElem?_eq_none (by rw [k1]; omega)]

theorem keysOf_spec {sc : Scheme V} {l : List V} {ks : List Int} (h : keysOf sc l = .ok ks) :
    ks.length = l.length ∧ ∀ (i : Nat) (x : V), l[i]? = some x → sc.asKey x = ks[i]? := by
  obtain ⟨h1, h2⟩ := mapPy_spec _ _ _ h
  refine ⟨h1, fun i x hx => ?_⟩
  obtain ⟨k, hk, he⟩ := h2 i x hx
  rw [hk]
  split at he
  · cases he
  · next k' hk' => cases he; exact hk'

/-- The key of a record is determined by the dataset. -/
theorem keyAt_unique {sc : Scheme V} {vars : List (Var V)} (hn : (vars.map (·.name)).Nodup)
    {i : Nat} {k l : List Int} (hk : KeyAt sc vars i k) (hl : KeyAt sc vars i l) : k = l := by
  apply List.ext_getElem?
  intro j
  cases hj : sc.variables[j]? with
  | none =>
    have : sc.variables.length ≤ j := by simpa using hj
    rw [List.getElem?_eq_none (by rw [hk.1]; exact this),
      List.getElem?_eq_none (by rw [hl.1]; exact this)]
  | some name =>
    obtain ⟨v, hv, e1, x, gx, kx⟩ := hk.2 j name hj
    obtain ⟨w, hw, e2, y, gy, ky⟩ := hl.2 j name hj
    have h1 := getVar_of_mem vars hn v hv
    have h2 := getVar_of_mem vars hn w hw
    rw [e1] at h1
    rw [e2, h1] at h2
    cases h2
    rw [gx] at gy
    cases gy
    rw [← kx, ← ky]

/-- The pieces of an accepted split. -/
theorem splitDataset_spec {sc : Scheme V} (hsc : GoodScheme sc) {zds : Dataset V}
    (hok : ∀ v ∈ zds.vars, ArrOk v.array)
    {ps : List (List Int × (Nat × Nat))} (h : splitDataset sc zds = .ok ps)
    (hs : zds.delayed = true ∨ KeysMonotone sc zds.vars) :
    sc.variables ≠ [] ∧ ∃ n, (∀ name ∈ sc.variables, ∃ v ∈ zds.vars, v.name = name ∧ v.array.shape = [n]) ∧
      Chain 0 n (ps.map (·.2)) ∧ (ps.map (·.1)).Pairwise (· < ·) ∧
      ∀ p ∈ ps, ∀ i, p.2.1 ≤ i → i < p.2.2 → KeyAt sc zds.vars i p.1 := by
  simp only [splitDataset, bind, Except.bind] at h
  cases hk : keyVars zds sc.variables with
  | error e => rw [hk] at h; cases h
  | ok vs =>
    rw [hk] at h
    simp only at h
    obtain ⟨v1, v2⟩ := keyVars_spec _ _ hk
    -- the columns
    have hcol : ∀ (j : Nat) (name : String), sc.variables[j]? = some name → ∃ v n, vs[j]? = some v ∧
        v ∈ zds.vars ∧ v.name = name ∧ v.array.shape = [n] ∧ (column v.array).length = n ∧
        ∀ i, (column v.array)[i]? = v.array.get [i] := by
      intro j name hj
      obtain ⟨v, h1, h2, h3, h4⟩ := v2 j name hj
      obtain ⟨n, hn⟩ := List.length_eq_one_iff.1 h4
      obtain ⟨c1, c2⟩ := column_spec (hok v h2) hn
      exact ⟨v, n, h1, h2, h3, hn, c1, c2⟩
    -- from the rows of keys
    have key : ∀ rows : List (List Int), sc.variables ≠ [] →
        (∀ (j : Nat) (name : String) (v : Var V), sc.variables[j]? = some name → vs[j]? = some v →
          (column v.array).length = rows.length) →
        (∀ i row, rows[i]? = some row → KeyAt sc zds.vars i row) →
        Chain 0 rows.length (ps.map (·.2)) ∧ (ps.map (·.1)).Pairwise (· < ·) ∧
          KeysCorrect rows ps → 
        sc.variables ≠ [] ∧ ∃ n, (∀ name ∈ sc.variables, ∃ v ∈ zds.vars, v.name = name ∧ v.array.shape = [n]) ∧
        Chain 0 n (ps.map (·.2)) ∧ (ps.map (·.1)).Pairwise (· < ·) ∧
        ∀ p ∈ ps, ∀ i, p.2.1 ≤ i → i < p.2.2 → KeyAt sc zds.vars i p.1 := by
      intro rows hne hlen hrow ⟨r1, r2, r3⟩
      refine ⟨hne, rows.length, ?_, r1, r2, ?_⟩
      · intro name hname
        obtain ⟨j, hj⟩ := List.getElem?_of_mem hname
        obtain ⟨v, n, h1, h2, h3, h4, h5, _⟩ := hcol j name hj
        refine ⟨v, h2, h3, ?_⟩
        rw [h4, ← h5, hlen j name v hj h1]
      · intro p hp i h1 h2
        exact hrow i p.1 (r3 p hp i h1 h2)
    have hmono : ∀ rows : List (List Int),
        (∀ i row, rows[i]? = some row → KeyAt sc zds.vars i row) →
        (zds.delayed = true ∨ Verif.KeysSorted rows) := by
      intro rows hrow
      refine hs.imp_right fun hm => ?_
      rw [Verif.KeysSorted, List.pairwise_iff_getElem]
      intro i j hi hj hij
      exact hm i j _ _ hij (hrow i _ (List.getElem?_eq_getElem hi))
        (hrow j _ (List.getElem?_eq_getElem hj))
    split at h
    · next hdate =>
      have h1 := hsc hdate
      obtain ⟨name, hvar⟩ := List.length_eq_one_iff.1 h1
      obtain ⟨v, n, c1, c2, c3, c4, c5, c6⟩ := hcol 0 name (by rw [hvar]; rfl)
      cases vs with
      | nil => simp at c1
      | cons v' t =>
        simp only [List.getElem?_cons_zero, Option.some.injEq] at c1
        subst c1
        simp only [List.map_cons, splitDate, bind, Except.bind] at h
        cases hko : keysOf sc (column v'.array) with
        | error e => rw [hko] at h; cases h
        | ok ks =>
          rw [hko] at h
          obtain ⟨k1, k2⟩ := keysOf_spec hko
          simp only [Split.dateSplit, Bool.not_true, Bool.false_eq_true, if_false, List.map_id,
            bind, Except.bind] at h
          cases hsp : Split.splitDates ks zds.delayed with
          | error e => rw [hsp] at h; cases h
          | ok pieces =>
            rw [hsp] at h
            cases h
            have hrow : ∀ i row, (ks.map fun k => [k])[i]? = some row →
                KeyAt sc zds.vars i row := by
              intro i row hr
              rw [List.getElem?_map] at hr
              cases hki : ks[i]? with
              | none => rw [hki] at hr; cases hr
              | some k =>
                rw [hki] at hr
                cases hr
                refine ⟨by rw [hvar]; rfl, ?_⟩
                intro j nm hj
                rw [hvar] at hj
                cases j with
                | zero =>
                  simp only [List.getElem?_cons_zero, Option.some.injEq] at hj
                  subst hj
                  have hi : i < (column v'.array).length := by
                    rw [← k1]
                    exact (List.getElem?_eq_some_iff.1 hki).1
                  have hx := List.getElem?_eq_getElem hi
                  refine ⟨v', c2, c3, _, (c6 i) ▸ hx, ?_⟩
                  rw [k2 i _ hx, hki]
                  rfl
                | succ j => simp at hj
            refine key (ks.map fun k => [k]) (by rw [hvar]; simp) ?_ hrow ?_
            · intro j nm w hj hw
              rw [hvar] at hj
              cases j with
              | zero =>
                simp only [List.getElem?_cons_zero, Option.some.injEq] at hw
                subst hw
                rw [List.length_map, k1]
              | succ j => simp at hj
            · have hsort : zds.delayed = true ∨ Verif.KeysSorted ks := by
                refine (hmono _ hrow).imp_right fun hm => ?_
                rw [Verif.KeysSorted, List.pairwise_map] at hm
                refine hm.imp fun {a b} hab => ?_
                rcases Int.lt_or_le b a with hlt | hle
                · exact absurd (List.cons_lt_cons_iff.2 (.inl hlt)) (List.not_lt.2 hab)
                · exact hle
              have d1 := C09_cover_dates ks zds.delayed pieces hsp
              have d2 := C11_keys_increasing_dates ks zds.delayed pieces hsp
              have d3 := C10_dates_partial ks zds.delayed pieces hsp hsort
              refine ⟨?_, ?_, ?_⟩
              · simpa [List.map_map, Function.comp_def] using d1
              · rw [List.map_map]
                rw [List.pairwise_map] at d2 ⊢
                exact d2.imp fun {a b} hab => List.cons_lt_cons_iff.2 (.inl hab)
              · intro p hp i hp1 hp2
                obtain ⟨q, hq, rfl⟩ := List.mem_map.1 hp
                rw [List.getElem?_map, d3 q hq i hp1 hp2]
                rfl
    · next hdate =>
      unfold splitSequence at h
      split at h
      · next cols hcols =>
        obtain ⟨m1, m2⟩ := mapPy_spec _ _ _ hcols
        have hcl : cols.length = sc.variables.length := by rw [m1, List.length_map, v1]
        have hmap : (sc.variables.zip cols).map (·.2) = cols := by
          rw [List.map_snd_zip]
          omega
        simp only [bind, Except.bind, Split.sequenceSplit, Bool.not_true, Bool.false_eq_true,
          if_false, pure, Except.pure, hmap] at h
        cases hv : Split.vstackT cols with
        | error e => rw [hv] at h; cases h
        | ok m =>
          rw [hv] at h
          simp only at h
          cases hsp : Split.splitRows m zds.delayed with
          | error e => rw [hsp] at h; cases h
          | ok pieces =>
            rw [hsp] at h
            cases h
            obtain ⟨t1, t2, t3⟩ := vstackT_spec _ _ hv
            have hne : sc.variables ≠ [] := by
              intro he
              rw [he] at hcl
              have : cols = [] := List.length_eq_zero_iff.1 hcl
              rw [this] at hv
              cases hv
            have hcj : ∀ (j : Nat) (v : Var V), vs[j]? = some v → ∃ c, cols[j]? = some c ∧
                keysOf sc (column v.array) = .ok c := by
              intro j v hj
              exact m2 j _ (by rw [List.getElem?_map, hj]; rfl)
            have hrow : ∀ i row, m[i]? = some row → KeyAt sc zds.vars i row := by
              intro i row hr
              have hi := (List.getElem?_eq_some_iff.1 hr).1
              refine ⟨by rw [t2 row (List.mem_of_getElem? hr), hcl], ?_⟩
              intro j name hj
              obtain ⟨v, n, g1, g2, g3, g4, g5, g6⟩ := hcol j name hj
              obtain ⟨c, hc, hkc⟩ := hcj j v g1
              obtain ⟨k1, k2⟩ := keysOf_spec hkc
              have h3 := t3 i j c hi hc
              rw [hr] at h3
              simp only [Option.bind_some] at h3
              have hic : i < (column v.array).length := by
                rw [← k1, t1 c (List.mem_of_getElem? hc)]
                exact hi
              have hx := List.getElem?_eq_getElem hic
              exact ⟨v, g2, g3, _, (g6 i) ▸ hx, by rw [k2 i _ hx, h3]⟩
            have hsort := hmono m hrow
            obtain ⟨_, d2, _⟩ := split_spec zds.delayed m m rfl hsort pieces hsp
            have d1 := C09_cover_rows m zds.delayed pieces hsp
            have d3 := C10_rows_partial m zds.delayed pieces hsp hsort
            have hpos : ∀ p ∈ pieces, p.2.1 < p.2.2 := by
              have : ∀ (l : List (Nat × Nat)) (a : Nat), Chain a m.length l → ∀ r ∈ l,
                  r.1 < r.2 := by
                intro l
                induction l with
                | nil => simp
                | cons r l ih =>
                  intro a ha r' hr'
                  obtain ⟨_, h1, h2⟩ := ha
                  rcases List.mem_cons.1 hr' with rfl | hr'
                  · exact h1
                  · exact ih _ h2 r' hr'
              intro p hp
              exact this _ 0 d1 p.2 (List.mem_map_of_mem hp)
            have hkeys : (List.map (fun p : List (String × Int) × (Nat × Nat) => (p.1.map (·.2), p.2))
                (List.map (fun p : List Int × (Nat × Nat) =>
                  (((sc.variables.zip cols).map (·.1)).zip p.1, p.2)) pieces)) = pieces := by
              rw [List.map_map]
              conv => rhs; rw [← List.map_id pieces]
              apply List.map_congr_left
              intro p hp
              have hk := d3 p hp p.2.1 (Nat.le_refl _) (hpos p hp)
              have hl := t2 p.1 (List.mem_of_getElem? hk)
              have : (sc.variables.zip cols).map (·.1) = sc.variables := by
                rw [List.map_fst_zip]
                omega
              simp only [Function.comp, this, id]
              rw [List.map_snd_zip (by omega)]
            rw [hkeys] at key ⊢
            refine key m hne ?_ hrow ⟨d1, d2, d3⟩
            intro j name v hj hw
            obtain ⟨c, hc, hkc⟩ := hcj j v hw
            rw [← (keysOf_spec hkc).1, t1 c (List.mem_of_getElem? hc)]
      · next e he =>
        simp only [bind, Except.bind, Split.sequenceSplit, Bool.not_false, if_true] at h
        split at h
        · cases h
        · next hx =>
          split at hx
          · cases hx
          · cases hx

end Verif
