import Verif.Spec.Dataset
import Verif.Lemmas.Lists

namespace Verif

open Spec Nd Ds

variable {V : Type}

/-! ### dictionaries of variables -/

theorem getVar_isSome (vars : List (Var V)) (n : String) :
    (getVar vars n).isSome = true ↔ n ∈ vars.map (·.name) := by
  simp [getVar, List.find?_isSome]

theorem getVar_none (vars : List (Var V)) (n : String) :
    getVar vars n = none ↔ n ∉ vars.map (·.name) := by
  rw [← getVar_isSome]; cases getVar vars n <;> simp

theorem getVar_some (vars : List (Var V)) (n : String) (v : Var V)
    (h : getVar vars n = some v) : v ∈ vars ∧ v.name = n := by
  unfold getVar at h
  exact ⟨List.mem_of_find?_eq_some h, by simpa using List.find?_some h⟩

theorem getVar_map {f : Var V → Var V} (hf : ∀ v, (f v).name = v.name) (vars : List (Var V))
    (n : String) : getVar (vars.map f) n = (getVar vars n).map f := by
  induction vars with
  | nil => rfl
  | cons v t ih =>
    simp only [getVar, List.map_cons, List.find?_cons, hf] at ih ⊢
    by_cases h : v.name = n
    · simp [h]
    · simp [h, ih]

theorem getVar_of_mem (vars : List (Var V)) (hn : (vars.map (·.name)).Nodup) (v : Var V)
    (h : v ∈ vars) : getVar vars v.name = some v := by
  cases hg : getVar vars v.name with
  | none =>
    rw [getVar_none] at hg
    exact absurd (List.mem_map_of_mem h) hg
  | some w =>
    obtain ⟨h1, h2⟩ := getVar_some vars _ w hg
    rw [eq_of_nodup_map hn h1 h h2]

theorem setVar_new (vars : List (Var V)) (v : Var V) (h : v.name ∉ vars.map (·.name)) :
    setVar vars v = vars ++ [v] := by
  induction vars with
  | nil => rfl
  | cons w t ih =>
    simp only [List.map_cons, List.mem_cons, not_or] at h
    simp [setVar, Ne.symm h.1, ih h.2]

theorem setVar_names (vars : List (Var V)) (v : Var V) (h : v.name ∈ vars.map (·.name)) :
    (setVar vars v).map (·.name) = vars.map (·.name) := by
  induction vars with
  | nil => simp at h
  | cons w t ih =>
    simp only [setVar]
    split
    · next hw => simp [hw]
    · next hw =>
      simp only [List.map_cons, List.mem_cons] at h
      simp [ih (h.resolve_left (Ne.symm hw))]

theorem setVar_nodup (vars : List (Var V)) (v : Var V) (h : (vars.map (·.name)).Nodup) :
    ((setVar vars v).map (·.name)).Nodup := by
  by_cases hm : v.name ∈ vars.map (·.name)
  · rwa [setVar_names vars v hm]
  · rw [setVar_new vars v hm, List.map_append, List.nodup_append]
    refine ⟨h, by simp, ?_⟩
    intro a ha b hb hab
    simp at hb
    exact hm (hb ▸ hab ▸ ha)

theorem mem_setVar (vars : List (Var V)) (v w : Var V) (h : w ∈ setVar vars v) :
    w = v ∨ w ∈ vars := by
  induction vars with
  | nil => simpa [setVar] using h
  | cons x t ih =>
    simp only [setVar] at h
    split at h
    · rcases List.mem_cons.1 h with h | h
      · exact .inl h
      · exact .inr (by simp [h])
    · rcases List.mem_cons.1 h with h | h
      · exact .inr (by simp [h])
      · rcases ih h with h | h
        · exact .inl h
        · exact .inr (by simp [h])

theorem foldl_setVar_nodup (l acc : List (Var V)) (h : (acc.map (·.name)).Nodup) :
    ((l.foldl setVar acc).map (·.name)).Nodup := by
  induction l generalizing acc with
  | nil => exact h
  | cons v t ih => exact ih _ (setVar_nodup acc v h)

theorem foldl_setVar_id (l acc : List (Var V)) (h : ((acc ++ l).map (·.name)).Nodup) :
    l.foldl setVar acc = acc ++ l := by
  induction l generalizing acc with
  | nil => simp
  | cons v t ih =>
    have hv : v.name ∉ acc.map (·.name) := by
      rw [List.map_append, List.nodup_append] at h
      intro hc
      exact h.2.2 _ hc v.name (by simp) rfl
    rw [List.foldl_cons, setVar_new acc v hv, ih]
    · simp
    · simpa using h

theorem mem_foldl_setVar (l acc : List (Var V)) (w : Var V) (h : w ∈ l.foldl setVar acc) :
    w ∈ acc ∨ w ∈ l := by
  induction l generalizing acc with
  | nil => exact .inl h
  | cons v t ih =>
    rcases ih _ h with h | h
    · rcases mem_setVar acc v w h with h | h
      · exact .inr (by simp [h])
      · exact .inl h
    · exact .inr (by simp [h])

/-! ### dimensions -/

/-- `d2` extends `d1`. -/
def Extends (d1 d2 : List (String × Nat)) : Prop :=
  ∀ d n, d1.lookup d = some n → d2.lookup d = some n

theorem lookup_snoc (dims : List (String × Nat)) (d e : String) (n : Nat) :
    (dims ++ [(d, n)]).lookup e =
      match dims.lookup e with
      | some m => some m
      | none => if e = d then some n else none := by
  rw [List.lookup_append]
  cases dims.lookup e with
  | some m => rfl
  | none =>
    by_cases h : e = d
    · simp [List.lookup, h]
    · have : (e == d) = false := by simpa using h
      simp [List.lookup, h, this]

theorem addDims_spec (ds : List String) (shape : List Nat) (dims dims' : List (String × Nat))
    (h : addDims dims ds shape = .ok dims') :
    Extends dims dims' ∧
    ∀ (i : Nat) (d : String), ds[i]? = some d → ∃ n, shape[i]? = some n ∧ dims'.lookup d = some n := by
  induction ds generalizing shape dims with
  | nil =>
    simp only [addDims] at h
    cases h
    exact ⟨fun _ _ h => h, by simp⟩
  | cons d ds ih =>
    cases shape with
    | nil => simp [addDims] at h
    | cons n shape =>
      simp only [addDims] at h
      split at h
      · next hl =>
        obtain ⟨h1, h2⟩ := ih shape _ h
        refine ⟨fun e m he => h1 e m ?_, ?_⟩
        · rw [lookup_snoc, he]
        · intro i e hi
          cases i with
          | zero =>
            simp only [List.getElem?_cons_zero, Option.some.injEq] at hi
            subst hi
            exact ⟨n, rfl, h1 d n (by rw [lookup_snoc, hl]; simp)⟩
          | succ i => exact h2 i e (by simpa using hi)
      · next m hl =>
        split at h
        · cases h
        · next hmn =>
          have hmn : m = n := by simpa using hmn
          subst hmn
          obtain ⟨h1, h2⟩ := ih shape _ h
          refine ⟨h1, ?_⟩
          intro i e hi
          cases i with
          | zero =>
            simp only [List.getElem?_cons_zero, Option.some.injEq] at hi
            subst hi
            exact ⟨m, rfl, h1 d m hl⟩
          | succ i => exact h2 i e (by simpa using hi)

theorem lookup_none_iff {β : Type} (dims : List (String × β)) (d : String) :
    dims.lookup d = none ↔ d ∉ dims.map (·.1) := by
  induction dims with
  | nil => simp
  | cons p t ih =>
    obtain ⟨e, n⟩ := p
    by_cases h : d = e
    · simp [h]
    · have : (d == e) = false := by simpa using h
      simp only [List.lookup, this, ih, List.map_cons, List.mem_cons, h, false_or]

theorem addDims_keys (ds : List String) (shape : List Nat) (dims dims' : List (String × Nat))
    (h : addDims dims ds shape = .ok dims') (hn : (dims.map (·.1)).Nodup) :
    (dims'.map (·.1)).Nodup := by
  induction ds generalizing shape dims with
  | nil => simp only [addDims] at h; cases h; exact hn
  | cons d ds ih =>
    cases shape with
    | nil => simp [addDims] at h
    | cons n shape =>
      simp only [addDims] at h
      split at h
      · next hl =>
        refine ih shape _ h ?_
        rw [lookup_none_iff] at hl
        rw [List.map_append, List.nodup_append]
        refine ⟨hn, by simp, ?_⟩
        intro a ha b hb hab
        simp at hb
        exact hl (hb ▸ hab ▸ ha)
      · split at h
        · cases h
        · exact ih shape _ h hn

theorem addDims_ok (ds : List String) (shape : List Nat) (dims big : List (String × Nat))
    (hsub : Extends dims big)
    (h : ∀ (i : Nat) (d : String), ds[i]? = some d → ∃ n, shape[i]? = some n ∧ big.lookup d = some n) :
    ∃ dims', addDims dims ds shape = .ok dims' ∧ Extends dims' big := by
  induction ds generalizing shape dims with
  | nil => exact ⟨dims, rfl, hsub⟩
  | cons d ds ih =>
    obtain ⟨n, hn, hb⟩ := h 0 d rfl
    cases shape with
    | nil => simp at hn
    | cons m shape =>
      simp only [List.getElem?_cons_zero, Option.some.injEq] at hn
      subst hn
      have h' : ∀ (i : Nat) (e : String), ds[i]? = some e → ∃ n, shape[i]? = some n ∧ big.lookup e = some n :=
        fun i e he => by simpa using h (i + 1) e (by simpa using he)
      simp only [addDims]
      cases hl : dims.lookup d with
      | none =>
        apply ih shape _ _ h'
        intro e k he
        rw [lookup_snoc] at he
        cases hle : dims.lookup e with
        | some k' =>
          rw [hle] at he
          simp only [Option.some.injEq] at he
          subst he
          exact hsub e _ hle
        | none =>
          rw [hle] at he
          simp only at he
          split at he
          · next heq => subst heq; cases he; exact hb
          · cases he
      | some k =>
        have := hsub d k hl
        rw [this] at hb
        simp only [Option.some.injEq] at hb
        subst hb
        simp only [ne_eq, not_true_eq_false, if_false]
        exact ih shape dims hsub h'

theorem updateDims_spec (vars : List (Var V)) (dims dims' : List (String × Nat))
    (del del' : Option Bool) (h : updateDims dims del vars = .ok (dims', del')) :
    ((dims.map (·.1)).Nodup → (dims'.map (·.1)).Nodup) ∧
    Extends dims dims' ∧ (∀ v ∈ vars, Agrees dims' v) ∧
    (∀ b, del = some b → del' = some b) ∧ ∀ v ∈ vars, del' = some v.delayed := by
  induction vars generalizing dims del with
  | nil =>
    simp only [updateDims] at h
    cases h
    exact ⟨fun h => h, fun _ _ h => h, by simp, fun _ h => h, by simp⟩
  | cons v t ih =>
    have key : ∃ dl, dl = v.delayed ∧ (∀ b, del = some b → b = dl) ∧ ∃ d1,
        addDims dims v.dims v.array.shape = .ok d1 ∧
        updateDims d1 (some dl) t = .ok (dims', del') := by
      simp only [updateDims, bind, Except.bind] at h
      cases del with
      | none =>
        simp only at h
        split at h
        · cases h
        · next d1 hd1 => exact ⟨v.delayed, rfl, by simp, d1, hd1, h⟩
      | some b =>
        by_cases hb : b = v.delayed
        · subst hb
          simp only [ne_eq, not_true_eq_false, if_false] at h
          split at h
          · cases h
          · next d1 hd1 => exact ⟨v.delayed, rfl, by simp, d1, hd1, h⟩
        · simp [hb] at h
    obtain ⟨dl, hdl, hdel, d1, hd1, h⟩ := key
    obtain ⟨e1, e2⟩ := addDims_spec _ _ _ _ hd1
    obtain ⟨g0, g1, g2, g3, g4⟩ := ih d1 (some dl) h
    refine ⟨fun hn => g0 (addDims_keys _ _ _ _ hd1 hn), fun d n hd => g1 d n (e1 d n hd), ?_, ?_, ?_⟩
    · intro w hw
      rcases List.mem_cons.1 hw with rfl | hw2
      · intro i d hi
        obtain ⟨n, hn1, hn2⟩ := e2 i d hi
        exact ⟨n, hn1, g1 d n hn2⟩
      · exact g2 w hw2
    · intro b hb
      rw [hdel b hb]
      exact g3 dl rfl
    · intro w hw
      rcases List.mem_cons.1 hw with rfl | hw2
      · rw [g3 dl rfl, hdl]
      · exact g4 w hw2

theorem updateDims_ok (vars : List (Var V)) (dims big : List (String × Nat)) (b : Bool)
    (hsub : Extends dims big) (hk : ∀ v ∈ vars, v.delayed = b)
    (h : ∀ v ∈ vars, Agrees big v) :
    ∃ dims', updateDims dims (some b) vars = .ok (dims', some b) ∧ Extends dims' big := by
  induction vars generalizing dims with
  | nil => exact ⟨dims, rfl, hsub⟩
  | cons v t ih =>
    obtain ⟨d1, h1, h2⟩ := addDims_ok v.dims v.array.shape dims big hsub (h v (by simp))
    obtain ⟨d2, h3, h4⟩ := ih d1 h2 (fun w hw => hk w (by simp [hw]))
      (fun w hw => h w (by simp [hw]))
    refine ⟨d2, ?_, h4⟩
    simp only [updateDims, hk v (by simp), ne_eq, not_true_eq_false, if_false, bind, Except.bind,
      h1]
    exact h3

theorem mk_spec (vars : List (Var V)) (attrs : List (String × String))
    (chunks : List (String × Nat)) (limit : Nat) (del : Option Bool) (ds : Dataset V)
    (h : mk vars attrs chunks limit del = .ok ds) :
    Consistent ds ∧ ds.vars = vars.foldl setVar [] ∧ ds.attrs = attrs ∧ ds.chunks = chunks ∧
      ds.limit = limit ∧ ∀ b, del = some b → ds.delayed = b := by
  simp only [mk, bind, Except.bind] at h
  split at h
  · cases h
  · next r hr =>
    obtain ⟨dims, dl⟩ := r
    obtain ⟨h0, _, h2, h3, h4⟩ := updateDims_spec _ _ _ _ _ hr
    cases h
    refine ⟨⟨h0 (by simp), ?_, ?_, h2⟩, rfl, rfl, rfl, rfl, ?_⟩
    · exact foldl_setVar_nodup vars [] (by simp)
    · intro v hv
      simp only
      rw [h4 v hv]
    · intro b hb
      simp only
      rw [h3 b hb]

theorem mk_ok (vars : List (Var V)) (attrs : List (String × String))
    (chunks : List (String × Nat)) (limit : Nat) (b : Bool) (big : List (String × Nat))
    (hn : (vars.map (·.name)).Nodup) (hk : ∀ v ∈ vars, v.delayed = b)
    (h : ∀ v ∈ vars, Agrees big v) :
    ∃ dims, mk vars attrs chunks limit (some b) =
      .ok { dims, vars, attrs, chunks, limit, delayed := b } ∧ Extends dims big := by
  obtain ⟨dims, h1, h2⟩ := updateDims_ok vars [] big b (by intro d n h; simp at h) hk h
  refine ⟨dims, ?_, h2⟩
  have : vars.foldl setVar [] = vars := by
    have := foldl_setVar_id vars [] (by simpa using hn)
    simpa using this
  simp only [mk, bind, Except.bind, this, h1]

/-! ### dict.update -/

theorem lookup_cons {β : Type} (e k : String) (x : β) (t : List (String × β)) :
    ((k, x) :: t).lookup e = if e = k then some x else t.lookup e := by
  by_cases h : e = k
  · simp [List.lookup, h]
  · have : (e == k) = false := by simpa using h
    simp [List.lookup, h, this]

theorem lookup_put {β : Type} (d : List (String × β)) (k e : String) (x : β) :
    (if (d.lookup k).isSome then d.map fun p => if p.1 = k then (k, x) else p
      else d ++ [(k, x)]).lookup e = if e = k then some x else d.lookup e := by
  split
  · next h =>
    induction d with
    | nil => simp at h
    | cons p t ih =>
      obtain ⟨a, b⟩ := p
      rw [lookup_cons] at h
      simp only [List.map_cons]
      by_cases hak : a = k
      · subst hak
        simp only [if_true, lookup_cons]
        by_cases hea : e = a
        · simp [hea]
        · simp only [hea, if_false]
          by_cases ht : (t.lookup a).isSome
          · rw [ih ht]; simp [hea]
          · have hnone : t.map (fun p => if p.1 = a then (a, x) else p) = t := by
              have hn : t.lookup a = none := Option.not_isSome_iff_eq_none.1 ht
              rw [lookup_none_iff] at hn
              conv => rhs; rw [← List.map_id t]
              apply List.map_congr_left
              intro p hp
              rw [if_neg]
              · rfl
              · intro hc
                exact hn (hc ▸ List.mem_map_of_mem hp)
            rw [hnone]
      · rw [if_neg (Ne.symm hak)] at h
        simp only [hak, if_false, lookup_cons, ih h]
        by_cases hea : e = a
        · simp [hea, hak]
        · simp [hea]
  · next h =>
    rw [List.lookup_append, lookup_cons]
    by_cases hek : e = k
    · subst hek
      cases hl : d.lookup e with
      | none => simp
      | some y => simp [hl] at h
    · cases d.lookup e <;> simp [hek]

theorem keys_put {β : Type} (d : List (String × β)) (k : String) (x : β)
    (h : (d.map (·.1)).Nodup) :
    ((if (d.lookup k).isSome then d.map fun p => if p.1 = k then (k, x) else p
      else d ++ [(k, x)]).map (·.1)).Nodup := by
  split
  · have : (d.map fun p => if p.1 = k then (k, x) else p).map (·.1) = d.map (·.1) := by
      rw [List.map_map]
      apply List.map_congr_left
      intro p _
      simp only [Function.comp_apply]
      split
      · next hp => exact hp.symm
      · rfl
    rwa [this]
  · next hl =>
    have hn : d.lookup k = none := Option.not_isSome_iff_eq_none.1 hl
    rw [lookup_none_iff] at hn
    rw [List.map_append, List.nodup_append]
    refine ⟨h, by simp, ?_⟩
    intro a ha b hb hab
    simp at hb
    exact hn (hb ▸ hab ▸ ha)

theorem lookup_dictUpdate {β : Type} (l d : List (String × β)) (hn : (l.map (·.1)).Nodup)
    (e : String) : (dictUpdate d l).lookup e = (l.lookup e).or (d.lookup e) := by
  induction l generalizing d with
  | nil => simp [dictUpdate]
  | cons p t ih =>
    obtain ⟨k, x⟩ := p
    rw [List.map_cons, List.nodup_cons] at hn
    rw [dictUpdate, ih _ hn.2, lookup_put, lookup_cons]
    by_cases h : e = k
    · subst h
      rw [(lookup_none_iff t e).2 hn.1]
      simp
    · simp [h]

theorem keys_dictUpdate {β : Type} (l d : List (String × β)) (hn : (d.map (·.1)).Nodup) :
    ((dictUpdate d l).map (·.1)).Nodup := by
  induction l generalizing d with
  | nil => exact hn
  | cons p t ih =>
    obtain ⟨k, x⟩ := p
    exact ih _ (keys_put d k x hn)

theorem lookup_mem {β : Type} (d : List (String × β)) (k : String) (x : β)
    (h : d.lookup k = some x) : (k, x) ∈ d := by
  induction d with
  | nil => simp at h
  | cons p t ih =>
    obtain ⟨a, b⟩ := p
    rw [lookup_cons] at h
    split at h
    · next hk => cases h; simp [hk]
    · simp [ih h]

/-! ### mapPy -/

theorem mapPy_ok {α β : Type} (f : α → Py β) (g : α → β) (l : List α)
    (h : ∀ x ∈ l, f x = .ok (g x)) : mapPy f l = .ok (l.map g) := by
  induction l with
  | nil => rfl
  | cons x t ih =>
    simp only [mapPy, bind, Except.bind, h x (by simp), ih fun y hy => h y (by simp [hy]),
      List.map_cons]

theorem mapPy_spec {α β : Type} (f : α → Py β) (l : List α) (r : List β)
    (h : mapPy f l = .ok r) :
    r.length = l.length ∧ ∀ (i : Nat) (x : α), l[i]? = some x → ∃ y, r[i]? = some y ∧ f x = .ok y := by
  induction l generalizing r with
  | nil => simp only [mapPy] at h; cases h; simp
  | cons x t ih =>
    simp only [mapPy, bind, Except.bind] at h
    split at h
    · cases h
    · next y hy =>
      split at h
      · cases h
      · next ys hys =>
        cases h
        obtain ⟨h1, h2⟩ := ih ys hys
        refine ⟨by simp [h1], ?_⟩
        intro i z hi
        cases i with
        | zero =>
          simp only [List.getElem?_cons_zero, Option.some.injEq] at hi
          subst hi
          exact ⟨y, rfl, hy⟩
        | succ i => simpa using h2 i z (by simpa using hi)

theorem mapPy_mem {α β : Type} (f : α → Py β) (l : List α) (r : List β)
    (h : mapPy f l = .ok r) : ∀ y ∈ r, ∃ x ∈ l, f x = .ok y := by
  induction l generalizing r with
  | nil => simp only [mapPy] at h; cases h; simp
  | cons x t ih =>
    simp only [mapPy, bind, Except.bind] at h
    split at h
    · cases h
    · next y hy =>
      split at h
      · cases h
      · next ys hys =>
        cases h
        intro z hz
        rcases List.mem_cons.1 hz with rfl | hz2
        · exact ⟨x, by simp, hy⟩
        · obtain ⟨w, hw, hw2⟩ := ih ys hys z hz2
          exact ⟨w, by simp [hw], hw2⟩

end Verif
