import Verif.Spec.DataExpression
import Verif.Props.Chunks
import Verif.Lemmas.Dataset

/-! Lemmas on the expressions on the variables of a dataset. -/

namespace Verif

open Spec Nd Ds Dx

variable {V : Type}

theorem kindOf_const {s : String} (h : s ∈ constants) : kindOf s = some .const := by
  revert s; decide

theorem kindOf_unary {s : String} (h : s ∈ unaryNames) : kindOf s = some .unary := by
  revert s; decide

theorem kindOf_binary {s : String} (h : s ∈ binaryNames) : kindOf s = some .binary := by
  revert s; decide

theorem kindOf_reduction {s : String} (h : s ∈ reductionNames) : kindOf s = some .reduction := by
  revert s; decide

theorem builtins_reserved : ∀ p ∈ builtins, p.1 ∈ reserved := by decide

theorem reserved_builtins : ∀ s ∈ reserved, (kindOf s).isSome = true := by decide

theorem kindOf_none {s : String} (h : s ∉ reserved) : kindOf s = none := by
  unfold kindOf
  rw [List.lookup_eq_none_iff]
  intro p hp
  have := builtins_reserved p hp
  apply bne_iff_ne.2
  rintro rfl
  exact h this

theorem kindOf_none_iff {s : String} : kindOf s = none ↔ s ∉ reserved := by
  refine ⟨fun h hs => ?_, kindOf_none⟩
  have := reserved_builtins s hs
  rw [h] at this
  cases this

theorem castRev_prefix {s t : List Nat} (h : t <+: s) : castRev s t = .ok s ∧ castRev t s = .ok s := by
  induction t generalizing s with
  | nil => cases s <;> exact ⟨rfl, rfl⟩
  | cons n t ih =>
    obtain ⟨r, rfl⟩ := h
    obtain ⟨i1, i2⟩ := ih ⟨r, rfl⟩
    exact ⟨by simp [castRev, castDim, i1, bind, Except.bind],
      by simp [castRev, castDim, i2, bind, Except.bind]⟩

theorem castShape_suffix {s t : List Nat} (h : t <:+ s) :
    castShape s t = .ok s ∧ castShape t s = .ok s := by
  obtain ⟨i1, i2⟩ := castRev_prefix (List.reverse_prefix.2 h)
  exact ⟨by simp [castShape, i1, bind, Except.bind], by simp [castShape, i2, bind, Except.bind]⟩

/-- The index of an operand whose dimensions are the last ones. -/
theorem castIndex_suffix {size pt : String → Nat} {D E : List String} (h : E <:+ D)
    (hp : PointIn size D pt) : castIndex (E.map size) (D.map pt) = E.map pt := by
  obtain ⟨p, rfl⟩ := h
  unfold castIndex
  have hd : ((p ++ E).map pt).drop (((p ++ E).map pt).length - (E.map size).length) = E.map pt := by
    simp only [List.length_map, List.length_append, List.map_append]
    rw [show p.length + E.length - E.length = (p.map pt).length by simp]
    exact List.drop_left
  rw [hd]
  have hE : ∀ d ∈ E, pt d < size d := fun d hd => hp d (List.mem_append_right _ hd)
  clear hd hp
  induction E with
  | nil => rfl
  | cons d t ih =>
    simp only [List.map_cons, List.zipWith_cons_cons]
    rw [ih fun d hd => hE d (List.mem_cons_of_mem _ hd)]
    have := hE d List.mem_cons_self
    congr 1
    split <;> omega

theorem inside_point {size pt : String → Nat} {D : List String} (hp : PointIn size D pt) :
    Inside (D.map size) (D.map pt) := by
  refine ⟨by simp, fun i x m h1 h2 => ?_⟩
  rw [List.getElem?_map] at h1 h2
  obtain ⟨d, hd, rfl⟩ := Option.map_eq_some_iff.1 h1
  obtain ⟨d', hd', rfl⟩ := Option.map_eq_some_iff.1 h2
  rw [hd] at hd'
  cases hd'
  exact hp d (List.mem_of_getElem? hd)

/-- Every index within the bounds is a point, when no dimension is named twice. -/
theorem point_of_inside {size : String → Nat} {D : List String} (hd : D.Nodup) {idx : List Nat}
    (hi : Inside (D.map size) idx) : ∃ pt, PointIn size D pt ∧ D.map pt = idx := by
  induction D generalizing idx with
  | nil =>
    obtain ⟨h, _⟩ := hi
    exact ⟨fun _ => 0, fun d hd => (nomatch hd), by simpa using (List.length_eq_zero_iff.1 h).symm⟩
  | cons d t ih =>
    cases idx with
    | nil => exact absurd hi.1 (by simp)
    | cons i r =>
      rw [List.nodup_cons] at hd
      obtain ⟨pt, h1, h2⟩ := ih hd.2 (idx := r) ⟨by simpa using hi.1, fun j x m hx hm =>
        hi.2 (j + 1) x m (by simpa using hx) (by simpa using hm)⟩
      refine ⟨fun e => if e = d then i else pt e, ?_, ?_⟩
      · intro e he
        by_cases hed : e = d
        · subst hed
          simpa using hi.2 0 i (size e) (by simp) (by simp)
        · simp only [hed, if_false]
          exact h1 e ((List.mem_cons.1 he).resolve_left hed)
      · simp only [List.map_cons, if_true]
        congr 1
        rw [← h2]
        apply List.map_congr_left
        intro e he
        have : e ≠ d := fun h => hd.1 (h ▸ he)
        simp [this]

theorem combine_lift2 (f : V → V → V) (x y : Option V) : Combine f x y (lift2 f x y) := by
  cases x with
  | none => exact Or.inr ⟨Or.inl rfl, rfl⟩
  | some a =>
    cases y with
    | none => exact Or.inr ⟨Or.inr rfl, rfl⟩
    | some b => exact Or.inl ⟨a, b, rfl, rfl, rfl⟩

/-- An operation on two arrays whose dimensions are nested. -/
theorem map2_nested {size : String → Nat} {D E F : List String} (f : V → V → V)
    {a b : Arr (Option V)} (ha : ArrOk a) (hb : ArrOk b) (sa : a.shape = D.map size)
    (sb : b.shape = E.map size) (hF : F.Nodup) (h : E <:+ D ∧ F = D ∨ D <:+ E ∧ F = E) :
    ∃ r, map2 f a b = .ok r ∧ ArrOk r ∧ r.shape = F.map size ∧
      ∀ pt, PointIn size F pt → ∃ x y, a.get (D.map pt) = some x ∧ b.get (E.map pt) = some y ∧
        r.get (F.map pt) = some (lift2 f x y) := by
  have key : ∀ pt, PointIn size F pt → ∃ x y, a.get (D.map pt) = some x ∧
      b.get (E.map pt) = some y ∧ castIndex a.shape (F.map pt) = D.map pt ∧
      castIndex b.shape (F.map pt) = E.map pt := by
    intro pt hp
    have hD : D <:+ F ∧ E <:+ F := by
      rcases h with ⟨h1, rfl⟩ | ⟨h1, rfl⟩
      · exact ⟨List.suffix_refl _, h1⟩
      · exact ⟨h1, List.suffix_refl _⟩
    obtain ⟨x, hx⟩ := (ha (D.map pt)).2 (sa ▸ inside_point fun d hd => hp d (hD.1.mem hd))
    obtain ⟨y, hy⟩ := (hb (E.map pt)).2 (sb ▸ inside_point fun d hd => hp d (hD.2.mem hd))
    exact ⟨x, y, hx, hy, sa ▸ castIndex_suffix hD.1 hp, sb ▸ castIndex_suffix hD.2 hp⟩
  have hs : castShape a.shape b.shape = .ok (F.map size) := by
    rw [sa, sb]
    rcases h with ⟨h1, rfl⟩ | ⟨h1, rfl⟩
    · exact (castShape_suffix (h1.map size)).1
    · exact (castShape_suffix (h1.map size)).2
  obtain ⟨r, hr, hrs, hrg⟩ : ∃ r : Arr (Option V), map2 f a b = .ok r ∧ r.shape = F.map size ∧
      ∀ idx, r.get idx = if inBounds idx (F.map size) then
        match a.get (castIndex a.shape idx), b.get (castIndex b.shape idx) with
        | some x, some y => some (lift2 f x y)
        | _, _ => none
        else none := by
    simp only [map2, hs, bind, Except.bind]
    exact ⟨_, rfl, rfl, fun _ => rfl⟩
  refine ⟨r, hr, ?_, hrs, ?_⟩
  · intro idx
    rw [← inBounds_iff, hrs, hrg]
    cases hi : inBounds idx (F.map size) with
    | false => simp
    | true =>
      obtain ⟨pt, h1, rfl⟩ := point_of_inside hF ((inBounds_iff _ _).1 hi)
      obtain ⟨x, y, hx, hy, e1, e2⟩ := key pt h1
      simp [e1, e2, hx, hy]
  · intro pt hp
    obtain ⟨x, y, hx, hy, e1, e2⟩ := key pt hp
    exact ⟨x, y, hx, hy, by
      rw [hrg, (inBounds_iff _ _).2 (inside_point hp), e1, e2, hx, hy]; simp⟩

theorem nested_nodup {size : String → Nat} {vars : List (Var V)} (hr : Regular size vars)
    {e : Term V} {D : List String} (h : Nested vars e D) : D.Nodup := by
  induction h with
  | num v => exact List.nodup_nil
  | var v hv _ => exact hr.dims v hv
  | const s _ _ => exact List.nodup_nil
  | op o a b D E F _ _ hn iha ihb | binary f a b D E F _ _ _ hn iha ihb =>
    rcases hn with ⟨_, rfl⟩ | ⟨_, rfl⟩
    · exact iha
    · exact ihb
  | unary f a D _ _ iha => exact iha
  | reduction f a D _ _ _ => exact List.nodup_nil

theorem union_nested {D E F : List String} (hF : F.Nodup)
    (h : E <:+ D ∧ F = D ∨ D <:+ E ∧ F = E) : Union D E F := by
  refine ⟨hF, fun d => ?_⟩
  rcases h with ⟨h1, rfl⟩ | ⟨h1, rfl⟩
  · exact ⟨Or.inl, fun h => h.elim id fun h => h1.mem h⟩
  · exact ⟨Or.inr, fun h => h.elim (fun h => h1.mem h) id⟩

theorem nested_dims {size : String → Nat} {vars : List (Var V)} (hr : Regular size vars)
    {e : Term V} {D : List String} (h : Nested vars e D) : Dims vars e D := by
  induction h with
  | num v => exact .num v
  | var v hv _ => exact .var v hv
  | const s h1 h2 => exact .const s h1 h2
  | op o a b D E F ha hb hn iha ihb =>
    exact .op o a b D E F iha ihb (union_nested (nested_nodup hr (.op o a b D E F ha hb hn)) hn)
  | binary f a b D E F hf ha hb hn iha ihb =>
    exact .binary f a b D E F hf iha ihb
      (union_nested (nested_nodup hr (.binary f a b D E F hf ha hb hn)) hn)
  | unary f a D hf _ iha => exact .unary f a D hf iha
  | reduction f a D hf _ iha => exact .reduction f a D hf iha

/-- The names of a nested expression are reserved or those of variables. -/
theorem nested_names {vars : List (Var V)} {e : Term V} {D : List String}
    (h : Nested vars e D) : ∀ s ∈ coNames e, kindOf s = none → ∃ v ∈ vars, v.name = s := by
  induction h with
  | num v => intro s hs; simp [coNames] at hs
  | var v hv _ =>
    intro s hs _
    simp only [coNames, List.mem_singleton] at hs
    exact ⟨v, hv, hs.symm⟩
  | const c h1 _ =>
    intro s hs hk
    simp only [coNames, List.mem_singleton] at hs
    subst hs
    rw [kindOf_const h1] at hk
    cases hk
  | op o a b D E F _ _ _ iha ihb =>
    intro s hs hk
    rcases List.mem_append.1 hs with hs | hs
    · exact iha s hs hk
    · exact ihb s hs hk
  | binary f a b D E F hf _ _ _ iha ihb =>
    intro s hs hk
    rcases List.mem_cons.1 hs with rfl | hs
    · rw [kindOf_binary hf] at hk
      cases hk
    · rcases List.mem_append.1 hs with hs | hs
      · exact iha s hs hk
      · exact ihb s hs hk
  | unary f a D hf _ iha =>
    intro s hs hk
    rcases List.mem_cons.1 hs with rfl | hs
    · rw [kindOf_unary hf] at hk
      cases hk
    · exact iha s hs hk
  | reduction f a D hf _ iha =>
    intro s hs hk
    rcases List.mem_cons.1 hs with rfl | hs
    · rw [kindOf_reduction hf] at hk
      cases hk
    · exact iha s hs hk

/-- The local variables of an expression whose names are known. -/
theorem localsOf_known (n : Vr.Num V) (vars : List (Var V)) (l : List String)
    (h : ∀ s ∈ l, kindOf s = none → getVar vars s ≠ none) :
    ∃ locs, Dx.localsOf n vars l = .ok locs ∧
      (∀ s ∈ l, kindOf s = none → ∀ v, getVar vars s = some v →
        locs.lookup s = some (Vr.valuesOf n v)) ∧
      ∀ s, (kindOf s).isSome = true → locs.lookup s = none := by
  induction l with
  | nil => exact ⟨[], rfl, fun s hs => (nomatch hs), fun _ _ => rfl⟩
  | cons a t ih =>
    obtain ⟨locs, h1, h2, h3⟩ := ih fun s hs => h s (List.mem_cons_of_mem _ hs)
    cases hk : (kindOf a).isSome with
    | true =>
      refine ⟨locs, by simp only [Dx.localsOf, hk, if_true, h1], ?_, h3⟩
      intro s hs hn v hv
      rcases List.mem_cons.1 hs with rfl | hs
      · rw [hn] at hk
        cases hk
      · exact h2 s hs hn v hv
    | false =>
      have hkn : kindOf a = none := by simpa using hk
      obtain ⟨w, hw⟩ := Option.ne_none_iff_exists'.1 (h a List.mem_cons_self hkn)
      refine ⟨(a, Vr.valuesOf n w) :: locs, ?_, ?_, ?_⟩
      · simp only [Dx.localsOf, hk, getVarE, hw, bind, Except.bind, h1]
        simp
      · intro s hs hn v hv
        by_cases hsa : s = a
        · subst hsa
          rw [hw] at hv
          cases hv
          simp [List.lookup]
        · simp only [List.lookup, beq_eq_false_iff_ne.2 hsa]
          exact h2 s ((List.mem_cons.1 hs).resolve_left hsa) hn v hv
      · intro s hs
        have hsa : s ≠ a := by
          rintro rfl
          rw [hk] at hs
          cases hs
        simp only [List.lookup, beq_eq_false_iff_ne.2 hsa]
        exact h3 s hs

/-- An unknown name outside of the reserved ones raises `KeyError`. -/
theorem localsOf_unknown (n : Vr.Num V) (vars : List (Var V)) (l : List String) (s : String)
    (hs : s ∈ l) (hk : kindOf s = none) (hv : getVar vars s = none) :
    Dx.localsOf n vars l = .error .keyError := by
  induction l with
  | nil => cases hs
  | cons a t ih =>
    cases hka : (kindOf a).isSome with
    | true =>
      simp only [Dx.localsOf, hka, if_true]
      rcases List.mem_cons.1 hs with rfl | hs
      · rw [hk] at hka
        cases hka
      · exact ih hs
    | false =>
      cases hw : getVar vars a with
      | none => simp [Dx.localsOf, hka, getVarE, hw, bind, Except.bind]
      | some w =>
        have hst : s ∈ t := by
          rcases List.mem_cons.1 hs with rfl | hs
          · rw [hv] at hw
            cases hw
          · exact hs
        simp [Dx.localsOf, hka, getVarE, hw, bind, Except.bind, ih hst]

theorem valuesOf_arrOk (n : Vr.Num V) {v : Var V} (h : ArrOk v.array) :
    ArrOk (Vr.valuesOf n v) := by
  intro idx
  have := h idx
  show (∃ x, (v.array.get idx).map _ = some x) ↔ Inside v.array.shape idx
  rw [← this]
  cases v.array.get idx <;> simp

/-- The value of a nested expression. -/
theorem eval_nested (n : Vr.Num V) (lib : Lib V) {size : String → Nat} {vars : List (Var V)}
    (hr : Regular size vars) (L : String → Py (Val V)) {e : Term V} {D : List String}
    (h : Nested vars e D)
    (hv : ∀ v ∈ vars, v.name ∈ coNames e → v.name ∉ reserved →
      L v.name = .ok (.arr (Vr.valuesOf n v)))
    (hb : ∀ s, (kindOf s).isSome = true → L s = builtin lib s) :
    ∃ A, Dx.eval lib L e = .ok (.arr A) ∧ ArrOk A ∧ A.shape = D.map size ∧
      ∀ pt, PointIn size D pt → ∃ x, A.get (D.map pt) = some x ∧
        PointVal n lib size vars pt e x := by
  induction h with
  | num v =>
    refine ⟨scalar (some v), rfl, full_arrOk _ _, rfl, fun pt _ => ⟨some v, ?_, .num pt v⟩⟩
    simp [scalar, full, inBounds]
  | var v hm hres =>
    refine ⟨Vr.valuesOf n v, hv v hm (by simp [coNames]) hres,
      valuesOf_arrOk n (hr.arrays v hm), hr.shape v hm, fun pt hp => ?_⟩
    obtain ⟨x, hx⟩ := (hr.arrays v hm (v.dims.map pt)).2
      (by rw [hr.shape v hm]; exact inside_point hp)
    have hget : ∀ y, y = (match v.fill with
        | none => some x
        | some f => if n.eqv x f then none else some x) →
        (Vr.valuesOf n v).get (v.dims.map pt) = some y := by
      rintro y rfl
      simp only [Vr.valuesOf, Vr.masked, Chunk.values, hx, Option.map_some]
      cases v.fill <;> rfl
    rcases Option.eq_none_or_eq_some v.fill with hf | ⟨f, hf⟩
    · refine ⟨some x, hget _ (by rw [hf]), .value pt v x hm hx fun f h => ?_⟩
      rw [hf] at h
      cases h
    · cases he : n.eqv x f with
      | true =>
        exact ⟨none, hget _ (by rw [hf]; simp [he]), .missing pt v x f hm hx hf he⟩
      | false =>
        refine ⟨some x, hget _ (by rw [hf]; simp [he]), .value pt v x hm hx fun g h => ?_⟩
        rw [hf] at h
        cases h
        exact he
  | const s h1 h2 =>
    refine ⟨scalar (some (lib.const s)), ?_, full_arrOk _ _, rfl, fun pt _ =>
      ⟨some (lib.const s), by simp [scalar, full, inBounds], .const pt s h1 h2⟩⟩
    simp only [Dx.eval]
    rw [hb s (by rw [kindOf_const h1]; rfl)]
    simp only [builtin, kindOf_const h1]
  | op o a b D E F ha hb' hn iha ihb =>
    obtain ⟨A, a1, a2, a3, a4⟩ := iha fun v h1 h2 => hv v h1 (List.mem_append_left _ h2)
    obtain ⟨B, b1, b2, b3, b4⟩ := ihb fun v h1 h2 => hv v h1 (List.mem_append_right _ h2)
    obtain ⟨r, r1, r2, r3, r4⟩ := map2_nested (lib.op o) a2 b2 a3 b3
      (nested_nodup hr (.op o a b D E F ha hb' hn)) hn
    have hsub : D ⊆ F ∧ E ⊆ F := by
      rcases hn with ⟨h1, rfl⟩ | ⟨h1, rfl⟩
      · exact ⟨fun _ h => h, fun _ h => h1.mem h⟩
      · exact ⟨fun _ h => h1.mem h, fun _ h => h⟩
    refine ⟨r, by simp only [Dx.eval, a1, b1, bind, Except.bind, operate, r1], r2, r3, ?_⟩
    intro pt hp
    obtain ⟨x, y, hx, hy, hxy⟩ := r4 pt hp
    obtain ⟨x', hx', px⟩ := a4 pt fun d hd => hp d (hsub.1 hd)
    obtain ⟨y', hy', py⟩ := b4 pt fun d hd => hp d (hsub.2 hd)
    cases hx.symm.trans hx'
    cases hy.symm.trans hy'
    exact ⟨_, hxy, .op pt o a b x y _ px py (combine_lift2 _ _ _)⟩
  | binary f a b D E F hf ha hb' hn iha ihb =>
    obtain ⟨A, a1, a2, a3, a4⟩ := iha fun v h1 h2 =>
      hv v h1 (List.mem_cons_of_mem _ (List.mem_append_left _ h2))
    obtain ⟨B, b1, b2, b3, b4⟩ := ihb fun v h1 h2 =>
      hv v h1 (List.mem_cons_of_mem _ (List.mem_append_right _ h2))
    obtain ⟨r, r1, r2, r3, r4⟩ := map2_nested (lib.binary f) a2 b2 a3 b3
      (nested_nodup hr (.binary f a b D E F hf ha hb' hn)) hn
    have hsub : D ⊆ F ∧ E ⊆ F := by
      rcases hn with ⟨h1, rfl⟩ | ⟨h1, rfl⟩
      · exact ⟨fun _ h => h, fun _ h => h1.mem h⟩
      · exact ⟨fun _ h => h1.mem h, fun _ h => h⟩
    have hfun : L f = .ok (.func f .binary) := by
      rw [hb f (by rw [kindOf_binary hf]; rfl)]
      simp only [builtin, kindOf_binary hf]
    refine ⟨r, by simp only [Dx.eval, hfun, a1, b1, bind, Except.bind, call2, r1], r2, r3, ?_⟩
    intro pt hp
    obtain ⟨x, y, hx, hy, hxy⟩ := r4 pt hp
    obtain ⟨x', hx', px⟩ := a4 pt fun d hd => hp d (hsub.1 hd)
    obtain ⟨y', hy', py⟩ := b4 pt fun d hd => hp d (hsub.2 hd)
    cases hx.symm.trans hx'
    cases hy.symm.trans hy'
    exact ⟨_, hxy, .binary pt f a b x y _ hf px py (combine_lift2 _ _ _)⟩
  | unary f a D hf ha iha =>
    obtain ⟨A, a1, a2, a3, a4⟩ := iha fun v h1 h2 => hv v h1 (List.mem_cons_of_mem _ h2)
    have hfun : L f = .ok (.func f .unary) := by
      rw [hb f (by rw [kindOf_unary hf]; rfl)]
      simp only [builtin, kindOf_unary hf]
    refine ⟨map1 (lib.unary f) A, by simp only [Dx.eval, hfun, a1, bind, Except.bind, call1],
      ?_, a3, ?_⟩
    · intro idx
      rw [show (map1 (lib.unary f) A).shape = A.shape from rfl, ← a2 idx]
      simp only [map1]
      cases A.get idx <;> simp
    · intro pt hp
      obtain ⟨x, hx, px⟩ := a4 pt hp
      exact ⟨x.map (lib.unary f), by simp [map1, hx], .unary pt f a x hf px⟩
  | reduction f a D hf ha iha =>
    obtain ⟨A, a1, a2, a3, a4⟩ := iha fun v h1 h2 => hv v h1 (List.mem_cons_of_mem _ h2)
    have hfun : L f = .ok (.func f .reduction) := by
      rw [hb f (by rw [kindOf_reduction hf]; rfl)]
      simp only [builtin, kindOf_reduction hf]
    refine ⟨scalar (lib.reduce f A), by simp only [Dx.eval, hfun, a1, bind, Except.bind, call1],
      full_arrOk _ _, rfl, ?_⟩
    intro pt _
    refine ⟨lib.reduce f A, by simp [scalar, full, inBounds],
      .reduction pt f a D A (fun q => (A.get (D.map q)).join) hf (nested_dims hr ha) a2 a3 ?_ ?_⟩
    · intro q hq
      obtain ⟨x, hx, _⟩ := a4 q hq
      simp [hx]
    · intro q hq
      obtain ⟨x, hx, px⟩ := a4 q hq
      simpa [hx] using px

end Verif
