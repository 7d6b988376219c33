import Verif.Lemmas.Xarray
import Verif.Model.Chunks

/-! C73: conversion of datasets from and to xarray. -/

namespace Verif

open Spec Nd Xr

variable {V : Type}

theorem regular_rank {ds : Dset V} (h : Convertible ds) {v : Xr.Var V} (hv : v ∈ ds.vars) :
    v.array.shape.length = v.dims.length := by
  obtain ⟨size, hs⟩ := h.sized
  rw [hs v hv, List.length_map]

/-- What `to_xarray` returns, variable by variable. -/
theorem toXarray_spec {cf : Cf V} {mask : Bool} {ds : Dset V} {X : XDset V} (hr : Convertible ds)
    (h : toXarray cf mask ds = .ok X) :
    X.vars.length = ds.vars.length ∧
    (∀ (i : Nat) (v : Xr.Var V), ds.vars[i]? = some v → ∃ x l, X.vars[i]? = some (v.name, x) ∧
      decodeCoords cf (ds.vars.map (·.name)) (decodeVar cf mask (rawVar v)) = .ok (x, l)) ∧
    checkVars [] X.vars = .ok () ∧
    (∃ named, decodeGlobal cf (dictOf ds.attrs) = .ok (X.attrs, named) ∧
      ∀ n, n ∈ X.coords ↔ ∃ x, (n, x) ∈ X.vars ∧ (x.dims = [n] ∨ n ∈ named ∨
        ∃ v ∈ ds.vars, ∃ x l, decodeCoords cf (ds.vars.map (·.name))
          (decodeVar cf mask (rawVar v)) = .ok (x, l) ∧ n ∈ l)) := by
  simp only [toXarray, bind, Except.bind] at h
  cases hm : Ds.mapPy (decoded cf mask (ds.vars.map (·.name))) ds.vars with
  | error e => rw [hm] at h; cases h
  | ok l =>
    rw [hm] at h
    simp only at h
    cases hg : decodeGlobal cf (dictOf ds.attrs) with
    | error e => rw [hg] at h; cases h
    | ok g =>
      rw [hg] at h
      simp only at h
      cases hc : checkVars [] (l.map fun t => (t.1, t.2.1)) with
      | error e => rw [hc] at h; cases h
      | ok u =>
        rw [hc] at h
        simp only at h
        cases h
        have hdec : ∀ v ∈ ds.vars, ∀ r, decoded cf mask (ds.vars.map (·.name)) v = .ok r →
            r.1 = v.name ∧ decodeCoords cf (ds.vars.map (·.name)) (decodeVar cf mask (rawVar v)) =
              .ok (r.2.1, r.2.2) := by
          intro v hv r hd
          simp only [decoded, toVariable_ok (regular_rank hr hv) (hr.attrs v hv), bind,
            Except.bind] at hd
          cases hx : decodeCoords cf (ds.vars.map (·.name)) (decodeVar cf mask (rawVar v)) with
          | error e => rw [hx] at hd; cases hd
          | ok y =>
            rw [hx] at hd
            cases hd
            exact ⟨rfl, rfl⟩
        obtain ⟨hl, hi⟩ := mapPy_spec _ _ _ hm
        refine ⟨by simp [hl], ?_, hc, g.2, rfl, ?_⟩
        · intro i v hv
          obtain ⟨r, h1, h2⟩ := hi i v hv
          obtain ⟨h3, h4⟩ := hdec v (List.mem_of_getElem? hv) r h2
          refine ⟨r.2.1, r.2.2, ?_, h4⟩
          rw [List.getElem?_map, h1, ← h3]
          rfl
        · intro n
          simp only [List.mem_filterMap]
          constructor
          · rintro ⟨t, ht, hif⟩
            split at hif
            · next hor =>
              cases hif
              refine ⟨t.2, ht, ?_⟩
              rcases hor with hor | hor
              · rcases List.mem_append.1 hor with hor | hor
                · exact .inr (.inl hor)
                · obtain ⟨q, hq, hn⟩ := List.mem_flatMap.1 hor
                  obtain ⟨v, hv, hd⟩ := mapPy_mem _ _ _ hm q hq
                  obtain ⟨_, h4⟩ := hdec v hv q hd
                  exact .inr (.inr ⟨v, hv, _, _, h4, hn⟩)
              · exact .inl hor
            · cases hif
          · rintro ⟨x, hx, hor⟩
            refine ⟨(n, x), hx, if_pos ?_⟩
            rcases hor with hor | hor | ⟨v, hv, x', l', hd, hn⟩
            · exact .inr hor
            · exact .inl (List.mem_append_left _ hor)
            · obtain ⟨i, hiv⟩ := List.getElem?_of_mem hv
              obtain ⟨r, h1, h2⟩ := hi i v hiv
              obtain ⟨_, h4⟩ := hdec v hv r h2
              rw [hd] at h4
              cases h4
              exact .inl (List.mem_append_right _
                (List.mem_flatMap.2 ⟨r, List.mem_of_getElem? h1, hn⟩))

theorem image_of {cf : Cf V} {v : Xr.Var V} (hc : Conventional cf v) {names : List String}
    {x : XVar V} {l : List String}
    (h : decodeCoords cf names (decodeVar cf true (rawVar v)) = .ok (x, l)) : Image cf v x := by
  rw [decodeVar_masked hc] at h
  obtain ⟨h1, h2, h3, h4, h5, h6, _⟩ := decodeCoords_spec h
  refine ⟨h1, h2 ▸ unfill_nanFilled, ?_, ?_, h5, ?_⟩
  · intro k hk
    simp only [cfNames, List.mem_cons, List.not_mem_nil, or_false, not_or] at hk
    rw [h3 k hk.2.2, decodeMask_lookup cf v k hk.1 hk.2.1]
  · intro f
    rw [h4]
    exact rawAttrs_fill v f
  · intro w
    rw [h6]
    show (if v.filters = [] then none else some v.filters) = some w ↔ _
    split
    · next hf => rw [hf]; constructor
                 · intro h; cases h
                 · rintro ⟨rfl, h⟩; exact absurd rfl h
    · next hf => rw [Option.some.injEq]
                 exact ⟨fun h => ⟨h, h ▸ hf⟩, fun h => h.1⟩

/-- C73: `to_xarray` gives the variables in order, each with its dimensions, its elements - NaN
where they are missing - and its attributes, the fill value and the codecs being in the
encoding. -/
theorem C73_to_xarray (cf : Cf V) (ds : Dset V) (hr : Convertible ds)
    (hc : ∀ v ∈ ds.vars, Conventional cf v) (X : XDset V) (h : toXarray cf true ds = .ok X) :
    X.vars.length = ds.vars.length ∧ ∀ (i : Nat) (v : Xr.Var V), ds.vars[i]? = some v →
      ∃ x, X.vars[i]? = some (v.name, x) ∧ Image cf v x := by
  obtain ⟨h1, h2, _⟩ := toXarray_spec hr h
  refine ⟨h1, fun i v hv => ?_⟩
  obtain ⟨x, l, h3, h4⟩ := h2 i v hv
  exact ⟨x, h3, image_of (hc v (List.mem_of_getElem? hv)) h4⟩

/-- C73: the coordinates of the result are the variables that have the name of their only
dimension, and those that attributes `coordinates` name. -/
theorem C73_coordinates (cf : Cf V) (ds : Dset V) (hr : Convertible ds)
    (ha : (ds.attrs.map (·.1)).Nodup)
    (hc : ∀ v ∈ ds.vars, Conventional cf v) (X : XDset V) (h : toXarray cf true ds = .ok X)
    (n : String) :
    n ∈ X.coords ↔ ∃ v ∈ ds.vars, v.name = n ∧
      (v.dims = [n] ∨ NamedBy cf ds n ∨ NamedGlobally cf ds n) := by
  obtain ⟨h1, h2, _, named, hg, hn⟩ := toXarray_spec hr h
  have hnamed : ∀ n, n ∈ named ↔ NamedGlobally cf ds n := by
    intro n
    rw [dictOf_id _ ha] at hg
    simp only [decodeGlobal] at hg
    unfold NamedGlobally
    cases hl : ds.attrs.lookup "coordinates" with
    | none =>
      rw [hl] at hg
      injection hg with hg
      rw [← (Prod.mk.inj hg).2]
      simp
    | some c =>
      rw [hl] at hg
      cases hw : cf.words c with
      | none => simp only [hw] at hg; cases hg
      | some w =>
        simp only [hw] at hg
        injection hg with hg
        rw [← (Prod.mk.inj hg).2]
        constructor
        · intro hm; exact ⟨c, _, rfl, hw, hm⟩
        · rintro ⟨c', w', e1, e2, e3⟩
          cases e1
          rw [hw] at e2
          cases e2
          exact e3
  have hby : (∃ v ∈ ds.vars, ∃ x l, decodeCoords cf (ds.vars.map (·.name))
      (decodeVar cf true (rawVar v)) = .ok (x, l) ∧ n ∈ l) ↔ NamedBy cf ds n := by
    constructor
    · rintro ⟨v, hv, x, l, hd, hm⟩
      rw [decodeVar_masked (hc v hv)] at hd
      obtain ⟨c, w, e1, e2, e3, e4⟩ := ((decodeCoords_spec hd).2.2.2.2.2.2.2.2.1 n).1 hm
      exact ⟨v, hv, c, w, by rw [← decodeMask_lookup cf v _ (by decide) (by decide)]; exact e1, e2,
        e3, e4⟩
    · rintro ⟨v, hv, c, w, e1, e2, e3, e4⟩
      obtain ⟨i, hi⟩ := List.getElem?_of_mem hv
      obtain ⟨x, l, _, hd⟩ := h2 i v hi
      refine ⟨v, hv, x, l, hd, ?_⟩
      rw [decodeVar_masked (hc v hv)] at hd
      exact ((decodeCoords_spec hd).2.2.2.2.2.2.2.2.1 n).2 ⟨c, w, by
        rw [decodeMask_lookup cf v _ (by decide) (by decide)]; exact e1, e2, e3, e4⟩
  rw [hn n]
  constructor
  · rintro ⟨x, hx, hor⟩
    obtain ⟨i, hi⟩ := List.getElem?_of_mem hx
    have hlt : i < ds.vars.length := by
      have := (List.getElem?_eq_some_iff.1 hi).1
      omega
    obtain ⟨x', l, e1, e2⟩ := h2 i _ (List.getElem?_eq_getElem hlt)
    rw [hi] at e1
    injection e1 with e1
    injection e1 with e1 e3
    subst e3
    refine ⟨ds.vars[i], List.getElem_mem hlt, e1.symm, ?_⟩
    rcases hor with hor | hor | hor
    · rw [decodeVar_masked (hc _ (List.getElem_mem hlt))] at e2
      rw [(decodeCoords_spec e2).1] at hor
      exact .inl hor
    · exact .inr (.inr ((hnamed n).1 hor))
    · exact .inr (.inl (hby.1 hor))
  · rintro ⟨v, hv, rfl, hor⟩
    obtain ⟨i, hi⟩ := List.getElem?_of_mem hv
    obtain ⟨x, l, e1, e2⟩ := h2 i v hi
    refine ⟨x, List.mem_of_getElem? e1, ?_⟩
    rcases hor with hor | hor | hor
    · rw [decodeVar_masked (hc v hv)] at e2
      exact .inl (by rw [(decodeCoords_spec e2).1]; exact hor)
    · exact .inr (.inr (hby.2 hor))
    · exact .inr (.inl ((hnamed _).2 hor))

/-- The sizes of the dimensions as a table. -/
theorem sizes_agree {ds : Dset V} (size : String → Nat)
    (hs : ∀ v ∈ ds.vars, v.array.shape = v.dims.map size) (v : Xr.Var V) (hv : v ∈ ds.vars)
    (i : Nat) (d : String) (hd : v.dims[i]? = some d) :
    ∃ n, v.array.shape[i]? = some n ∧
      ((ds.vars.flatMap (·.dims)).map fun d => (d, size d)).lookup d = some n := by
  refine ⟨size d, by rw [hs v hv, List.getElem?_map, hd]; rfl, ?_⟩
  rw [lookup_sizes, if_pos]
  exact List.mem_flatMap.2 ⟨v, hv, List.mem_of_getElem? hd⟩

/-- C73: the conversion to xarray succeeds, except for a variable of several dimensions that is
named as one of them, and for attributes `coordinates` that are not strings. -/
theorem C73_accepted (cf : Cf V) (mask : Bool) (ds : Dset V) (hr : Convertible ds)
    (ha : (ds.attrs.map (·.1)).Nodup)
    (hc : ∀ v ∈ ds.vars, Conventional cf v)
    (hn : ∀ v ∈ ds.vars, v.name ∈ v.dims → v.dims = [v.name])
    (hw : ∀ v ∈ ds.vars, ∀ c, v.attrs.lookup "coordinates" = some c → ∃ l, cf.words c = some l)
    (hg : ∀ c, ds.attrs.lookup "coordinates" = some c → ∃ l, cf.words c = some l) :
    ∃ X, toXarray cf mask ds = .ok X := by
  have hdec : ∀ v ∈ ds.vars, ∃ x l, decoded cf mask (ds.vars.map (·.name)) v =
      .ok (v.name, x, l) ∧ x.dims = v.dims ∧ x.data.shape = v.array.shape := by
    intro v hv
    have hx : ∀ x, (x = decodeMask cf (rawVar v) ∨ x = rawVar v) → decodeVar cf mask (rawVar v) = x →
        ∃ x l, decoded cf mask (ds.vars.map (·.name)) v = .ok (v.name, x, l) ∧
          x.dims = v.dims ∧ x.data.shape = v.array.shape := by
      intro x hx he
      obtain ⟨⟨y, l⟩, hy⟩ := decodeCoords_ok cf (ds.vars.map (·.name)) x (by
        intro c hl
        refine hw v hv c ?_
        rcases hx with rfl | rfl
        · rw [← decodeMask_lookup cf v _ (by decide) (by decide)]; exact hl
        · rw [← rawAttrs_other v _ (by decide)]; exact hl)
      refine ⟨y, l, ?_, ?_, ?_⟩
      · simp only [decoded, toVariable_ok (regular_rank hr hv) (hr.attrs v hv), bind, Except.bind,
          he, hy]
      · rw [(decodeCoords_spec hy).1]; rcases hx with rfl | rfl <;> rfl
      · rw [(decodeCoords_spec hy).2.1]; rcases hx with rfl | rfl <;> rfl
    cases mask with
    | true => exact hx _ (.inl rfl) (decodeVar_masked (hc v hv))
    | false => exact hx _ (.inr rfl) (decodeVar_raw (hc v hv))
  obtain ⟨l, hl⟩ := mapPy_exists (decoded cf mask (ds.vars.map (·.name))) ds.vars
    fun v hv => by
      obtain ⟨x, l, h, _⟩ := hdec v hv
      exact ⟨_, h⟩
  have hin : ∀ t ∈ l.map (fun t => (t.1, t.2.1)), ∃ v ∈ ds.vars, t.1 = v.name ∧
      t.2.dims = v.dims ∧ t.2.data.shape = v.array.shape := by
    intro t ht
    obtain ⟨q, hq, rfl⟩ := List.mem_map.1 ht
    obtain ⟨v, hv, hd⟩ := mapPy_mem _ _ _ hl q hq
    obtain ⟨x, l', h1, h2, h3⟩ := hdec v hv
    rw [h1] at hd
    cases hd
    exact ⟨v, hv, rfl, h2, h3⟩
  obtain ⟨size, hs⟩ := hr.sized
  have hck : checkVars [] (l.map fun t => (t.1, t.2.1)) = .ok () := by
    refine checkVars_ok _ _ ((ds.vars.flatMap (·.dims)).map fun d => (d, size d))
      (fun _ _ h => by cases h) (fun t ht hm => ?_) (fun t ht i d hd => ?_)
    · obtain ⟨v, hv, e1, e2, _⟩ := hin t ht
      rw [e1, e2] at hm
      rw [e2, hn v hv hm]
      rfl
    · obtain ⟨v, hv, e1, e2, e3⟩ := hin t ht
      rw [e2] at hd
      rw [e3]
      exact sizes_agree size hs v hv i d hd
  have hgl : ∃ g, decodeGlobal cf (dictOf ds.attrs) = .ok g := by
    rw [dictOf_id _ ha]
    simp only [decodeGlobal]
    cases hcl : ds.attrs.lookup "coordinates" with
    | none => exact ⟨_, rfl⟩
    | some c =>
      obtain ⟨w, hw⟩ := hg c hcl
      simp only [hw]
      exact ⟨_, rfl⟩
  obtain ⟨g, hgl⟩ := hgl
  simp only [toXarray, hl, hgl, hck, bind, Except.bind]
  exact ⟨_, rfl⟩

/-- C73: a variable of several dimensions named as one of them cannot be converted. -/
theorem C73_refused (cf : Cf V) (ds : Dset V) (hr : Convertible ds)
    (hc : ∀ v ∈ ds.vars, Conventional cf v) (v : Xr.Var V) (hv : v ∈ ds.vars)
    (hn : v.name ∈ v.dims) (hl : v.dims.length ≠ 1) (X : XDset V) :
    toXarray cf true ds ≠ .ok X := by
  intro h
  obtain ⟨_, h2, h3, _⟩ := toXarray_spec hr h
  obtain ⟨i, hi⟩ := List.getElem?_of_mem hv
  obtain ⟨x, l, e1, e2⟩ := h2 i v hi
  have hd := (image_of (hc v hv) e2).dims
  exact hl (hd ▸ checkVars_named h3 _ (List.mem_of_getElem? e1) (by simp only [hd]; exact hn))

/-! ### From xarray -/

/-- C73: `from_xarray` gives the variables in order, with the dimensions, the elements, the
attributes, the fill value and the codecs of the encoding; the coordinates become variables. -/
theorem C73_from_xarray (b : Bool) (X : XDset V) (size : String → Nat)
    (hs : ∀ t ∈ X.vars, t.2.data.shape = t.2.dims.map size) :
    ∃ ds, fromXarray b X = .ok ds ∧ ds.delayed = b ∧ ds.attrs = X.attrs ∧ ds.chunks = [] ∧
      ds.vars.length = X.vars.length ∧
      ∀ (i : Nat) (n : String) (x : XVar V), X.vars[i]? = some (n, x) →
        ∃ v, ds.vars[i]? = some v ∧ v.name = n ∧ v.dims = x.dims ∧ v.array = x.data ∧
          v.fill = x.enc.fill ∧ v.attrs = x.attrs ∧ v.compressor = x.enc.compressor ∧
          (∀ l, x.enc.filters = some l → v.filters = l) ∧
          (x.enc.filters = none → v.filters = []) := by
  obtain ⟨dims, h1, _⟩ := updateDims_ok ((X.vars.map fromVariable).map (Var.base b)) []
    (((X.vars.flatMap (·.2.dims))).map fun d => (d, size d)) b (fun _ _ h => by cases h)
    (by
      intro v hv
      obtain ⟨w, _, rfl⟩ := List.mem_map.1 hv
      rfl)
    (by
      intro v hv i d hd
      obtain ⟨w, hw, rfl⟩ := List.mem_map.1 hv
      obtain ⟨t, ht, rfl⟩ := List.mem_map.1 hw
      refine ⟨size d, ?_, ?_⟩
      · show t.2.data.shape[i]? = _
        rw [hs t ht, List.getElem?_map, show t.2.dims[i]? = some d from hd]
        rfl
      · rw [lookup_sizes, if_pos]
        exact List.mem_flatMap.2 ⟨t, ht, List.mem_of_getElem? hd⟩)
  refine ⟨⟨X.vars.map fromVariable, X.attrs, [], b⟩, ?_, rfl, rfl, rfl, by simp, ?_⟩
  · simp only [fromXarray, h1, bind, Except.bind]
  · intro i n x hx
    refine ⟨fromVariable (n, x), by rw [List.getElem?_map, hx]; rfl, rfl, rfl, rfl, rfl, rfl, rfl,
      ?_, ?_⟩
    · intro l hl; simp only [fromVariable, hl]
    · intro hl; simp only [fromVariable, hl]

/-- The sizes of the dimensions after a conversion. -/
theorem toXarray_sized {cf : Cf V} {ds : Dset V} {X : XDset V} (hr : Convertible ds)
    (hc : ∀ v ∈ ds.vars, Conventional cf v) (h : toXarray cf true ds = .ok X) :
    ∃ size : String → Nat, ∀ t ∈ X.vars, t.2.data.shape = t.2.dims.map size := by
  obtain ⟨size, hs⟩ := hr.sized
  obtain ⟨h1, h2⟩ := C73_to_xarray cf ds hr hc X h
  refine ⟨size, fun t ht => ?_⟩
  obtain ⟨i, hi⟩ := List.getElem?_of_mem ht
  have hlt : i < ds.vars.length := by
    have := (List.getElem?_eq_some_iff.1 hi).1
    omega
  obtain ⟨x, e1, e2⟩ := h2 i _ (List.getElem?_eq_getElem hlt)
  rw [hi] at e1
  cases e1
  rw [e2.data.shape, e2.dims]
  exact hs _ (List.getElem_mem hlt)

/-! ### Round trips -/

/-- C73, full statement: a dataset converted to xarray and back shows the same elements, and the
same of them are missing.  NaN is equal to nothing. -/
def C73_full : Prop :=
  ∀ (cf : Cf Int) (b : Bool) (ds ds' : Dset Int) (X : XDset Int), Convertible ds →
    (∀ v ∈ ds.vars, Conventional cf v) → (∀ x, cf.eqv cf.nan x = false) →
    toXarray cf true ds = .ok X → fromXarray b X = .ok ds' →
    ∀ (i : Nat) (v v' : Xr.Var Int), ds.vars[i]? = some v → ds'.vars[i]? = some v' →
      ∀ idx, Chunk.values cf.eqv v'.fill v'.array idx = Chunk.values cf.eqv v.fill v.array idx

/-- C73: a dataset converted to xarray and back has the same variables, with their dimensions,
fill values, codecs and attributes, those that describe missing elements and coordinates apart;
the elements that were not missing are the same.  Missing: the elements that were missing, which
are now NaN (`C73_missing`), and the chunks. -/
theorem C73_round_trip_partial (cf : Cf V) (b : Bool) (ds : Dset V) (hr : Convertible ds)
    (hc : ∀ v ∈ ds.vars, Conventional cf v) (X : XDset V) (h : toXarray cf true ds = .ok X) :
    ∃ ds', fromXarray b X = .ok ds' ∧ ds'.vars.length = ds.vars.length ∧
      ∀ (i : Nat) (v : Xr.Var V), ds.vars[i]? = some v →
        ∃ v', ds'.vars[i]? = some v' ∧ v'.name = v.name ∧ v'.dims = v.dims ∧
          NanFilled cf v v'.array ∧ (∀ f, v'.fill = some f ↔ FillOf v f) ∧
          (∀ k, k ∉ cfNames → v'.attrs.lookup k = v.attrs.lookup k) ∧
          v'.compressor = v.compressor ∧ v'.filters = v.filters := by
  obtain ⟨size, hs⟩ := toXarray_sized hr hc h
  obtain ⟨ds', h1, _, _, _, h2, h3⟩ := C73_from_xarray b X size hs
  obtain ⟨h4, h5⟩ := C73_to_xarray cf ds hr hc X h
  refine ⟨ds', h1, by rw [h2, h4], fun i v hv => ?_⟩
  obtain ⟨x, e1, e2⟩ := h5 i v hv
  obtain ⟨v', g1, g2, g3, g4, g5, g6, g7, g8, g9⟩ := h3 i v.name x e1
  refine ⟨v', g1, g2, by rw [g3, e2.dims], by rw [g4]; exact e2.data, ?_, ?_,
    by rw [g7, e2.compressor], ?_⟩
  · intro f; rw [g5]; exact e2.fill f
  · intro k hk; rw [g6]; exact e2.attrs k hk
  · cases hf : x.enc.filters with
    | some l => rw [g8 l hf]; exact ((e2.filters l).1 hf).1.symm
    | none =>
      rw [g9 hf]
      refine Classical.byContradiction fun hne => ?_
      have := (e2.filters v.filters).2 ⟨rfl, fun h => hne h.symm⟩
      rw [hf] at this
      cases this

/-- C73: an element that is missing in a dataset, once it is converted to xarray and back, is a
NaN that is not missing. -/
theorem C73_missing (cf : Cf V) (hnan : ∀ x, cf.eqv cf.nan x = false) (b : Bool) (ds : Dset V)
    (hr : Convertible ds) (hc : ∀ v ∈ ds.vars, Conventional cf v) (X : XDset V)
    (h : toXarray cf true ds = .ok X) (ds' : Dset V) (h' : fromXarray b X = .ok ds') (i : Nat)
    (v : Xr.Var V) (hv : ds.vars[i]? = some v) (idx : List Nat)
    (hm : Chunk.values cf.eqv v.fill v.array idx = some none) :
    ∃ v', ds'.vars[i]? = some v' ∧
      Chunk.values cf.eqv v'.fill v'.array idx = some (some cf.nan) := by
  obtain ⟨ds1, h1, _, h2⟩ := C73_round_trip_partial cf b ds hr hc X h
  rw [h'] at h1
  cases h1
  obtain ⟨v', e1, _, _, e2, e3, _⟩ := h2 i v hv
  refine ⟨v', e1, ?_⟩
  simp only [Chunk.values] at hm ⊢
  cases hg : v.array.get idx with
  | none => rw [hg] at hm; cases hm
  | some e =>
    rw [hg] at hm
    cases hf : v.fill with
    | none => rw [hf] at hm; cases hm
    | some f =>
      rw [hf] at hm
      simp only [Option.map_some, Option.some.injEq] at hm
      have he : cf.eqv e f = true := by
        cases hq : cf.eqv e f with
        | true => rfl
        | false => simp [hq] at hm
      rw [e2.nan idx e f hg (.inl (.inl hf)) he, (e3 f).2 (.inl hf)]
      simp [hnan f]

/-- C73: without `mask_and_scale`, the elements are those of the arrays, and the fill value is
an attribute: converted back, the variable has no fill value, and no element is missing. -/
theorem C73_unmasked (cf : Cf V) (ds : Dset V) (hr : Convertible ds)
    (hc : ∀ v ∈ ds.vars, Conventional cf v) (X : XDset V) (h : toXarray cf false ds = .ok X)
    (i : Nat) (v : Xr.Var V) (hv : ds.vars[i]? = some v) :
    ∃ x, X.vars[i]? = some (v.name, x) ∧ x.dims = v.dims ∧ x.data = v.array ∧
      x.enc.fill = none ∧ (∀ f, x.attrs.lookup "_FillValue" = some f ↔ FillOf v f) ∧
      (fromVariable (v.name, x)).fill = none := by
  obtain ⟨_, h2, _⟩ := toXarray_spec hr h
  obtain ⟨x, l, h3, h4⟩ := h2 i v hv
  rw [decodeVar_raw (hc v (List.mem_of_getElem? hv))] at h4
  obtain ⟨e1, e2, e3, e4, _⟩ := decodeCoords_spec h4
  refine ⟨x, h3, e1, e2, e4, fun f => ?_, e4⟩
  rw [e3 _ (by decide)]
  exact rawAttrs_fill v f

theorem xarray_ext {a b : Arr V} (h1 : a.shape = b.shape) (h2 : ∀ idx, a.get idx = b.get idx) :
    a = b := by
  cases a; cases b
  simp only at h1 h2
  subst h1
  congr
  exact funext h2

/-- C73: an xarray dataset that comes from a dataset, converted back and again, has the same
variables: same dimensions, same elements, same attributes, same fill value.  The conversions
succeed. -/
theorem C73_stable (cf : Cf V) (b : Bool) (ds : Dset V) (hr : Convertible ds)
    (ha : (ds.attrs.map (·.1)).Nodup)
    (hc : ∀ v ∈ ds.vars, Conventional cf v) (X : XDset V) (h : toXarray cf true ds = .ok X) :
    ∃ ds' X', fromXarray b X = .ok ds' ∧ toXarray cf true ds' = .ok X' ∧
      X'.vars.length = X.vars.length ∧
      ∀ (i : Nat) (n : String) (x : XVar V), X.vars[i]? = some (n, x) →
        ∃ x', X'.vars[i]? = some (n, x') ∧ x'.dims = x.dims ∧ x'.data = x.data ∧
          (∀ k, x'.attrs.lookup k = x.attrs.lookup k) ∧ x'.enc.fill = x.enc.fill := by
  obtain ⟨size, hs⟩ := toXarray_sized hr hc h
  obtain ⟨ds', h1, _, hattrs, _, hlen, hfrom⟩ := C73_from_xarray b X size hs
  obtain ⟨hXl, hspec, hck, named, hglob, _⟩ := toXarray_spec hr h
  -- each variable of the result, with where it comes from
  have hback : ∀ (i : Nat) (v' : Xr.Var V), ds'.vars[i]? = some v' → ∃ v x l,
      ds.vars[i]? = some v ∧ X.vars[i]? = some (v.name, x) ∧ v'.name = v.name ∧
      v'.dims = x.dims ∧ v'.array = x.data ∧ v'.fill = x.enc.fill ∧ v'.attrs = x.attrs ∧
      decodeCoords cf (ds.vars.map (·.name)) (decodeMask cf (rawVar v)) = .ok (x, l) := by
    intro i v' hv'
    have hlt : i < ds.vars.length := by
      have := (List.getElem?_eq_some_iff.1 hv').1
      omega
    obtain ⟨x, l, e1, e2⟩ := hspec i _ (List.getElem?_eq_getElem hlt)
    obtain ⟨w, g1, g2, g3, g4, g5, g6, _⟩ := hfrom i _ x e1
    rw [hv'] at g1
    cases g1
    rw [decodeVar_masked (hc _ (List.getElem_mem hlt))] at e2
    exact ⟨_, x, l, List.getElem?_eq_getElem hlt, e1, g2, g3, g4, g5, g6, e2⟩
  have hnames : ds'.vars.map (·.name) = ds.vars.map (·.name) := by
    apply List.ext_getElem?
    intro i
    rw [List.getElem?_map, List.getElem?_map]
    cases hv' : ds'.vars[i]? with
    | none =>
      have : ds.vars[i]? = none := by
        rw [List.getElem?_eq_none_iff] at hv' ⊢
        omega
      rw [this]
    | some v' =>
      obtain ⟨v, _, _, e1, _, e2, _⟩ := hback i v' hv'
      rw [e1]
      simp only [Option.map_some, e2]
  have hmem : ∀ v' ∈ ds'.vars, ∃ v x l, v ∈ ds.vars ∧ (v.name, x) ∈ X.vars ∧ v'.name = v.name ∧
      v'.dims = x.dims ∧ v'.array = x.data ∧ v'.fill = x.enc.fill ∧ v'.attrs = x.attrs ∧
      decodeCoords cf (ds.vars.map (·.name)) (decodeMask cf (rawVar v)) = .ok (x, l) := by
    intro v' hv'
    obtain ⟨i, hi⟩ := List.getElem?_of_mem hv'
    obtain ⟨v, x, l, e1, e2, e3⟩ := hback i v' hi
    exact ⟨v, x, l, List.mem_of_getElem? e1, List.mem_of_getElem? e2, e3⟩
  have hr' : Convertible ds' := by
    refine ⟨by rw [hnames]; exact hr.names, fun v' hv' => ?_, size, fun v' hv' => ?_⟩
    · obtain ⟨v, x, l, e1, _, _, _, _, _, e6, e7⟩ := hmem v' hv'
      rw [e6]
      exact (decodeCoords_spec e7).2.2.2.2.2.2.2.1
        (pop_nodup _ (pop_nodup _ (rawAttrs_nodup (hr.attrs v e1))))
    · obtain ⟨v, x, l, _, e2, _, e3, e4, _⟩ := hmem v' hv'
      rw [e3, e4]
      exact hs _ e2
  have hc' : ∀ v' ∈ ds'.vars, Conventional cf v' := by
    intro v' hv' attrs data hal
    obtain ⟨v, x, l, e1, _, _, _, _, _, e6, e7⟩ := hmem v' hv'
    refine hc v e1 attrs data fun a ha => ?_
    rcases hal a ha with h | h
    · rw [e6] at h
      exact rawAttrs_mem (mem_pop (mem_pop ((decodeCoords_spec e7).2.2.2.2.2.2.1 a h)))
    · exact .inr h
  have hglob' : X.attrs.lookup "coordinates" = none ∧ (X.attrs.map (·.1)).Nodup := by
    rw [dictOf_id _ ha] at hglob
    simp only [decodeGlobal] at hglob
    cases hl : ds.attrs.lookup "coordinates" with
    | none =>
      rw [hl] at hglob
      injection hglob with hglob
      rw [← (Prod.mk.inj hglob).1]
      exact ⟨hl, ha⟩
    | some c =>
      rw [hl] at hglob
      cases hw : cf.words c with
      | none => simp only [hw] at hglob; cases hglob
      | some w =>
        simp only [hw] at hglob
        injection hglob with hglob
        rw [← (Prod.mk.inj hglob).1]
        exact ⟨by rw [lookup_pop, if_pos rfl], pop_nodup _ ha⟩
  obtain ⟨X', hX'⟩ := C73_accepted cf true ds' hr' (by rw [hattrs]; exact hglob'.2) hc'
    (by
      intro v' hv' hn
      obtain ⟨v, x, l, _, e2, e3, e4, _⟩ := hmem v' hv'
      rw [e3, e4] at hn
      have := checkVars_named hck _ e2 hn
      obtain ⟨d, hd⟩ := List.length_eq_one_iff.1 this
      rw [e3, e4]
      simp only at hd
      rw [hd] at hn ⊢
      rw [List.mem_singleton.1 hn])
    (by
      intro v' hv' c hcl
      obtain ⟨v, x, l, _, _, _, _, _, _, e6, e7⟩ := hmem v' hv'
      rw [e6] at hcl
      obtain ⟨w, hw, _⟩ := decodeCoords_left e7 hcl
      exact ⟨w, hw⟩)
    (by intro c hcl; rw [hattrs, hglob'.1] at hcl; cases hcl)
  obtain ⟨hXl', hspec', _⟩ := toXarray_spec hr' hX'
  refine ⟨ds', X', h1, hX', by omega, fun i n x hx => ?_⟩
  obtain ⟨v', g1, _⟩ := hfrom i n x hx
  obtain ⟨v, x0, l, e1, e2, e3, e4, e5, e6, e7, e8⟩ := hback i v' g1
  rw [hx] at e2
  injection e2 with e2
  injection e2 with e2 e9
  subst e9
  obtain ⟨x', l', k1, k2⟩ := hspec' i v' g1
  have him := image_of (hc v (List.mem_of_getElem? e1)) (names := ds.vars.map (·.name)) (x := x)
    (l := l) (by rw [decodeVar_masked (hc v (List.mem_of_getElem? e1))]; exact e8)
  have him' := image_of (hc' v' (List.mem_of_getElem? g1)) k2
  have hres : x.attrs.lookup "_FillValue" = none ∧ x.attrs.lookup "missing_value" = none := by
    have := decodeCoords_spec e8
    exact ⟨by rw [this.2.2.1 _ (by decide)]; exact (decodeMask_reserved cf v).1,
      by rw [this.2.2.1 _ (by decide)]; exact (decodeMask_reserved cf v).2⟩
  have hfo : ∀ f, FillOf v' f ↔ x.enc.fill = some f := by
    intro f
    simp only [FillOf, e6, e7, hres.1]
    simp
  have hmo : ∀ f, MissingOf v' f ↔ x.enc.fill = some f := by
    intro f
    simp only [MissingOf, hfo, e7, hres.2]
    simp
  refine ⟨x', by rw [k1, e3, ← e2], by rw [him'.dims, e4], ?_, ?_, ?_⟩
  · refine xarray_ext (by rw [him'.data.shape, e5]) fun idx => ?_
    cases hg : x.data.get idx with
    | none => exact him'.data.outside idx (by rw [e5]; exact hg)
    | some r =>
      by_cases hex : ∃ f, MissingOf v' f ∧ cf.eqv r f = true
      · obtain ⟨f, hf, hrf⟩ := hex
        rw [him'.data.nan idx r f (by rw [e5]; exact hg) hf hrf]
        cases hv : v.array.get idx with
        | none =>
          have := him.data.outside idx hv
          rw [hg] at this
          cases this
        | some e =>
          by_cases hm : ∃ f, MissingOf v f ∧ cf.eqv e f = true
          · obtain ⟨f', hf', he'⟩ := hm
            have := him.data.nan idx e f' hv hf' he'
            rw [hg] at this
            exact this.symm
          · have := him.data.same idx e hv fun f' hf' => by
              cases hq : cf.eqv e f' with
              | false => rfl
              | true => exact absurd ⟨f', hf', hq⟩ hm
            rw [hg] at this
            cases this
            exact absurd ⟨f, .inl ((him.fill f).1 ((hmo f).1 hf)), hrf⟩ hm
      · exact him'.data.same idx r (by rw [e5]; exact hg) fun f hf => by
          cases hq : cf.eqv r f with
          | false => rfl
          | true => exact absurd ⟨f, hf, hq⟩ hex
  · intro k
    rw [decodeVar_masked (hc' v' (List.mem_of_getElem? g1)), hnames] at k2
    have hkeep : decodeCoords cf (ds.vars.map (·.name)) (decodeMask cf (rawVar v')) =
        .ok (decodeMask cf (rawVar v'), []) := by
      apply decodeCoords_keep
      intro c hcl
      rw [decodeMask_lookup cf v' _ (by decide) (by decide), e7] at hcl
      exact decodeCoords_left e8 hcl
    rw [hkeep] at k2
    cases k2
    by_cases hk1 : k = "_FillValue"
    · rw [hk1, (decodeMask_reserved cf v').1, hres.1]
    · by_cases hk2 : k = "missing_value"
      · rw [hk2, (decodeMask_reserved cf v').2, hres.2]
      · rw [decodeMask_lookup cf v' k hk1 hk2, e7]
  · apply Option.ext
    intro f
    rw [him'.fill f, hfo f]

/-! ### A case -/

namespace XrCase

/-- -1 stands for NaN; 100 is a string that names a variable, 200 one that names no variable. -/
def cf : Cf Int where
  eqv x y := decide (x = y) && decide (x ≠ -1)
  nan := -1
  words c := if c = 100 then some ["lat"] else if c = 200 then some ["lon"] else none
  extra a d := (a, d)

def line (f : Nat → Option Int) : Arr Int where
  shape := [3]
  get
    | [i] => f i
    | _ => none

def elements : Nat → Option Int
  | 0 => some 4
  | 1 => some 9
  | 2 => some 6
  | _ => none

def positions : Nat → Option Int
  | 0 => some 1
  | 1 => some 2
  | 2 => some 3
  | _ => none

def height : Xr.Var Int where
  name := "ssh"
  dims := ["time"]
  array := line elements
  fill := some 9
  attrs := [("units", 7), ("coordinates", 100), ("missing_value", 6)]
  compressor := some 1
  filters := [5]

def axis (name : String) (attrs : List (Attr Int)) : Xr.Var Int where
  name := name
  dims := ["time"]
  array := line positions
  fill := none
  attrs := attrs
  compressor := none
  filters := []

def ds : Dset Int where
  vars := [axis "time" [], axis "lat" [("coordinates", 200)], height]
  attrs := [("title", 8)]
  chunks := [("time", 2)]
  delayed := true

theorem regular : Convertible ds := by
  refine ⟨by decide +kernel, ?_, fun _ => 3, ?_⟩
  · intro v hv
    simp only [ds, List.mem_cons, List.not_mem_nil, or_false] at hv
    rcases hv with rfl | rfl | rfl <;> decide +kernel
  · intro v hv
    simp only [ds, List.mem_cons, List.not_mem_nil, or_false] at hv
    rcases hv with rfl | rfl | rfl <;> rfl

theorem conventional : ∀ v ∈ ds.vars, Conventional cf v := fun _ _ _ _ _ => rfl

theorem missing_nan : ∀ x, cf.eqv cf.nan x = false := by
  intro x
  simp [cf]

def shown (X : XDset Int) : List (String × List String × List (Option Int) × List (Attr Int) ×
    Option Int) :=
  X.vars.map fun t => (t.1, t.2.dims, (List.range 4).map (fun i => t.2.data.get [i]), t.2.attrs,
    t.2.enc.fill)

/-- The conversion succeeds: missing elements are NaN, the attributes of missing elements and the
resolved coordinates are gone, `lat` and `time` are coordinates. -/
example : (toXarray cf true ds).map (fun X => (shown X, X.coords)) =
    .ok ([("time", ["time"], [some 1, some 2, some 3, none], [], none),
      ("lat", ["time"], [some 1, some 2, some 3, none], [("coordinates", 200)], none),
      ("ssh", ["time"], [some 4, some (-1), some (-1), none], [("units", 7)], some 9)],
      ["time", "lat"]) := rfl

/-- Without the masks the elements are unchanged, and the fill value is an attribute. -/
example : (toXarray cf false ds).map (fun X => (shown X).drop 2) =
    .ok [("ssh", ["time"], [some 4, some 9, some 6, none],
      [("units", 7), ("missing_value", 6), ("_FillValue", 9)], none)] := rfl

def back : Py (Dset Int) := do fromXarray false (← toXarray cf true ds)

/-- There and back: 9 was missing, it is NaN and is an element. -/
example : back.map (fun d => (d.vars.map fun v => (v.name, v.fill, v.attrs, v.filters,
      (List.range 3).map fun i => Chunk.values cf.eqv v.fill v.array [i]), d.chunks)) =
    .ok ([("time", none, [], [], [some (some 1), some (some 2), some (some 3)]),
      ("lat", none, [("coordinates", 200)], [], [some (some 1), some (some 2), some (some 3)]),
      ("ssh", some 9, [("units", 7)], [5],
        [some (some 4), some (some (-1)), some (some (-1))])], []) := rfl

example : Chunk.values cf.eqv height.fill height.array [1] = some none := rfl

/-- `lat` is a coordinate that the second conversion forgets. -/
example : (do toXarray cf true (← back) : Py (XDset Int)).map (fun X => X.coords) =
    .ok ["time"] := rfl

/-- A variable of several dimensions that is named as one of them is refused. -/
example : (toXarray cf true ({ ds with vars := [{ axis "time" [] with
      dims := ["time", "x"], array := { shape := [3, 0], get := fun _ => none } }] })).map shown =
    .error .valueError := rfl

/-- An attribute `coordinates` that is not a string is refused. -/
example : (toXarray cf true ({ ds with vars := [axis "time" [("coordinates", 3)] ] })).map shown =
    .error .attributeError := rfl

end XrCase

/-- C73: as the code is, elements that were missing are not after a conversion to xarray and
back. -/
theorem C73_counterexample : ¬ C73_full := by
  intro h
  have hX : ∃ X, toXarray XrCase.cf true XrCase.ds = .ok X ∧
      ∃ d, fromXarray false X = .ok d ∧ ∃ v', d.vars[2]? = some v' ∧
        Chunk.values XrCase.cf.eqv v'.fill v'.array [1] = some (some (-1)) :=
    ⟨_, rfl, _, rfl, _, rfl, rfl⟩
  obtain ⟨X, h1, d, h2, v', h3, h4⟩ := hX
  have := h XrCase.cf false XrCase.ds d X XrCase.regular XrCase.conventional XrCase.missing_nan h1
    h2 2 XrCase.height v' rfl h3 [1]
  rw [h4] at this
  exact absurd this (by decide +kernel)

/-- The other way: a dataset of xarray that comes from a dataset keeps its coordinates. -/
def C73_full_coordinates : Prop :=
  ∀ (cf : Cf Int) (b : Bool) (ds ds' : Dset Int) (X X' : XDset Int), Convertible ds →
    (∀ v ∈ ds.vars, Conventional cf v) →
    toXarray cf true ds = .ok X → fromXarray b X = .ok ds' → toXarray cf true ds' = .ok X' →
    ∀ n, n ∈ X.coords → n ∈ X'.coords

/-- C73: as the code is, coordinates that are not dimensions are lost. -/
theorem C73_counterexample_coordinates : ¬ C73_full_coordinates := by
  intro h
  have hX : ∃ X, toXarray XrCase.cf true XrCase.ds = .ok X ∧ "lat" ∈ X.coords ∧
      ∃ d, fromXarray false X = .ok d ∧ ∃ X', toXarray XrCase.cf true d = .ok X' ∧
        "lat" ∉ X'.coords :=
    ⟨_, rfl, by decide +kernel, _, rfl, _, rfl, by decide +kernel⟩
  obtain ⟨X, h1, h2, d, h3, X', h4, h5⟩ := hX
  exact h5 (h XrCase.cf false XrCase.ds d X X' XrCase.regular XrCase.conventional h1 h3 h4 _ h2)

end Verif
