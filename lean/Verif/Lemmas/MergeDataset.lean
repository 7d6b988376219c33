import Verif.Spec.MergeDataset
import Verif.Lemmas.DatasetOps
import Verif.Lemmas.OverlapArray
import Verif.Lemmas.OverlapLoad
import Verif.Lemmas.Pipeline
import Verif.Lemmas.TimeSeries

/-! The operations on datasets seen as operations on lists of records. -/

namespace Verif

open Spec Nd Ds TSD

variable {V : Type}

theorem idxOf?_of_mem {l : List String} {d : String} (h : d ∈ l) : ∃ ax, l.idxOf? d = some ax := by
  cases hi : l.idxOf? d with
  | none => exact absurd h (idxOf?_none.1 hi)
  | some ax => exact ⟨ax, rfl⟩

/-- The shape of a variable whose size along `dim` is `m`. -/
def shapeOf (dim : String) (m : Nat) (size : String → Nat) (dims : List String) : List Nat :=
  dims.map fun d => if d = dim then m else size d

theorem shapeOf_axis {dim : String} {m : Nat} {size : String → Nat} {dims : List String} {ax : Nat}
    (h : dims.idxOf? dim = some ax) : (shapeOf dim m size dims)[ax]? = some m := by
  simp [shapeOf, List.getElem?_map, idxOf?_getElem h]

theorem shapeOf_set {dim : String} {m : Nat} {size : String → Nat} {dims : List String}
    (hd : dims.Nodup) {ax : Nat} (h : dims.idxOf? dim = some ax) (k : Nat) :
    (shapeOf dim m size dims).set ax k = shapeOf dim k size dims := by
  apply List.ext_getElem?
  intro i
  rw [List.getElem?_set]
  have hax := idxOf?_getElem h
  by_cases hi : ax = i
  · subst hi
    have := (List.getElem?_eq_some_iff.1 hax).1
    rw [if_pos rfl, if_pos (by simpa [shapeOf] using this)]
    simp [shapeOf, List.getElem?_map, hax]
  · rw [if_neg hi]
    simp only [shapeOf, List.getElem?_map]
    cases hdi : dims[i]? with
    | none => rfl
    | some d =>
      have : d ≠ dim := by
        rintro rfl
        exact hi (nodup_getElem? hd hax hdi)
      simp [this]

/-- A dataset made of variables of the shapes given by `size`. -/
theorem mk_shaped (vars : List (Var V)) (attrs : List (String × String))
    (chunks : List (String × Nat)) (limit : Nat) (b : Bool) (dim : String) (m : Nat)
    (size : String → Nat) (hn : (vars.map (·.name)).Nodup) (hk : ∀ v ∈ vars, v.delayed = b)
    (h : ∀ v ∈ vars, v.array.shape = shapeOf dim m size v.dims) :
    ∃ r, mk vars attrs chunks limit (some b) = .ok r ∧ r.vars = vars ∧ r.delayed = b ∧
      Consistent r := by
  obtain ⟨dims, hmk, _⟩ := mk_sized vars attrs chunks limit b
    (fun d => if d = dim then m else size d) hn hk h
  exact ⟨_, hmk, rfl, rfl, (mk_spec _ _ _ _ _ _ hmk).1⟩

/-! ### Selection of records -/

/-- A variable with the records at the positions `pos`. -/
def takeRecords (dim : String) (pos : List Nat) (v : Var V) : Var V :=
  { v with array := match v.dims.idxOf? dim with
      | none => v.array
      | some ax => takeAxis ax pos v.array }

theorem takeIdx_get {α : Type} (l : List α) (pos : List Nat) (h : ∀ p ∈ pos, p < l.length) :
    (Np.takeIdx l pos).length = pos.length ∧
    ∀ j : Nat, (Np.takeIdx l pos)[j]? = pos[j]?.bind (l[·]?) := by
  induction pos with
  | nil => simp [Np.takeIdx]
  | cons p t ih =>
    obtain ⟨i1, i2⟩ := ih fun q hq => h q (by simp [hq])
    have hlt : p < l.length := h p (by simp)
    have hp : l[p]? = some l[p] := List.getElem?_eq_getElem hlt
    simp only [Np.takeIdx, List.filterMap_cons, hp] at i1 i2 ⊢
    refine ⟨by simp [i1], fun j => ?_⟩
    cases j with
    | zero => simp [hp]
    | succ j => simpa using i2 j

theorem takeRecords_shape {x : Axis V} {sig : Signature V} {size : String → Nat}
    {vars : List (Var V)} {l : List (Int × Content V)} (h : HoldsRecords x sig size vars l)
    (pos : List Nat) : ∀ v ∈ vars, (takeRecords x.dim pos v).array.shape =
      shapeOf x.dim pos.length size v.dims := by
  intro v hv
  obtain ⟨ax, hax⟩ := idxOf?_of_mem (h.dims v hv).2
  simp only [takeRecords, hax, takeAxis]
  rw [h.shapes v hv]
  exact shapeOf_set (h.dims v hv).1 hax _

theorem holds_taken {x : Axis V} {sig : Signature V} {size : String → Nat}
    {vars : List (Var V)} {l : List (Int × Content V)} (h : HoldsRecords x sig size vars l)
    (pos : List Nat) (hp : ∀ p ∈ pos, p < l.length) :
    HoldsRecords x sig size (vars.map (takeRecords x.dim pos)) (Np.takeIdx l pos) := by
  obtain ⟨ht1, ht2⟩ := takeIdx_get l pos hp
  have hsh := takeRecords_shape h pos
  refine ⟨by rw [List.map_map]; exact h.names, ?_, ?_, ?_, ?_, ?_, ?_⟩
  · intro n
    rw [getVar_map (f := takeRecords x.dim pos) (fun _ => rfl), ← h.signature n]
    cases getVar vars n <;> rfl
  · intro v hv
    obtain ⟨w, hw, rfl⟩ := List.mem_map.1 hv
    obtain ⟨ax, hax⟩ := idxOf?_of_mem (h.dims w hw).2
    simp only [takeRecords, hax]
    refine takeAxis_arrOk (h.arrays w hw) (n := l.length) ?_ pos hp
    rw [h.shapes w hw]
    exact shapeOf_axis hax
  · intro v hv
    obtain ⟨w, hw, rfl⟩ := List.mem_map.1 hv
    exact h.dims w hw
  · intro v hv
    obtain ⟨w, hw, rfl⟩ := List.mem_map.1 hv
    rw [ht1]
    exact hsh w hw
  · obtain ⟨v, hv, hvn, hvd, hvt⟩ := h.axis
    refine ⟨takeRecords x.dim pos v, List.mem_map_of_mem hv, hvn, hvd, ?_⟩
    intro j r' hj
    rw [ht2] at hj
    cases hpj : pos[j]? with
    | none => rw [hpj] at hj; cases hj
    | some p =>
      rw [hpj] at hj
      obtain ⟨y, hy1, hy2⟩ := hvt p r' hj
      refine ⟨y, ?_, hy2⟩
      have : v.dims.idxOf? x.dim = some 0 := by rw [hvd]; simp [List.idxOf?]
      simp only [takeRecords, this, takeAxis]
      simp [hpj, hy1]
  · intro j r' hj
    rw [ht2] at hj
    cases hpj : pos[j]? with
    | none => rw [hpj] at hj; cases hj
    | some p =>
      rw [hpj] at hj
      rw [h.records p r' hj]
      funext n idx
      simp only [contentAt, getVar_map (f := takeRecords x.dim pos) (fun _ => rfl)]
      cases hg : getVar vars n with
      | none => rfl
      | some v =>
        obtain ⟨hv, _⟩ := getVar_some _ _ _ hg
        obtain ⟨ax, hax⟩ := idxOf?_of_mem (h.dims v hv).2
        simp only [Option.map_some, Option.bind_some, takeRecords, hax, takeAxis]
        by_cases hlt : ax < idx.length
        · simp [hlt, hpj]
        · have e1 : idx.set ax p = idx := List.set_eq_of_length_le (by omega)
          rw [e1, List.getElem?_eq_none (by simp; omega)]
          refine get_none (h.arrays v hv) ?_
          rintro ⟨hl, _⟩
          rw [h.shapes v hv, List.length_map] at hl
          have := (List.getElem?_eq_some_iff.1 (idxOf?_getElem hax)).1
          omega

theorem series_taken {x : Axis V} {sig : Signature V} {size : String → Nat} {b : Bool}
    {ds : Dataset V} {l : List (Int × Content V)} (h : Series x sig size b ds l)
    (pos : List Nat) (hp : ∀ p ∈ pos, p < l.length) (r : Dataset V)
    (hrv : r.vars = ds.vars.map (takeRecords x.dim pos)) (hrd : r.delayed = ds.delayed)
    (hrc : Consistent r) : Series x sig size b r (Np.takeIdx l pos) :=
  ⟨by rw [hrv]; exact holds_taken h.toHoldsRecords pos hp, hrc, hrd.trans h.kind⟩

theorem series_take {x : Axis V} {sig : Signature V} {size : String → Nat} {b : Bool}
    {ds : Dataset V} {l : List (Int × Content V)} (h : Series x sig size b ds l)
    (pos : List Nat) (hp : ∀ p ∈ pos, p < l.length) :
    ∃ r, derive ds (ds.vars.map (takeRecords x.dim pos)) (some ds.delayed) = .ok r ∧
      Series x sig size b r (Np.takeIdx l pos) := by
  obtain ⟨r, hr, hrv, hrd, hrc⟩ := mk_shaped (ds.vars.map (takeRecords x.dim pos)) ds.attrs
    ds.chunks ds.limit ds.delayed x.dim pos.length size
    (by rw [List.map_map]; exact h.consistent.names)
    (by
      intro v hv
      obtain ⟨w, hw, rfl⟩ := List.mem_map.1 hv
      exact h.consistent.kind w hw)
    (by
      intro v hv
      obtain ⟨w, hw, rfl⟩ := List.mem_map.1 hv
      exact takeRecords_shape h.toHoldsRecords pos w hw)
  exact ⟨r, hr, series_taken h pos hp r hrv hrd hrc⟩

theorem indexPositions_nat (n : Nat) (l : List Nat) (h : ∀ p ∈ l, p < n) :
    indexPositions n (l.map Int.ofNat) = .ok l := by
  induction l with
  | nil => rfl
  | cons p t ih =>
    have hp := h p (by simp)
    simp only [List.map_cons, indexPositions, bind, Except.bind, ih fun q hq => h q (by simp [hq])]
    rw [if_pos (by constructor <;> simp <;> omega)]
    have : ¬ (p : Int) < 0 := by omega
    simp [this]

/-- The size of the dimension of the partitioning is the number of records. -/
theorem series_dim {x : Axis V} {sig : Signature V} {size : String → Nat} {b : Bool}
    {ds : Dataset V} {l : List (Int × Content V)} (h : Series x sig size b ds l) :
    ds.dims.lookup x.dim = some l.length := by
  obtain ⟨v, hv, _, hvd, _⟩ := h.axis
  obtain ⟨n, h1, h2⟩ := h.consistent.sizes v hv 0 x.dim (by simp [hvd])
  rw [h.shapes v hv, hvd] at h1
  simp only [List.map_cons, List.map_nil, if_true, List.getElem?_cons_zero,
    Option.some.injEq] at h1
  rw [h2, h1]

theorem series_indices {x : Axis V} {sig : Signature V} {size : String → Nat} {b : Bool}
    {ds : Dataset V} {l : List (Int × Content V)} (h : Series x sig size b ds l)
    (pos : List Nat) (hp : ∀ p ∈ pos, p < l.length) :
    ∃ r, iselIndices ds x.dim pos = .ok r ∧ Series x sig size b r (Np.takeIdx l pos) := by
  obtain ⟨r, h1, h2⟩ := series_take h pos hp
  refine ⟨r, ?_, h2⟩
  unfold iselIndices
  rw [if_neg (by rw [series_dim h]; simp)]
  have : mapPy (takeVar x.dim pos) ds.vars = .ok (ds.vars.map (takeRecords x.dim pos)) := by
    apply mapPy_ok
    intro v hv
    obtain ⟨ax, hax⟩ := idxOf?_of_mem (h.dims v hv).2
    have hs : v.array.shape[ax]? = some l.length := by
      rw [h.shapes v hv]
      exact shapeOf_axis hax
    simp only [takeVar, hax, hs, bind, Except.bind, indexPositions_nat _ _ hp, takeRecords]
  simp only [bind, Except.bind, this, h1]

theorem slice_takeIdx {α : Type} (l : List α) (i j : Nat) (hij : i ≤ j) (hj : j ≤ l.length) :
    Np.takeIdx l ((List.range (j - i)).map (i + ·)) = Np.slice l i j := by
  have hp : ∀ p ∈ (List.range (j - i)).map (i + ·), p < l.length := by
    intro p hp
    obtain ⟨k, hk, rfl⟩ := List.mem_map.1 hp
    have := List.mem_range.1 hk
    omega
  obtain ⟨h1, h2⟩ := takeIdx_get l _ hp
  apply List.ext_getElem?
  intro k
  rw [h2]
  simp only [Np.slice, List.getElem?_drop, List.getElem?_take, List.getElem?_map]
  by_cases hk : k < j - i
  · rw [List.getElem?_range hk, if_pos (by omega)]
    simp
  · rw [if_neg (by omega), List.getElem?_eq_none (by simp; omega)]
    rfl

theorem series_slice {x : Axis V} {sig : Signature V} {size : String → Nat} {b : Bool}
    {ds : Dataset V} {l : List (Int × Content V)} (h : Series x sig size b ds l) (i j : Nat)
    (hij : i ≤ j) (hj : j ≤ l.length) :
    ∃ r, TSD.iselSlice ds x.dim i j = .ok r ∧ Series x sig size b r (Np.slice l i j) := by
  obtain ⟨dims, hd⟩ := isel_piece ds h.consistent (fun v hv => ⟨h.arrays v hv, (h.dims v hv).1⟩)
    x.dim l.length (series_dim h) (i, j) hij hj
  refine ⟨_, hd, ?_⟩
  rw [← slice_takeIdx l i j hij hj]
  refine series_taken h _ ?_ _ rfl rfl ?_
  · intro p hp
    obtain ⟨k, hk, rfl⟩ := List.mem_map.1 hp
    have := List.mem_range.1 hk
    omega
  · simp only [isel] at hd
    split at hd
    · cases hd
    · simp only [bind, Except.bind] at hd
      split at hd
      · cases hd
      · exact (mk_spec _ _ _ _ _ _ hd).1

theorem range_lt {i j n : Nat} (hj : j ≤ n) :
    ∀ p ∈ (List.range (j - i)).map (i + ·), p < n := by
  intro p hp
  obtain ⟨k, hk, rfl⟩ := List.mem_map.1 hp
  have := List.mem_range.1 hk
  omega

/-- A slice of the variables holds the slice of the records. -/
theorem holds_piece {x : Axis V} {sig : Signature V} {size : String → Nat}
    {vars : List (Var V)} {l : List (Int × Content V)} (h : HoldsRecords x sig size vars l) (i j : Nat)
    (hij : i ≤ j) (hj : j ≤ l.length) :
    HoldsRecords x sig size (vars.map (pieceVar x.dim (i, j))) (Np.slice l i j) := by
  rw [← slice_takeIdx l i j hij hj]
  exact holds_taken h _ (range_lt hj)

/-- The same variables, lazy or not. -/
theorem holds_delayed {x : Axis V} {sig : Signature V} {size : String → Nat}
    {vars : List (Var V)} {l : List (Int × Content V)} (h : HoldsRecords x sig size vars l) (d : Bool) :
    HoldsRecords x sig size (vars.map fun v => { v with delayed := d }) l := by
  have hg : ∀ n, getVar (vars.map fun v => { v with delayed := d }) n =
      (getVar vars n).map fun v => { v with delayed := d } :=
    getVar_map (f := fun v => { v with delayed := d }) (fun _ => rfl) vars
  refine ⟨by rw [List.map_map]; exact h.names, ?_, ?_, ?_, ?_, ?_, ?_⟩
  · intro n
    rw [hg, ← h.signature n]
    cases getVar vars n <;> rfl
  · intro v hv
    obtain ⟨w, hw, rfl⟩ := List.mem_map.1 hv
    exact h.arrays w hw
  · intro v hv
    obtain ⟨w, hw, rfl⟩ := List.mem_map.1 hv
    exact h.dims w hw
  · intro v hv
    obtain ⟨w, hw, rfl⟩ := List.mem_map.1 hv
    exact h.shapes w hw
  · obtain ⟨v, hv, hvn, hvd, hvt⟩ := h.axis
    exact ⟨_, List.mem_map_of_mem hv, hvn, hvd, hvt⟩
  · intro j r hj
    rw [h.records j r hj]
    funext n idx
    simp only [contentAt, hg]
    cases getVar vars n <;> rfl

/-- The variables determine the records that they hold. -/
theorem holds_unique {x : Axis V} {sig : Signature V} {size : String → Nat}
    {vars : List (Var V)} {l m : List (Int × Content V)} (h : HoldsRecords x sig size vars l)
    (h' : HoldsRecords x sig size vars m) : l = m := by
  obtain ⟨v, hv, hvn, hvd, hvt⟩ := h.axis
  obtain ⟨w, hw, hwn, _, hwt⟩ := h'.axis
  have hvw : v = w := by
    have h1 := getVar_of_mem _ h.names v hv
    have h2 := getVar_of_mem _ h.names w hw
    rw [hvn] at h1
    rw [hwn, h1] at h2
    exact Option.some.inj h2
  subst hvw
  have hlen : l.length = m.length := by
    have h1 := h.shapes v hv
    rw [h'.shapes v hv, hvd] at h1
    simpa using h1.symm
  apply List.ext_getElem?
  intro j
  by_cases hj : j < l.length
  · have e1 : l[j]? = some l[j] := List.getElem?_eq_getElem hj
    have hj' : j < m.length := by omega
    have e2 : m[j]? = some m[j] := List.getElem?_eq_getElem hj'
    obtain ⟨y, y1, y2⟩ := hvt j _ e1
    obtain ⟨z, z1, z2⟩ := hwt j _ e2
    rw [y1] at z1
    cases z1
    rw [y2] at z2
    rw [e1, e2]
    congr 1
    apply Prod.ext
    · exact Option.some.inj z2
    · rw [h.records j _ e1, h'.records j _ e2]
  · rw [List.getElem?_eq_none (by omega), List.getElem?_eq_none (by omega)]

/-- Every list of variables that have the dimension, agree on the sizes and have an axis made of
dates holds records. -/
theorem holds_exists (x : Axis V) (n : Nat) (size : String → Nat) (vars : List (Var V))
    (hn : (vars.map (·.name)).Nodup) (ha : ∀ v ∈ vars, ArrOk v.array)
    (hd : ∀ v ∈ vars, v.dims.Nodup ∧ x.dim ∈ v.dims)
    (hs : ∀ v ∈ vars, v.array.shape = v.dims.map fun d => if d = x.dim then n else size d)
    (t : Var V) (ht : t ∈ vars) (htn : t.name = x.axis) (htd : t.dims = [x.dim])
    (htt : ∀ j y, t.array.get [j] = some y → x.asTime y ≠ none) :
    ∃ l, l.length = n ∧
      HoldsRecords x (fun n => (getVar vars n).map fun v => (v.dims, v.fill, v.props)) size vars l := by
  have htime : ∀ j, j < n → ∃ y k, t.array.get [j] = some y ∧ x.asTime y = some k := by
    intro j hj
    obtain ⟨y, hy⟩ := (ha t ht [j]).2 (by
      rw [hs t ht, htd]
      exact (inside_one _ _).2 (by simpa using hj))
    obtain ⟨k, hk⟩ := Option.ne_none_iff_exists'.1 (htt j y hy)
    exact ⟨y, k, hy, hk⟩
  have hlist : ∀ m, m ≤ n → ∃ l : List (Int × Content V), l.length = m ∧
      ∀ (j : Nat) (r : Int × Content V), l[j]? = some r →
        (∃ y, t.array.get [j] = some y ∧ x.asTime y = some r.1) ∧
        r.2 = contentAt x.dim vars j := by
    intro m
    induction m with
    | zero => exact fun _ => ⟨[], rfl, by simp⟩
    | succ m ih =>
      intro hm
      obtain ⟨l, h1, h2⟩ := ih (by omega)
      obtain ⟨y, k, hy, hk⟩ := htime m (by omega)
      refine ⟨l ++ [(k, contentAt x.dim vars m)], by simp [h1], ?_⟩
      intro j r hj
      rw [List.getElem?_append] at hj
      split at hj
      · exact h2 j r hj
      · have : j = m := by
          have := (List.getElem?_eq_some_iff.1 hj).1
          simp at this
          omega
        subst this
        rw [h1, Nat.sub_self] at hj
        cases hj
        exact ⟨⟨y, hy, hk⟩, rfl⟩
  obtain ⟨l, h1, h2⟩ := hlist n (Nat.le_refl _)
  refine ⟨l, h1, hn, fun _ => rfl, ha, hd, ?_, ⟨t, ht, htn, htd, fun j r hj => (h2 j r hj).1⟩,
    fun j r hj => (h2 j r hj).2⟩
  rw [h1]
  exact hs

/-! ### Concatenation -/

/-- The variable of `ds` with the name of `v`. -/
def namesake (v : Var V) (ds : Dataset V) : Var V := (getVar ds.vars v.name).getD v

/-- The variable with the records of all the datasets. -/
def joinVar (dim : String) (all : List (Dataset V)) (v : Var V) : Var V :=
  { v with array := match v.dims.idxOf? dim with
      | none => v.array
      | some ax =>
        { shape := v.array.shape.set ax
            ((all.map fun o => (namesake v o).array).filterMap (·.shape[ax]?)).sum
          get := concatGet ax (all.map fun o => (namesake v o).array) } }

theorem flatten_get {α : Type} (ls : List (List α)) (j : Nat) (r : α)
    (h : ls.flatten[j]? = some r) : ∃ k i lk, ls[k]? = some lk ∧ lk[i]? = some r ∧
      j = ((ls.take k).map List.length).sum + i := by
  induction ls generalizing j with
  | nil => simp at h
  | cons l t ih =>
    rw [List.flatten_cons, List.getElem?_append] at h
    split at h
    · exact ⟨0, j, l, rfl, h, by simp⟩
    · obtain ⟨k, i, lk, h1, h2, h3⟩ := ih _ h
      exact ⟨k + 1, i, lk, h1, h2, by
        simp only [List.take_succ_cons, List.map_cons, List.sum_cons]
        omega⟩

/-- The dataset of the list has the variables of another one. -/
theorem series_namesake {x : Axis V} {sig : Signature V} {size : String → Nat} {b : Bool}
    {ds o : Dataset V} {l m : List (Int × Content V)} (h : Series x sig size b ds l)
    (ho : Series x sig size b o m) (v : Var V) (hv : v ∈ ds.vars) :
    getVar o.vars v.name = some (namesake v o) ∧ namesake v o ∈ o.vars ∧ (namesake v o).name = v.name ∧
    (namesake v o).dims = v.dims ∧ (namesake v o).delayed = v.delayed := by
  have h1 := h.signature v.name
  have h2 := ho.signature v.name
  rw [getVar_of_mem _ h.consistent.names v hv] at h1
  rw [← h1] at h2
  cases hg : getVar o.vars v.name with
  | none => rw [hg] at h2; cases h2
  | some w =>
    rw [hg] at h2
    simp only [Option.map_some, Option.some.injEq, Prod.mk.injEq] at h2
    obtain ⟨hw, hwn⟩ := getVar_some _ _ _ hg
    have : namesake v o = w := by simp [namesake, hg]
    rw [this]
    refine ⟨rfl, hw, hwn, h2.1, ?_⟩
    rw [ho.consistent.kind w hw, h.consistent.kind v hv, ho.kind, h.kind]

theorem series_namesake_self {x : Axis V} {sig : Signature V} {size : String → Nat} {b : Bool}
    {ds : Dataset V} {l : List (Int × Content V)} (h : Series x sig size b ds l)
    (v : Var V) (hv : v ∈ ds.vars) : namesake v ds = v := by
  simp [namesake, getVar_of_mem _ h.consistent.names v hv]

theorem series_sizes {x : Axis V} {sig : Signature V} {size : String → Nat} {b : Bool}
    {ds : Dataset V} {l : List (Int × Content V)} (h : Series x sig size b ds l)
    (v : Var V) (hv : v ∈ ds.vars) (ax : Nat) (hax : v.dims.idxOf? x.dim = some ax)
    (all : List (Dataset V × List (Int × Content V)))
    (ha : ∀ p ∈ all, Series x sig size b p.1 p.2) :
    ((all.map (·.1)).map fun o => (namesake v o).array).filterMap (·.shape[ax]?) =
      (all.map (·.2)).map List.length := by
  induction all with
  | nil => rfl
  | cons p t ih =>
    have hp := ha p (by simp)
    obtain ⟨_, h2, _, h4, _⟩ := series_namesake h hp v hv
    have : (namesake v p.1).array.shape[ax]? = some p.2.length := by
      rw [hp.shapes _ h2]
      exact shapeOf_axis (by rw [h4]; exact hax)
    simp only [List.map_cons, List.filterMap_cons, this]
    rw [ih fun q hq => ha q (by simp [hq])]

theorem series_concat {x : Axis V} {sig : Signature V} {size : String → Nat} {b : Bool}
    {ds : Dataset V} {l : List (Int × Content V)} (h : Series x sig size b ds l)
    (ps : List (Dataset V × List (Int × Content V))) (hne : ps ≠ [])
    (hps : ∀ p ∈ ps, Series x sig size b p.1 p.2) :
    ∃ r, concat ds (ps.map (·.1)) x.dim = .ok r ∧
      Series x sig size b r (l ++ (ps.map (·.2)).flatten) := by
  have hall : ∀ p ∈ (ds, l) :: ps, Series x sig size b p.1 p.2 := by
    intro p hp
    rcases List.mem_cons.1 hp with rfl | hp
    · exact h
    · exact hps p hp
  have hlen : (l ++ (ps.map (·.2)).flatten).length =
      ((((ds, l) :: ps).map (·.2)).map List.length).sum := by
    simp [List.length_flatten]
  have hflat : l ++ (ps.map (·.2)).flatten = (((ds, l) :: ps).map (·.2)).flatten := by simp
  have hshape : ∀ v ∈ ds.vars, (joinVar x.dim (ds :: ps.map (·.1)) v).array.shape =
      shapeOf x.dim (l ++ (ps.map (·.2)).flatten).length size v.dims := by
    intro v hv
    obtain ⟨ax, hax⟩ := idxOf?_of_mem (h.dims v hv).2
    have := series_sizes h v hv ax hax ((ds, l) :: ps) hall
    simp only [List.map_cons] at this
    simp only [joinVar, hax, List.map_cons, this]
    rw [h.shapes v hv, hlen]
    exact shapeOf_set (h.dims v hv).1 hax _
  have hcat : ∀ v ∈ ds.vars, ∀ ax, v.dims.idxOf? x.dim = some ax →
      concatenate ax ((ds :: ps.map (·.1)).map fun o => (namesake v o).array) =
        .ok (joinVar x.dim (ds :: ps.map (·.1)) v).array := by
    intro v hv ax hax
    simp only [joinVar, hax, List.map_cons, concatenate]
    rw [series_namesake_self h v hv, if_pos]
    constructor
    · rw [h.shapes v hv, List.length_map]
      exact (List.getElem?_eq_some_iff.1 (idxOf?_getElem hax)).1
    · intro a ha
      simp only [List.mem_map] at ha
      obtain ⟨o, ⟨p, hp, rfl⟩, rfl⟩ := ha
      obtain ⟨_, h2, _, h4, _⟩ := series_namesake h (hps p hp) v hv
      have e := (hps p hp).shapes _ h2
      rw [h4] at e
      rw [e, h.shapes v hv]
      refine ⟨by simp, ?_⟩
      have e1 := shapeOf_set (m := p.2.length) (size := size) (h.dims v hv).1 hax l.length
      rw [shapeOf, shapeOf] at e1
      rw [← e1, List.eraseIdx_set_eq]
  have hvars : mapPy (fun v => do
      let ws ← mapPy (fun o => getVarE o.vars v.name) (ps.map (·.1))
      concatVar v ws x.dim) ds.vars =
      .ok (ds.vars.map (joinVar x.dim (ds :: ps.map (·.1)))) := by
    apply mapPy_ok
    intro v hv
    obtain ⟨ax, hax⟩ := idxOf?_of_mem (h.dims v hv).2
    have hw : mapPy (fun o => getVarE o.vars v.name) (ps.map (·.1)) =
        .ok ((ps.map (·.1)).map (namesake v)) := by
      apply mapPy_ok
      intro o ho
      obtain ⟨p, hp, rfl⟩ := List.mem_map.1 ho
      simp only [getVarE, (series_namesake h (hps p hp) v hv).1]
    simp only [hw, bind, Except.bind, concatVar]
    rw [if_neg (by simpa using hne), if_neg (by
      rintro ⟨o, ho, hd⟩
      obtain ⟨p, hp, rfl⟩ := List.mem_map.1 ho
      obtain ⟨q, hq, rfl⟩ := List.mem_map.1 hp
      exact hd (series_namesake h (hps q hq) v hv).2.2.2.2)]
    have := hcat v hv ax hax
    simp only [List.map_cons, series_namesake_self h v hv] at this
    simp only [hax, List.map_map, Function.comp_def] at this ⊢
    rw [this]
    simp only [joinVar]
  obtain ⟨r, hr, hrv, hrd, hrc⟩ := mk_shaped (ds.vars.map (joinVar x.dim (ds :: ps.map (·.1))))
    ds.attrs ds.chunks ds.limit ds.delayed x.dim (l ++ (ps.map (·.2)).flatten).length size
    (by rw [List.map_map]; exact h.consistent.names)
    (by
      intro v hv
      obtain ⟨w, hw, rfl⟩ := List.mem_map.1 hv
      exact h.consistent.kind w hw)
    (by
      intro v hv
      obtain ⟨w, hw, rfl⟩ := List.mem_map.1 hv
      exact hshape w hw)
  -- the value of the joined variable at a position of the result
  have hget : ∀ (j : Nat) (rec : Int × Content V), (l ++ (ps.map (·.2)).flatten)[j]? = some rec →
      ∃ p ∈ (ds, l) :: ps, ∃ i : Nat, p.2[i]? = some rec ∧
        ∀ v ∈ ds.vars, ∀ ax, v.dims.idxOf? x.dim = some ax → ∀ idx : List Nat,
          (joinVar x.dim (ds :: ps.map (·.1)) v).array.get (idx.set ax j) =
            (namesake v p.1).array.get (idx.set ax i) := by
    intro j rec hj
    rw [hflat] at hj
    obtain ⟨k, i, lk, h1, h2, h3⟩ := flatten_get _ _ _ hj
    rw [List.getElem?_map] at h1
    cases hp : ((ds, l) :: ps)[k]? with
    | none => rw [hp] at h1; cases h1
    | some p =>
      rw [hp] at h1
      cases h1
      have hpm := List.mem_of_getElem? hp
      refine ⟨p, hpm, i, h2, ?_⟩
      intro v hv ax hax idx
      have hps' := hall p hpm
      obtain ⟨_, hp2, _, hp4, _⟩ := series_namesake h hps' v hv
      have hlt := (List.getElem?_eq_some_iff.1 (idxOf?_getElem hax)).1
      simp only [joinVar, hax]
      by_cases hi : ax < idx.length
      · have key := concatGet_append ax
          ((((ds, l) :: ps).map (·.1)).map fun o => (namesake v o).array) k (namesake v p.1).array
          (by rw [List.getElem?_map, List.getElem?_map, hp]; rfl) (by
            intro a ha
            simp only [List.mem_map] at ha
            obtain ⟨o, ⟨q, hq, rfl⟩, rfl⟩ := ha
            obtain ⟨_, g2, _, g4, _⟩ := series_namesake h (hall q hq) v hv
            rw [(hall q hq).shapes _ g2, List.length_map, g4]
            exact hlt) p.2.length i (by
            rw [hps'.shapes _ hp2]
            exact shapeOf_axis (by rw [hp4]; exact hax))
          (List.getElem?_eq_some_iff.1 h2).1 (idx.set ax i) (by simp [hi])
        rw [List.set_set] at key
        have e := series_sizes h v hv ax hax (((ds, l) :: ps).take k)
          fun q hq => hall q (List.mem_of_mem_take hq)
        rw [← List.map_take, ← List.map_take, e, List.map_take, ← h3] at key
        exact key
      · rw [List.set_eq_of_length_le (by omega), List.set_eq_of_length_le (by omega)]
        rw [get_none (hps'.arrays _ hp2) (by
          rintro ⟨hl, _⟩
          rw [hps'.shapes _ hp2, List.length_map, hp4] at hl
          omega)]
        simp only [List.map_cons, concatGet]
        rw [List.getElem?_eq_none (by omega)]
        rfl
  refine ⟨r, ?_, ⟨hrc.names, ?_, ?_, ?_, ?_, ?_, ?_⟩, hrc, hrd.trans h.kind⟩
  · unfold concat
    rw [if_neg (by simpa using hne), if_neg (by
      rintro ⟨o, ho, hd⟩
      obtain ⟨p, hp, rfl⟩ := List.mem_map.1 ho
      exact hd ((hps p hp).kind.trans h.kind.symm))]
    simp only [bind, Except.bind] at hvars ⊢
    rw [hvars]
    exact hr
  · intro n
    rw [hrv, getVar_map (f := joinVar x.dim (ds :: ps.map (·.1))) (fun _ => rfl),
      ← h.signature n]
    cases getVar ds.vars n <;> rfl
  · intro v hv
    rw [hrv] at hv
    obtain ⟨w, hw, rfl⟩ := List.mem_map.1 hv
    obtain ⟨ax, hax⟩ := idxOf?_of_mem (h.dims w hw).2
    refine concatenate_arrOk ?_ (hcat w hw ax hax)
    intro a ha
    simp only [List.mem_map, List.mem_cons] at ha
    obtain ⟨o, ho, rfl⟩ := ha
    rcases ho with rfl | ⟨p, hp, rfl⟩
    · rw [series_namesake_self h w hw]
      exact h.arrays w hw
    · exact (hps p hp).arrays _ (series_namesake h (hps p hp) w hw).2.1
  · intro v hv
    rw [hrv] at hv
    obtain ⟨w, hw, rfl⟩ := List.mem_map.1 hv
    exact h.dims w hw
  · intro v hv
    rw [hrv] at hv
    obtain ⟨w, hw, rfl⟩ := List.mem_map.1 hv
    exact hshape w hw
  · obtain ⟨v, hv, hvn, hvd, hvt⟩ := h.axis
    refine ⟨joinVar x.dim (ds :: ps.map (·.1)) v, by rw [hrv]; exact List.mem_map_of_mem hv, hvn,
      hvd, ?_⟩
    intro j rec hj
    obtain ⟨p, hp, i, h1, h2⟩ := hget j rec hj
    have e := h2 v hv 0 (by rw [hvd]; simp [List.idxOf?]) [j]
    simp only [List.set_cons_zero] at e
    obtain ⟨w, hw, hwn, _, hwt⟩ := (hall p hp).axis
    have hpw : namesake v p.1 = w := by
      have := getVar_of_mem _ (hall p hp).consistent.names w hw
      rw [hwn, ← hvn, (series_namesake h (hall p hp) v hv).1] at this
      exact Option.some.inj this
    rw [e, hpw]
    exact hwt i rec h1
  · intro j rec hj
    obtain ⟨p, hp, i, h1, h2⟩ := hget j rec hj
    rw [(hall p hp).records i rec h1]
    funext n idx
    simp only [contentAt, hrv,
      getVar_map (f := joinVar x.dim (ds :: ps.map (·.1))) (fun _ => rfl)]
    cases hg : getVar ds.vars n with
    | none =>
      have e1 := h.signature n
      have e2 := (hall p hp).signature n
      rw [hg] at e1
      rw [← e1] at e2
      cases hg' : getVar p.1.vars n with
      | none => rfl
      | some w => rw [hg'] at e2; cases e2
    | some v =>
      obtain ⟨hv, hvn⟩ := getVar_some _ _ _ hg
      obtain ⟨ax, hax⟩ := idxOf?_of_mem (h.dims v hv).2
      have hpk := series_namesake h (hall p hp) v hv
      rw [hvn] at hpk
      simp only [hpk.1, Option.map_some, Option.bind_some, hpk.2.2.2.1, hax]
      have : (joinVar x.dim (ds :: ps.map (·.1)) v).dims.idxOf? x.dim = some ax := hax
      rw [this]
      exact (h2 v hv ax hax idx).symm

/-! ### The merge -/

theorem series_times {x : Axis V} {sig : Signature V} {size : String → Nat} {b : Bool}
    {ds : Dataset V} {l : List (Int × Content V)} (h : Series x sig size b ds l) :
    times x ds = .ok (TS.axis l) := by
  obtain ⟨v, hv, hvn, hvd, hvt⟩ := h.axis
  have hg := getVar_of_mem _ h.consistent.names v hv
  rw [hvn] at hg
  obtain ⟨h1, h2⟩ := column_spec (h.arrays v hv) (n := l.length)
    (by rw [h.shapes v hv, hvd]; simp)
  unfold times
  simp only [getVarE, hg, bind, Except.bind]
  have hcol : ∀ (i : Nat) (y : V), (Pipe.column v.array)[i]? = some y →
      ∃ r, l[i]? = some r ∧ x.asTime y = some r.1 := by
    intro i y hy
    have hlt := (List.getElem?_eq_some_iff.1 hy).1
    rw [h1] at hlt
    obtain ⟨z, hz1, hz2⟩ := hvt i _ (List.getElem?_eq_getElem hlt)
    rw [h2, hz1] at hy
    cases hy
    exact ⟨_, List.getElem?_eq_getElem hlt, hz2⟩
  obtain ⟨r, hr⟩ := mapPy_exists (timeOf x) (Pipe.column v.array) (by
    intro y hy
    obtain ⟨i, hi⟩ := List.getElem?_of_mem hy
    obtain ⟨r, _, hr⟩ := hcol i y hi
    exact ⟨r.1, by simp only [timeOf, hr]⟩)
  rw [hr]
  obtain ⟨hr1, hr2⟩ := mapPy_spec _ _ _ hr
  congr 1
  apply List.ext_getElem?
  intro i
  by_cases hi : i < l.length
  · obtain ⟨y, hy⟩ : ∃ y, (Pipe.column v.array)[i]? = some y :=
      ⟨_, List.getElem?_eq_getElem (by rw [h1]; exact hi)⟩
    obtain ⟨t, ht1, ht2⟩ := hr2 i y hy
    obtain ⟨q, hq1, hq2⟩ := hcol i y hy
    simp only [timeOf, hq2, Except.ok.injEq] at ht2
    rw [ht1, TS.axis, List.getElem?_map, hq1, ← ht2]
    rfl
  · rw [List.getElem?_eq_none (by omega), List.getElem?_eq_none (by simp [TS.axis]; omega)]

/-- The outcome of an operation on datasets follows the outcome of the operation on records. -/
def Follows (x : Axis V) (sig : Signature V) (size : String → Nat) (b : Bool)
    (l : Py (List (Int × Content V))) (r : Py (Dataset V)) : Prop :=
  match l with
  | .ok l => ∃ ds, r = .ok ds ∧ Series x sig size b ds l
  | .error e => r = .error e

theorem where_lt {α : Type} (l : List α) (f : α → Bool) :
    ∀ i ∈ Np.where (l.map f), i < l.length := by
  intro i hi
  have := (Np.whereFrom_ge 0 (l.map f) i hi).2
  simpa using this

theorem last_mem {α : Type} (l : List α) (y : α) (h : Np.last l = .ok y) : y ∈ l := by
  induction l with
  | nil => cases h
  | cons z t ih =>
    cases t with
    | nil => cases h; simp
    | cons w t => exact List.mem_cons_of_mem _ (ih h)

theorem whereFrom_sorted (k : Nat) (m : List Bool) : (Np.whereFrom k m).Pairwise (· < ·) := by
  induction m generalizing k with
  | nil => exact List.Pairwise.nil
  | cons c m ih =>
    cases c with
    | false => exact ih _
    | true =>
      refine List.Pairwise.cons (fun i hi => ?_) (ih _)
      have := (Np.whereFrom_ge _ _ i hi).1
      omega

theorem first_le_last (l : List Nat) (hs : l.Pairwise (· < ·)) (m n : Nat)
    (hm : Np.first l = .ok m) (hn : Np.last l = .ok n) : m ≤ n := by
  cases l with
  | nil => cases hm
  | cons z t =>
    cases hm
    rcases List.mem_cons.1 (last_mem _ _ hn) with rfl | hmem
    · exact Nat.le_refl _
    · exact Nat.le_of_lt ((List.pairwise_cons.1 hs).1 _ hmem)

theorem follows_mergeOne {x : Axis V} {sig : Signature V} {size : String → Nat} {b : Bool}
    {e i : Dataset V} {le li : List (Int × Content V)} (he : Series x sig size b e le)
    (hi : Series x sig size b i li) :
    Follows x sig size b (TS.mergeOne le li) (TSD.mergeOne x e i) := by
  have two : ∀ {a c : Dataset V} {la lc : List (Int × Content V)}, Series x sig size b a la →
      Series x sig size b c lc →
      ∃ r, concat a [c] x.dim = .ok r ∧ Series x sig size b r (la ++ lc) := by
    intro a c la lc ha hc
    obtain ⟨r, h1, h2⟩ := series_concat ha [(c, lc)] (by simp) (by simpa using hc)
    exact ⟨r, h1, by simpa using h2⟩
  unfold TS.mergeOne TSD.mergeOne
  simp only [series_times he, series_times hi, bind, Except.bind]
  cases hemin : Np.amin (TS.axis le) with
  | error err => rfl
  | ok emin =>
  cases hemax : Np.amax (TS.axis le) with
  | error err => rfl
  | ok emax =>
  cases himin : Np.amin (TS.axis li) with
  | error err => rfl
  | ok imin =>
  cases himax : Np.amax (TS.axis li) with
  | error err => rfl
  | ok imax =>
  simp only
  generalize Period.mk' ⟨imin, 1⟩ ⟨imax, 1⟩ true = ip
  generalize Period.mk' ⟨emin, 1⟩ ⟨emax, 1⟩ true = ep
  cases ip.relation ep with
  | error err => rfl
  | ok rel =>
  simp only
  generalize ip.intersection ep = it
  by_cases c1 : rel.isBefore = true
  · simp only [c1, if_true]
    exact two hi he
  simp only [c1, if_false, Bool.false_eq_true, pure, Except.pure]
  by_cases c2 : rel.isAfter = true
  · simp only [c2, if_true]
    exact two he hi
  simp only [c2, if_false, Bool.false_eq_true]
  by_cases c3 : rel.contains = true
  · simp only [c3, if_true]
    exact ⟨i, rfl, hi⟩
  simp only [c3, if_false, Bool.false_eq_true]
  by_cases c4 : rel.isBeforeOverlapping = true
  · simp only [c4, if_true]
    obtain ⟨k, hk1, hk2⟩ := series_indices he
      (Np.where ((TS.axis le).map fun t => decide (t > it.end.t)))
      (fun p hp => by simpa [TS.axis] using where_lt _ _ p hp)
    rw [hk1]
    exact two hi hk2
  simp only [c4, if_false, Bool.false_eq_true]
  by_cases c5 : rel.isAfterOverlapping = true
  · simp only [c5, if_true]
    obtain ⟨k, hk1, hk2⟩ := series_indices he
      (Np.where ((TS.axis le).map fun t => decide (t < it.begin.t)))
      (fun p hp => by simpa [TS.axis] using where_lt _ _ p hp)
    rw [hk1]
    exact two hk2 hi
  simp only [c5, if_false, Bool.false_eq_true]
  by_cases c6 : rel.isInside = true
  · simp only [c6, Bool.not_true, if_false, Bool.false_eq_true]
    cases hl1 : Np.last (Np.where ((TS.axis le).map fun t => decide (t < it.begin.t))) with
    | error err => rfl
    | ok n1 =>
    have hn1 : n1 < le.length := by
      simpa [TS.axis] using where_lt _ _ n1 (last_mem _ _ hl1)
    obtain ⟨d1, hd1, hs1⟩ := series_slice he 0 (n1 + 1) (by omega) (by omega)
    simp only [hd1]
    cases hf2 : Np.first (Np.where ((TS.axis le).map fun t => decide (t > it.end.t))) with
    | error err => rfl
    | ok m2 =>
    cases hl2 : Np.last (Np.where ((TS.axis le).map fun t => decide (t > it.end.t))) with
    | error err => rfl
    | ok n2 =>
    have hn2 : n2 < le.length := by
      simpa [TS.axis] using where_lt _ _ n2 (last_mem _ _ hl2)
    have hm2 := first_le_last _ (whereFrom_sorted 0 _) m2 n2 hf2 hl2
    obtain ⟨d2, hd2, hs2⟩ := series_slice he m2 (n2 + 1) (by omega) (by omega)
    simp only [hd2]
    obtain ⟨r, h1, h2⟩ := series_concat hs1 [(i, li), (d2, Np.slice le m2 (n2 + 1))] (by simp)
      (by
        intro p hp
        simp only [List.mem_cons, List.not_mem_nil, or_false] at hp
        rcases hp with rfl | rfl
        · exact hi
        · exact hs2)
    exact ⟨r, h1, by simpa [TS.iselSlice] using h2⟩
  · simp only [c6]
    rfl

/-- The cuts of the inserted dataset are in order. -/
theorem pairs_cuts (l : List Nat) (hs : l.Pairwise (· ≤ ·)) (n : Nat) (hn : ∀ k ∈ l, k ≤ n) :
    ∀ c ∈ Np.pairs l, c.1 ≤ c.2 ∧ c.2 ≤ n := by
  induction l with
  | nil => simp [Np.pairs]
  | cons a t ih =>
    cases t with
    | nil => simp [Np.pairs]
    | cons c t =>
      intro p hp
      simp only [Np.pairs, List.tail_cons, List.zip_cons_cons, List.mem_cons] at hp ih
      rcases hp with rfl | hp
      · exact ⟨(List.pairwise_cons.1 hs).1 c (by simp), hn c (by simp)⟩
      · exact ih (List.pairwise_cons.1 hs).2 (fun k hk => hn k (List.mem_cons_of_mem _ (List.mem_cons.2 hk))) p hp

theorem gapIndex_cuts (tol : Int) (l : List Int) :
    ∀ c ∈ Np.pairs (TSD.gapIndex tol l), c.1 ≤ c.2 ∧ c.2 ≤ l.length := by
  have hlen : (0 :: Np.diff l).length ≤ l.length + 1 := by
    have : (Np.diff l).length ≤ l.length := by
      fun_induction Np.diff l with
      | case1 a c l ih => simp only [List.length_cons] at ih ⊢; omega
      | case2 l h => simp
    simpa using this
  have hw : ∀ k ∈ Np.where ((0 :: Np.diff l).map fun d => decide (d > tol)), k ≤ l.length := by
    intro k hk
    have := where_lt _ _ k hk
    omega
  refine pairs_cuts _ ?_ _ ?_
  · simp only [TSD.gapIndex, List.cons_append, List.pairwise_cons, List.pairwise_append]
    refine ⟨fun _ _ => Nat.zero_le _, ?_, by simp, ?_⟩
    · exact (whereFrom_sorted 0 _).imp fun h => Nat.le_of_lt h
    · intro a ha c hc
      rw [List.mem_singleton] at hc
      subst hc
      exact hw a ha
  · intro k hk
    simp only [TSD.gapIndex, List.cons_append, List.mem_cons, List.mem_append,
      List.not_mem_nil, or_false] at hk
    rcases hk with rfl | hk | rfl
    · exact Nat.zero_le _
    · exact hw k hk
    · exact Nat.le_refl _

theorem follows_mergePieces {x : Axis V} {sig : Signature V} {size : String → Nat} {b : Bool}
    {i : Dataset V} {li : List (Int × Content V)} (hi : Series x sig size b i li)
    (cuts : List (Nat × Nat)) (hc : ∀ c ∈ cuts, c.1 ≤ c.2 ∧ c.2 ≤ li.length)
    {e : Dataset V} {le : List (Int × Content V)} (he : Series x sig size b e le) :
    Follows x sig size b (TS.mergePieces li cuts le) (TSD.mergePieces x i cuts e) := by
  induction cuts generalizing e le with
  | nil => exact ⟨e, rfl, he⟩
  | cons c t ih =>
    obtain ⟨h1, h2⟩ := hc c (by simp)
    obtain ⟨p, hp1, hp2⟩ := series_slice hi c.1 c.2 h1 h2
    simp only [TS.mergePieces, TSD.mergePieces, hp1, bind, Except.bind, TS.iselSlice]
    have := follows_mergeOne he hp2
    cases hm : TS.mergeOne le (Np.slice li c.1 c.2) with
    | error err =>
      rw [hm] at this
      rw [show TSD.mergeOne x e p = _ from this]
      rfl
    | ok l =>
      rw [hm] at this
      obtain ⟨r, hr1, hr2⟩ := this
      simp only [hr1]
      exact ih (fun c hc' => hc c (by simp [hc'])) hr2

theorem follows_merge {x : Axis V} {sig : Signature V} {size : String → Nat} {b : Bool}
    {e i : Dataset V} {le li : List (Int × Content V)} (he : Series x sig size b e le)
    (hi : Series x sig size b i li) (tol : Option Int) :
    Follows x sig size b (TS.mergeTimeSeries le li tol) (TSD.mergeTimeSeries x tol e i) := by
  cases tol with
  | none => exact follows_mergeOne he hi
  | some tol =>
    simp only [TS.mergeTimeSeries, TSD.mergeTimeSeries, series_times hi, bind, Except.bind]
    have : TS.gapIndex tol li = TSD.gapIndex tol (TS.axis li) := by
      simp [TS.gapIndex, TSD.gapIndex, TS.axis]
    rw [this]
    refine follows_mergePieces hi _ ?_ he
    have := gapIndex_cuts tol (TS.axis li)
    simpa [TS.axis] using this

end Verif
