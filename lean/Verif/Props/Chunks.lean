import Verif.Lemmas.Chunks

/-! C21, C52: arrays stored in chunks, compressed arrays. -/

namespace Verif

open Spec Nd Chunk

variable {V : Type}

/-! ### C21 -/

/-- C21: what is read after a write, when zarr takes the values `x` with `same x fill` for the
fill value (for instance `-0.0` for `0.0`): the value written, or the fill value in place of a
value that zarr takes for it. -/
theorem C21_read_as (same : V → V → Bool) (a : Arr V) (ha : ArrOk a) (fill : Option V)
    (dims : List String) (chunks : Option (List (String × Nat))) (z : ZArray V)
    (h : writeVariable same a fill dims chunks = .ok z) :
    z.shape = a.shape ∧ z.fill = fill ∧
    ∀ idx, Inside a.shape idx → ∃ x y, a.get idx = some x ∧ z.read idx = some y ∧
      (y = x ∨ fill = some y ∧ same x y = true) := by
  simp only [writeVariable, toZarr, bind, Except.bind] at h
  split at h
  · cases h
  next bs hbs =>
  split at h
  · cases h
  next cs hcs =>
  cases h
  have hb := rechunk_ok _ _ _ hbs
  obtain ⟨hl, hp⟩ := chunkShape_pos _ _ _ hb hcs
  obtain ⟨f1, f2, f3⟩ := writes_fields same (regions bs)
    { shape := a.shape, chunk := cs, fill, data := fun _ => none } a.get
  refine ⟨f1, f3, ?_⟩
  intro idx hi
  obtain ⟨x, hx⟩ := (ha idx).2 hi
  obtain ⟨y, h1, h2⟩ := writes_read same (regions bs)
    { shape := a.shape, chunk := cs, fill, data := fun _ => none } a.get idx x hx
    (by simp only; rw [hl, hi.1]) (hp idx hi) (Or.inl (regions_cover _ _ hb idx hi))
  exact ⟨x, y, hx, h1, h2⟩

/-- C21: a variable written with any chunk sizes and read back eagerly has the same shape, the
same values and the same missing values. -/
theorem C21_eager (same : V → V → Bool) (hs : ∀ x f, same x f = true → x = f)
    (eqv : V → V → Bool) (a : Arr V) (ha : ArrOk a) (fill : Option V) (dims : List String)
    (chunks : Option (List (String × Nat))) (z : ZArray V)
    (h : writeVariable same a fill dims chunks = .ok z) :
    (readEager z).shape = a.shape ∧ (∀ idx, (readEager z).get idx = a.get idx) ∧
    ∀ idx, values eqv z.fill (readEager z) idx = values eqv fill a idx := by
  obtain ⟨h1, h2, h3⟩ := C21_read_as same a ha fill dims chunks z h
  have hget : ∀ idx, (readEager z).get idx = a.get idx := by
    intro idx
    simp only [readEager, h1]
    by_cases hb : inBounds idx a.shape = true
    · rw [if_pos hb]
      obtain ⟨x, y, g1, g2, g3⟩ := h3 idx ((inBounds_iff _ _).1 hb)
      rw [g1, g2]
      rcases g3 with rfl | ⟨_, g3⟩
      · rfl
      · rw [hs x y g3]
    · rw [if_neg hb, arrOk_none ha (by simpa using hb)]
  refine ⟨h1, hget, ?_⟩
  intro idx
  simp only [values, h2, hget]

/-- C21: the delayed read gives the same array as the eager one, block by block. -/
theorem C21_delayed (same : V → V → Bool) (a : Arr V) (fill : Option V) (dims : List String)
    (chunks : Option (List (String × Nat))) (z : ZArray V)
    (h : writeVariable same a fill dims chunks = .ok z) :
    ∃ b, readDelayed z = .ok b ∧ b.shape = (readEager z).shape ∧
      ∀ idx, b.get idx = (readEager z).get idx := by
  simp only [writeVariable, toZarr, bind, Except.bind] at h
  split at h
  · cases h
  next bs hbs =>
  split at h
  · cases h
  next cs hcs =>
  cases h
  have hb := rechunk_ok _ _ _ hbs
  obtain ⟨hl, hp⟩ := chunkShape_pos _ _ _ hb hcs
  obtain ⟨f1, f2, f3⟩ := writes_fields same (regions bs)
    { shape := a.shape, chunk := cs, fill, data := fun _ => none } a.get
  generalize (regions bs).foldl (fun (z : ZArray V) r => z.write same false r a.get)
    ({ shape := a.shape, chunk := cs, fill, data := fun _ => none } : ZArray V) = z
    at f1 f2 f3 ⊢
  simp only at f1 f2 f3
  have hnorm : ∃ ns, normalized a.shape cs = .ok ns := by
    clear f1 f2 f3 hbs hp hl
    generalize a.shape = shape at hb ⊢
    induction shape generalizing bs cs with
    | nil => exact ⟨[], by simp only [normalized]⟩
    | cons n shape ih =>
      match bs, hb with
      | (b :: bs), hb =>
        match b, hb with
        | [], hb => exact absurd rfl hb.1.2.1
        | (c :: b), hb =>
          simp only [chunkShape, bind, Except.bind] at hcs
          split at hcs
          · cases hcs
          · next r hr =>
            cases hcs
            obtain ⟨ns, hns⟩ := ih bs r hr hb.2
            have : ∃ q, blockdims n c = .ok q := by
              unfold blockdims
              split
              · exact ⟨_, rfl⟩
              · next hn =>
                rw [if_neg (by have := hb.1.2.2 c rfl (by omega); omega)]
                exact ⟨_, rfl⟩
            obtain ⟨q, hq⟩ := this
            exact ⟨q :: ns, by simp only [normalized, bind, Except.bind, hq, hns]⟩
  obtain ⟨ns, hns⟩ := hnorm
  have hnok := normalized_ok _ _ _ hl hns
  refine ⟨{ shape := z.shape, get := fun idx => (viaBlocks ns idx).bind z.read }, ?_, rfl, ?_⟩
  · simp only [readDelayed, f1, f2, bind, Except.bind, hns]
  · intro idx
    simp only [viaBlocks_spec _ _ hnok, readEager, f1]
    split <;> rfl

/-- C21: the chunk sizes are accepted if they are not zero. -/
theorem C21_accepted (same : V → V → Bool) (a : Arr V) (fill : Option V) (dims : List String)
    (chunks : Option (List (String × Nat)))
    (hc : ∀ l, chunks = some l → ∀ p ∈ l, 0 < p.2) :
    ∃ z, writeVariable same a fill dims chunks = .ok z := by
  have hspec : ∀ d c, specOf chunks d = .size c → 0 < c := by
    intro d c h
    unfold specOf at h
    split at h
    · cases h
    · next l =>
      split at h
      · cases h
      · next k hk =>
        cases h
        have : ∀ (l : List (String × Nat)), l.lookup d = some c → (d, c) ∈ l := by
          intro l
          induction l with
          | nil => simp
          | cons p t ih =>
            intro h
            simp only [List.lookup] at h
            split at h
            · next he => cases h; simp at he; subst he; simp
            · exact List.mem_cons_of_mem _ (ih h)
        exact hc l rfl _ (this l hk)
  have hr : ∀ (shape : List Nat) (dims : List String),
      ∃ bs, rechunk shape (dims.map (specOf chunks)) = .ok bs := by
    intro shape
    induction shape with
    | nil => intro dims; exact ⟨[], by simp only [rechunk]⟩
    | cons n shape ih =>
      intro dims
      cases dims with
      | nil =>
        obtain ⟨bs, h⟩ := ih []
        simp only [List.map_nil] at h
        exact ⟨[n] :: bs, by simp only [List.map_nil, rechunk, bind, Except.bind, h]⟩
      | cons d dims =>
        obtain ⟨bs, h⟩ := ih dims
        have : ∃ b, rechunkDim n (specOf chunks d) = .ok b := by
          cases hs : specOf chunks d with
          | whole => exact ⟨_, rfl⟩
          | size c =>
            have := hspec d c hs
            simp only [rechunkDim, blockdims]
            split
            · exact ⟨_, rfl⟩
            · rw [if_neg (by omega)]
              exact ⟨_, rfl⟩
        obtain ⟨b, hb⟩ := this
        exact ⟨b :: bs, by simp only [List.map_cons, rechunk, bind, Except.bind, h, hb]⟩
  obtain ⟨bs, hbs⟩ := hr a.shape dims
  obtain ⟨cs, hcs⟩ := chunkShape_total _ _ (rechunk_ok _ _ _ hbs)
  exact ⟨_, by simp only [writeVariable, toZarr, bind, Except.bind, hbs, hcs]; rfl⟩

/-- C21: the missing values of a masked array given by the user (with a fill value equal to
itself) are missing after the round trip; the other values equal to the fill value become
missing too, and the rest is unchanged. -/
theorem C21_masked (same ne : V → V → Bool) (hs : ∀ x f, same x f = true → x = f)
    (eqv : V → V → Bool) (d : Arr V) (mask : List Nat → Bool) (f : V) (hf : eqv f f = true)
    (hd : ArrOk d) (fill : Option V) (a : Arr V) (fill' : Option V)
    (ha : asArray ne ⟨d, some (mask, f)⟩ fill = .ok (a, fill')) (dims : List String)
    (chunks : Option (List (String × Nat))) (z : ZArray V)
    (h : writeVariable same a fill' dims chunks = .ok z) (idx : List Nat) (x : V)
    (hx : d.get idx = some x) :
    values eqv z.fill (readEager z) idx =
      some (if mask idx = true ∨ eqv x f = true then none else some x) := by
  have ha' : a = { shape := d.shape,
                   get := fun idx => if mask idx then (d.get idx).map fun _ => f
                     else d.get idx } ∧ fill' = some f := by
    simp only [asArray] at ha
    cases fill with
    | none => cases ha; exact ⟨rfl, rfl⟩
    | some g =>
      simp only at ha
      split at ha
      · cases ha
      · cases ha; exact ⟨rfl, rfl⟩
  obtain ⟨rfl, rfl⟩ := ha'
  · have hok : ArrOk ({ shape := d.shape,
                        get := fun idx => if mask idx then (d.get idx).map fun _ => f
                          else d.get idx } : Arr V) := by
      intro i
      simp only
      rw [← hd i]
      cases d.get i <;> cases mask i <;> simp
    rw [(C21_eager same hs eqv _ hok _ dims chunks z h).2.2]
    simp only [values, hx]
    by_cases hm : mask idx = true
    · simp [hm, hf]
    · simp [hm]

/-- A fill value that is not equal to itself (NaN): the missing values of a masked array are
no longer missing once given to a variable. -/
theorem C21_nan_fill (ne eqv : V → V → Bool) (d : Arr V) (mask : List Nat → Bool) (f : V)
    (hf : ∀ x, eqv x f = false) (idx : List Nat) (x : V) (hx : d.get idx = some x)
    (hm : mask idx = true) :
    ∃ a, asArray ne ⟨d, some (mask, f)⟩ none = .ok (a, some f) ∧
      values eqv (some f) a idx = some (some f) := by
  refine ⟨_, rfl, ?_⟩
  simp [values, hm, hx, hf]

/-- C21: an update replaces the stored values exactly, for all chunk sizes, and refuses an
array of another shape. -/
theorem C21_update (same : V → V → Bool) (z z' : ZArray V) (hz : z.chunk.length = z.shape.length)
    (hp : ∀ c ∈ z.chunk, 0 < c) (a : Arr V) (ha : ArrOk a) :
    (a.shape ≠ z.shape → updateArray same z a = .error .valueError) ∧
    (updateArray same z a = .ok z' → z'.shape = z.shape ∧ z'.chunk = z.chunk ∧
      z'.fill = z.fill ∧ ∀ idx, (readEager z').get idx = a.get idx) := by
  unfold updateArray
  constructor
  · intro h; rw [if_neg h]
  · intro h
    split at h
    · next hsh =>
      cases h
      refine ⟨rfl, rfl, rfl, ?_⟩
      intro idx
      simp only [readEager, (write_fields same true z _ _).1]
      by_cases hb : inBounds idx z.shape = true
      · rw [if_pos hb]
        have hi := (inBounds_iff _ _).1 hb
        have := read_write same true z (z.shape.map fun n => (0, n)) a.get idx
          (by rw [hi.1, hz]) hp
        simp only [(inRegion_full _ _).2 hi, if_true] at this
        rcases this with h | ⟨h, _⟩
        · exact h
        · cases h
      · rw [if_neg hb, arrOk_none ha (by rw [hsh]; simpa using hb)]
    · cases h

theorem full_arrOk (shape : List Nat) (v : V) : ArrOk (full shape v) := by
  intro idx
  rw [← inBounds_iff]
  simp only [full]
  cases inBounds idx shape <;> simp

theorem tabulate_arrOk (shape : List Nat) (f : List Nat → V) : ArrOk (tabulate shape f) := by
  intro idx
  rw [← inBounds_iff]
  simp only [tabulate]
  cases inBounds idx shape <;> simp

/-- Five rows in chunks of two: the first chunk holds only fill values and is not written. -/
example : ∃ z, writeVariable (· == ·) (tabulate [5, 2] fun i => i.headD 0 / 2) (some 0)
      ["x", "y"] (some [("x", 2)]) = .ok z ∧
    (z.data [0, 0]).isNone = true ∧ (z.data [2, 0]).isSome = true ∧
    z.read [1, 1] = some 0 ∧ z.read [4, 1] = some 2 := by
  refine ⟨_, rfl, ?_, ?_, ?_, ?_⟩ <;> decide +kernel

/-! ### C52 -/

/-- C52: reading a compressed array gives the values of the array it was built from, those
equal to the fill value being missing, for each chunk size. -/
theorem C52_read (same eqv : V → V → Bool) (zero : V) (a : Arr V) (ha : ArrOk a) (cs : List Nat)
    (hl : cs.length = a.shape.length) (hp : ∀ c ∈ cs, 0 < c) (fill : Option V) (idx : List Nat) :
    (CArray.new same zero a cs fill).get eqv idx = values eqv fill a idx := by
  have h := (C21_update same
    { shape := a.shape, chunk := cs,
      fill := (match fill with | none => some zero | some f => some f), data := fun _ => none }
    (CArray.new same zero a cs fill).array hl hp a ha).2 (by simp [updateArray]; rfl)
  simp only [CArray.get, values, h.2.2.2]
  rfl

/-- C52, full statement about `rechunk`: same values and same missing values. -/
def C52_rechunk_full : Prop :=
  ∀ (V : Type) (same eqv : V → V → Bool) (zero : V) (a : Arr V) (cs cs' : List Nat)
    (fill : Option V) (idx : List Nat), ArrOk a → cs.length = a.shape.length →
    cs'.length = a.shape.length → (∀ c ∈ cs, 0 < c) → (∀ c ∈ cs', 0 < c) →
    ((CArray.new same zero a cs fill).rechunk same cs').get eqv idx = values eqv fill a idx

/-- C52: `rechunk` keeps all the values, but none of them is missing any more: the full
statement holds without fill value.  Missing: with a fill value
(`C52_rechunk_counterexample`). -/
theorem C52_rechunk_partial (same eqv : V → V → Bool) (zero : V) (a : Arr V) (ha : ArrOk a)
    (cs cs' : List Nat) (hl : cs.length = a.shape.length) (hp : ∀ c ∈ cs, 0 < c)
    (hl' : cs'.length = a.shape.length) (hp' : ∀ c ∈ cs', 0 < c) (fill : Option V)
    (idx : List Nat) :
    ((CArray.new same zero a cs fill).rechunk same cs').get eqv idx = values eqv none a idx := by
  have h := (C21_update same
    { shape := a.shape, chunk := cs,
      fill := (match fill with | none => some zero | some f => some f), data := fun _ => none }
    (CArray.new same zero a cs fill).array hl hp a ha).2 (by simp [updateArray]; rfl)
  have hok : ArrOk (readEager (CArray.new same zero a cs fill).array) := by
    intro i
    rw [h.2.2.2 i]
    exact ha i
  have h2 := (C21_update same
    { shape := a.shape, chunk := cs', fill := fill, data := fun _ => none }
    ((CArray.new same zero a cs fill).rechunk same cs').array hl' hp' _ hok).2
    (by simp only [updateArray]; rw [if_pos (by exact h.1)]; rfl)
  simp only [CArray.get, values, h2.2.2.2, h.2.2.2]
  rfl

/-- `rechunk` forgets which values are missing. -/
theorem C52_rechunk_counterexample : ¬ C52_rechunk_full := by
  intro h
  have h1 := h Nat (· == ·) (· == ·) 0 (full [3] 9) [2] [1] (some 9) [0] (full_arrOk _ _) rfl rfl
    (by simp) (by simp)
  rw [C52_rechunk_partial (· == ·) (· == ·) 0 (full [3] 9) (full_arrOk _ _) [2] [1] rfl
    (by simp) rfl (by simp)] at h1
  revert h1
  decide +kernel

/-- C52: the concatenation of compressed arrays is the concatenation of the arrays they were
built from, each with its own missing values. -/
theorem C52_concatenate (same eqv : V → V → Bool) (zero : V) (ax : Nat)
    (arrays : List (Arr V × List Nat × Option V))
    (hok : ∀ p ∈ arrays, ArrOk p.1 ∧ p.2.1.length = p.1.shape.length ∧ ∀ c ∈ p.2.1, 0 < c) :
    concatenation eqv ax (arrays.map fun p => CArray.new same zero p.1 p.2.1 p.2.2) =
      concatenate ax (arrays.map fun p =>
        { shape := p.1.shape, get := values eqv p.2.2 p.1 }) := by
  unfold concatenation
  congr 1
  rw [List.map_map]
  apply List.map_congr_left
  intro p hp
  obtain ⟨h1, h2, h3⟩ := hok p hp
  simp only [Function.comp_apply, CArray.toArray]
  congr 1
  funext idx
  exact C52_read same eqv zero p.1 h1 p.2.1 h2 h3 p.2.2 idx

/-- C52, full statement about the operands of numpy functions. -/
def C52_ufunc_full : Prop :=
  ∀ (V : Type) (eqv : V → V → Bool) (self obj : CArray V) (idx : List Nat),
    self.cast eqv obj idx = obj.get eqv idx

/-- C52: the operands of a numpy function have their own missing values if their fill value
is the one of the array on which the function is called.  Missing: other fill values. -/
theorem C52_ufunc_partial (eqv : V → V → Bool) (self obj : CArray V) (h : self.fill = obj.fill)
    (idx : List Nat) : self.cast eqv obj idx = obj.get eqv idx := by
  simp only [CArray.cast, CArray.get, h]

/-- An operand loses its missing values when the first operand has no fill value. -/
theorem C52_ufunc_counterexample : ¬ C52_ufunc_full := by
  intro h
  have := h Nat (· == ·) (CArray.new (· == ·) 0 (full [2] 1) [2] none)
    (CArray.new (· == ·) 0 (full [2] 9) [2] (some 9)) [0]
  revert this
  decide +kernel

example : (CArray.new (· == ·) 0 (tabulate [5] fun i => i.headD 0) [2] (some 3)).get (· == ·) [3]
    = some none := by decide +kernel

example : ∃ r, concatenation (· == ·) 0
    [CArray.new (· == ·) 0 (full [2] 1) [1] none, CArray.new (· == ·) 0 (full [3] 9) [2] (some 9)]
      = .ok r ∧ r.shape = [5] ∧ r.get [1] = some (some 1) ∧ r.get [4] = some none := by
  refine ⟨_, rfl, ?_, ?_, ?_⟩ <;> decide +kernel

end Verif
