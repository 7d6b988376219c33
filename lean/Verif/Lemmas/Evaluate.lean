import Verif.Spec.Evaluate
import Verif.Lemmas.Variable
import Verif.Props.Chunks
import Verif.Lemmas.OverlapLoad

/-! Lemmas about the evaluation of delayed datasets. -/

namespace Verif

open Nd Ds Vr Ev Spec

variable {V : Type}

/-! ### Blocks -/

theorem blockAt_spec (bs : List Nat) (s i : Nat) :
    (i < bs.sum → ∃ p n k, blockAt s bs i = some (p, n, k) ∧ p + k = s + i ∧ k < n ∧
      p + n ≤ s + bs.sum) ∧
    (bs.sum ≤ i → blockAt s bs i = none) := by
  induction bs generalizing s i with
  | nil => simp [blockAt]
  | cons b t ih =>
    simp only [List.sum_cons, blockAt]
    by_cases hb : i < b
    · rw [if_pos hb]
      exact ⟨fun _ => ⟨s, b, i, rfl, rfl, hb, by omega⟩, fun h => absurd h (by omega)⟩
    · rw [if_neg hb]
      obtain ⟨h1, h2⟩ := ih (s + b) (i - b)
      refine ⟨fun h => ?_, fun h => h2 (by omega)⟩
      obtain ⟨p, n, k, e, e1, e2, e3⟩ := h1 (by omega)
      exact ⟨p, n, k, e, by omega, e2, by omega⟩

/-- The block of an index within the bounds: the index is the start of the block plus the index
within the block, and the block lies within the bounds. -/
theorem locate_spec (grid : List (List Nat)) (idx : List Nat) :
    (Inside (grid.map List.sum) idx → ∃ s n k, locate grid idx = some (s, n, k) ∧
      List.zipWith (· + ·) s k = idx ∧ Inside n k ∧
      ∀ k', Inside n k' → Inside (grid.map List.sum) (List.zipWith (· + ·) s k')) ∧
    (¬ Inside (grid.map List.sum) idx → locate grid idx = none) := by
  induction grid generalizing idx with
  | nil =>
    cases idx with
    | nil =>
      refine ⟨fun _ => ⟨[], [], [], rfl, rfl, by simp [Inside], ?_⟩, fun h => absurd (by simp [Inside]) h⟩
      intro k' _
      simp [Inside]
    | cons i t => exact ⟨fun h => absurd h (inside_nil_cons _ _), fun _ => rfl⟩
  | cons b bs ih =>
    cases idx with
    | nil => exact ⟨fun h => absurd h (inside_cons_nil _ _), fun _ => rfl⟩
    | cons i t =>
      rw [List.map_cons, inside_cons]
      obtain ⟨b1, b2⟩ := blockAt_spec b 0 i
      obtain ⟨l1, l2⟩ := ih t
      constructor
      · rintro ⟨hi, ht⟩
        obtain ⟨p, n, k, e, e1, e2, e3⟩ := b1 hi
        obtain ⟨ss, ns, ks, e', e1', e2', e3'⟩ := l1 ht
        refine ⟨p :: ss, n :: ns, k :: ks, by simp only [locate, e, e'], ?_, ?_, ?_⟩
        · rw [List.zipWith_cons_cons, e1']; congr 1; omega
        · exact (inside_cons _ _ _ _).2 ⟨e2, e2'⟩
        · intro k' hk'
          cases k' with
          | nil => exact absurd hk' (inside_cons_nil _ _)
          | cons x xs =>
            rw [inside_cons] at hk'
            rw [List.zipWith_cons_cons, inside_cons]
            exact ⟨by omega, e3' xs hk'.2⟩
      · intro h
        by_cases hi : i < b.sum
        · have ht : ¬ Inside (bs.map List.sum) t := fun ht => h ⟨hi, ht⟩
          simp only [locate, l2 ht]
          cases blockAt 0 b i <;> rfl
        · simp only [locate, b2 (by omega)]

/-! ### Compression -/

theorem compressBlock_read {lib : Lib V} (hu : Usual lib) (fill : Option V) {a : Arr V}
    (ha : ArrOk a) (idx : List Nat) :
    (Chunk.readEager (compressBlock lib fill a).array).get idx = a.get idx := by
  have h := (C21_update lib.same
    { shape := a.shape, chunk := lib.guess a.shape, fill := fill, data := fun _ => none }
    (compressBlock lib fill a).array (hu.rank _) (hu.positive _) a ha).2
    (by simp [Chunk.updateArray]; rfl)
  exact h.2.2.2 idx

theorem blockOf_arrOk {a : Arr V} (ha : ArrOk a) {start shape : List Nat}
    (h : ∀ k, Inside shape k → Inside a.shape (List.zipWith (· + ·) start k)) :
    ArrOk (Ev.blockOf a start shape) := by
  intro k
  simp only [Ev.blockOf]
  by_cases hk : inBounds k shape = true
  · have hi := (inBounds_iff k shape).1 hk
    rw [if_pos hk]
    exact ⟨fun _ => hi, fun _ => (ha _).2 (h k hi)⟩
  · rw [if_neg hk]
    exact ⟨fun ⟨_, hv⟩ => (nomatch hv), fun hi => absurd ((inBounds_iff k shape).2 hi) hk⟩

/-- The compressed blocks of an array hold its values. -/
theorem compressed_content {lib : Lib V} (hu : Usual lib) (fill : Option V) {a : Arr V}
    (ha : ArrOk a) {grid : List (List Nat)} (hg : grid.map List.sum = a.shape) :
    content a.shape (fun idx => (locate grid idx).map fun p =>
      (compressBlock lib fill (Ev.blockOf a p.1 p.2.1), p.2.2)) = a := by
  have : ∀ idx, ((locate grid idx).map fun p =>
      (compressBlock lib fill (Ev.blockOf a p.1 p.2.1), p.2.2)).bind
      (fun p => (Chunk.readEager p.1.array).get p.2) = a.get idx := by
    intro idx
    obtain ⟨h1, h2⟩ := locate_spec grid idx
    rw [hg] at h1 h2
    by_cases hi : Inside a.shape idx
    · obtain ⟨s, n, k, e, e1, e2, e3⟩ := h1 hi
      rw [e]
      simp only [Option.map_some, Option.bind_some]
      rw [compressBlock_read hu fill (blockOf_arrOk ha e3)]
      simp only [Ev.blockOf, (inBounds_iff k n).2 e2, if_true, e1]
    · rw [h2 hi]
      cases hx : a.get idx with
      | none => rfl
      | some x => exact absurd ((ha idx).1 ⟨x, hx⟩) hi
  unfold content
  congr 1
  funext idx
  exact this idx

theorem compressed_hidden {lib : Lib V} (hu : Usual lib) (fill : Option V) {a : Arr V}
    (ha : ArrOk a) {grid : List (List Nat)} (hg : grid.map List.sum = a.shape) (f : Option V)
    (idx : List Nat) :
    Body.hidden lib.num.eqv (.compressed a.shape f fun idx => (locate grid idx).map fun p =>
      (compressBlock lib fill (Ev.blockOf a p.1 p.2.1), p.2.2)) idx =
    (match a.get idx, fill with
      | some x, some g => lib.num.eqv x g
      | _, _ => false) := by
  have hc := congrArg (fun b => b.get idx) (compressed_content hu fill ha hg)
  simp only [content] at hc
  simp only [Body.hidden]
  cases hl : locate grid idx with
  | none =>
    rw [hl] at hc
    simp only [Option.map_none, Option.bind_none] at hc
    rw [← hc]
    rfl
  | some p =>
    rw [hl] at hc
    simp only [Option.map_some, Option.bind_some] at hc
    have hfill : (compressBlock lib fill (Ev.blockOf a p.1 p.2.1)).fill = fill := rfl
    simp only [Option.map_some, Chunk.CArray.get, Chunk.values, hc, hfill]
    cases ha : a.get idx with
    | none => rfl
    | some x =>
      cases fill with
      | none => rfl
      | some g =>
        simp only [Option.map_some]
        cases h : lib.num.eqv x g <;> simp

/-! ### The invariant -/

/-- The state of a delayed variable that holds the array of `w`. -/
structure Rep (lib : Lib V) (w : Var V) (v : LVar V) : Prop where
  name : v.name = w.name
  dims : v.dims = w.dims
  fill : v.fill = w.fill
  props : v.props = w.props
  raw : v.body.raw = w.array
  grid : v.grid.map List.sum = w.array.shape
  kind : (∀ b, v.body ≠ .tuple b) ∧ (∀ s f p, v.body = .compressed s f p → f = v.fill) ∧
    ∀ a m g, v.body = .masked a m g → ∃ f, v.fill = some f ∧ g = lib.conv f
  hidden : ∀ idx, v.body.hidden lib.num.eqv idx = true → ∃ x f, v.fill = some f ∧
    w.array.get idx = some x ∧ lib.num.eqv x f = true
  shown : ∀ a m g, v.body = .masked a m g → ∀ idx x f, v.fill = some f →
    w.array.get idx = some x → lib.num.eqv x f = true → m idx = true

theorem rep_same {lib : Lib V} {w : Var V} {v : LVar V} (h : Rep lib w v) : SameLazy lib w v := by
  refine ⟨h.name, h.dims, h.fill, h.props, ?_, ?_⟩
  · have hk := h.kind.1
    have hr := h.raw
    cases hb : v.body with
    | tuple b => exact absurd hb (hk b)
    | plain a => rw [hb] at hr; simp only [Body.shape]; rw [hr]
    | masked a m g => rw [hb] at hr; simp only [Body.shape]; rw [hr]
    | compressed s f p => rw [hb] at hr; simp only [Body.shape]; rw [hr]
  · unfold LVar.values valuesOf masked
    rw [h.raw]
    congr 1
    funext idx
    simp only [Chunk.values]
    cases hx : w.array.get idx with
    | none => rfl
    | some x =>
      simp only [Option.map_some]
      rw [← h.fill]
      cases hf : v.fill with
      | none =>
        have : v.body.hidden lib.num.eqv idx = false := by
          cases hh : v.body.hidden lib.num.eqv idx with
          | false => rfl
          | true =>
            obtain ⟨_, f, e, _⟩ := h.hidden idx hh
            rw [hf] at e; cases e
        simp only [this]
        rfl
      | some f =>
        simp only [Body.equalMask, h.raw, hx]
        cases he : lib.num.eqv x f with
        | true => simp
        | false =>
          have : v.body.hidden lib.num.eqv idx = false := by
            cases hh : v.body.hidden lib.num.eqv idx with
            | false => rfl
            | true =>
              obtain ⟨y, g, e1, e2, e3⟩ := h.hidden idx hh
              rw [hf] at e1; cases e1
              rw [hx] at e2; cases e2
              rw [he] at e3; cases e3
          simp [this]

theorem rep_data {lib : Lib V} {w : Var V} {v : LVar V} (h : Rep lib w v) :
    ∃ b, v.data lib = .ok b ∧ Rep lib w { v with body := b } ∧
      ∀ f, v.fill = some f → ∃ a m, b = .masked a m (lib.conv f) := by
  have hk := h.kind
  rcases Option.eq_none_or_eq_some v.fill with hf | ⟨f, hf⟩
  · refine ⟨v.body, by simp only [LVar.data, hf], h, fun f hf' => ?_⟩
    rw [hf] at hf'; cases hf'
  · have key : ∀ b : Body V, b = v.body →
        Rep lib w { v with body := .masked b.raw (b.equalMask lib.num.eqv f) (lib.conv f) } := by
      rintro b rfl
      refine ⟨h.name, h.dims, h.fill, h.props, h.raw, h.grid, ⟨fun _ hc => (nomatch hc),
        fun _ _ _ hc => (nomatch hc), ?_⟩, ?_, ?_⟩
      · rintro a m g ⟨⟩
        exact ⟨f, hf, rfl⟩
      · intro idx hh
        simp only [Body.hidden, Body.equalMask, Bool.or_eq_true] at hh
        rcases hh with hh | hh
        · exact h.hidden idx hh
        · rw [h.raw] at hh
          cases hx : w.array.get idx with
          | none => rw [hx] at hh; cases hh
          | some x => rw [hx] at hh; exact ⟨x, f, hf, rfl, hh⟩
      · rintro a m g ⟨⟩ idx x f' hf' hx he
        simp only at hf'
        rw [hf] at hf'; cases hf'
        simp [Body.equalMask, h.raw, hx, he]
    have conv : ∀ a m g, v.body = .masked a m g → g = lib.conv f := by
      intro a m g hb
      obtain ⟨f', hf', e⟩ := hk.2.2 a m g hb
      rw [hf] at hf'; cases hf'; exact e
    have last : ∀ a m f', v.fill = some f' →
        ∃ a' m', Body.masked a m (lib.conv f) = .masked a' m' (lib.conv f') := by
      intro a m f' hf'
      rw [hf] at hf'; cases hf'
      exact ⟨a, m, rfl⟩
    cases hb : v.body with
    | tuple b => exact absurd hb (hk.1 b)
    | masked a m g =>
      have := conv a m g hb
      subst this
      refine ⟨.masked a m (lib.conv f), by simp only [LVar.data, hf, hb], ?_, last a m⟩
      rw [← hb]
      exact h
    | plain a =>
      exact ⟨_, by simp only [LVar.data, hf, hb], key (.plain a) hb.symm, last _ _⟩
    | compressed s g p =>
      exact ⟨_, by simp only [LVar.data, hf, hb], key (.compressed s g p) hb.symm, last _ _⟩

theorem rep_daskPersist {lib : Lib V} {w : Var V} {v : LVar V} (h : Rep lib w v) :
    ∃ v', v.daskPersist lib = .ok v' ∧ Rep lib w v' := by
  obtain ⟨b, hb, hr, _⟩ := rep_data h
  refine ⟨{ v with body := b }, ?_, hr⟩
  unfold LVar.daskPersist
  cases hv : v.body with
  | tuple t => exact absurd hv (h.kind.1 t)
  | _ => simp only [hb, bind, Except.bind]

theorem rep_daskCompute {lib : Lib V} {w : Var V} {v : LVar V} (h : Rep lib w v)
    {auto : List Nat → List (List Nat)} (ha : ∀ s, (auto s).map List.sum = s) :
    ∃ v', v.daskCompute lib auto = .ok v' ∧ Rep lib w v' := by
  obtain ⟨b, hb, hr, hm⟩ := rep_data h
  have run : ∀ b' : Body V, asBody (b.result lib) = b' →
      v.daskCompute lib auto = .ok { v with body := b', grid := auto (b.result lib).array.shape } := by
    intro b' e
    unfold LVar.daskCompute
    cases hv : v.body with
    | tuple t => exact absurd hv (h.kind.1 t)
    | _ => simp only [hb, bind, Except.bind, ← e]
  have plain : v.fill = none → ∀ s : List Nat, s = w.array.shape →
      Rep lib w { v with body := .plain w.array, grid := auto s } := by
    intro hf s hs
    exact ⟨h.name, h.dims, h.fill, h.props, rfl, hs ▸ ha s, ⟨fun _ hc => (nomatch hc),
      fun _ _ _ hc => (nomatch hc), fun _ _ _ hc => (nomatch hc)⟩, fun _ hc => (nomatch hc),
      fun _ _ _ hc => (nomatch hc)⟩
  have raw : b.raw = w.array := hr.raw
  cases hf : v.fill with
  | some f =>
    obtain ⟨a, m, rfl⟩ := hm f hf
    have ra : a = w.array := raw
    refine ⟨_, run _ rfl, ?_⟩
    exact ⟨h.name, h.dims, h.fill, h.props, ra, by simp only [Body.result]; rw [ha, ra],
      ⟨fun _ hc => (nomatch hc), fun _ _ _ hc => (nomatch hc), hr.kind.2.2⟩, hr.hidden, hr.shown⟩
  | none =>
    have e : b = v.body := by
      have : v.data lib = .ok v.body := by simp only [LVar.data, hf]
      rw [hb] at this
      injection this
    cases hv : v.body with
    | tuple t => exact absurd hv (h.kind.1 t)
    | masked a m g =>
      obtain ⟨f, hf', _⟩ := h.kind.2.2 a m g hv
      rw [hf] at hf'; cases hf'
    | plain a =>
      rw [e, hv] at raw run
      refine ⟨_, run _ rfl, ?_⟩
      simp only [Body.raw] at raw
      simp only [Body.result, Body.raw, raw]
      exact plain hf _ rfl
    | compressed s f p =>
      obtain rfl := h.kind.2.1 s f p hv
      rw [e, hv] at raw run
      refine ⟨_, run _ rfl, ?_⟩
      have er : Body.result lib (.compressed s v.fill p) = ⟨w.array, none⟩ := by
        rw [hf]
        simp only [Body.result, Body.raw] at raw ⊢
        rw [raw]
      rw [er]
      exact plain hf _ rfl

/-- The blocks of a variable with a fill value are not compressed. -/
def Settled (v : LVar V) : Prop := ∀ s f p, v.body = .compressed s f p → v.fill = none

theorem rep_compress {lib : Lib V} (hu : Usual lib) {w : Var V} {v : LVar V} (hw : ArrOk w.array)
    (h : Rep lib w v) : ∃ v', compress lib v = .ok v' ∧ Rep lib w v' := by
  have key : ∀ b : Body V, b = v.body → Rep lib w { v with
      body := .compressed b.raw.shape v.fill fun idx =>
        (locate v.grid idx).map fun p =>
          (compressBlock lib v.fill (Ev.blockOf b.raw p.1 p.2.1), p.2.2) } := by
    rintro b rfl
    rw [h.raw]
    refine ⟨h.name, h.dims, h.fill, h.props, compressed_content hu v.fill hw h.grid, h.grid,
      ⟨fun _ hc => (nomatch hc), ?_, fun _ _ _ hc => (nomatch hc)⟩, ?_, fun _ _ _ hc => (nomatch hc)⟩
    · rintro s f p ⟨⟩
      rfl
    · intro idx hh
      rw [compressed_hidden hu v.fill hw h.grid] at hh
      cases hx : w.array.get idx with
      | none => rw [hx] at hh; cases hh
      | some x =>
        rw [hx] at hh
        cases hf : v.fill with
        | none => rw [hf] at hh; cases hh
        | some f => rw [hf] at hh; exact ⟨x, f, rfl, rfl, hh⟩
  unfold compress
  cases hb : v.body with
  | tuple b => exact absurd hb (h.kind.1 b)
  | plain a => exact ⟨_, rfl, key (.plain a) hb.symm⟩
  | masked a m g => exact ⟨_, rfl, key (.masked a m g) hb.symm⟩
  | compressed s f p => exact ⟨v, rfl, h⟩

theorem rechunk_total (shape : List Nat) (specs : List Chunk.ChunkSpec)
    (h : Chunk.ChunkSpec.size 0 ∉ specs) : ∃ bs, Chunk.rechunk shape specs = .ok bs := by
  induction shape generalizing specs with
  | nil => cases specs <;> exact ⟨_, rfl⟩
  | cons n shape ih =>
    cases specs with
    | nil =>
      obtain ⟨bs, hbs⟩ := ih [] (by simp)
      exact ⟨[n] :: bs, by simp [Chunk.rechunk, hbs, bind, Except.bind]⟩
    | cons s specs =>
      simp only [List.mem_cons, not_or] at h
      obtain ⟨bs, hbs⟩ := ih specs h.2
      have : ∃ b, Chunk.rechunkDim n s = .ok b := by
        cases s with
        | whole => exact ⟨_, rfl⟩
        | size c =>
          simp only [Chunk.rechunkDim, Chunk.blockdims]
          split
          · exact ⟨_, rfl⟩
          · rw [if_neg (by rintro rfl; exact h.1 rfl)]
            exact ⟨_, rfl⟩
      obtain ⟨b, hb⟩ := this
      exact ⟨b :: bs, by simp [Chunk.rechunk, hb, hbs, bind, Except.bind]⟩

theorem rechunk_sums (shape : List Nat) (specs : List Chunk.ChunkSpec) (bs : List (List Nat))
    (h : Chunk.rechunk shape specs = .ok bs) : bs.map List.sum = shape := by
  have hb := rechunk_ok shape specs bs h
  clear h
  induction shape generalizing bs with
  | nil => cases bs with | nil => rfl | cons _ _ => exact hb.elim
  | cons n shape ih =>
    cases bs with
    | nil => exact hb.elim
    | cons b bs => rw [List.map_cons, hb.1.1, ih bs hb.2]

theorem rep_rechunk {lib : Lib V} {w : Var V} {v v' : LVar V} (h : Rep lib w v) (hs : Settled v)
    {specs : List Chunk.ChunkSpec} (hr : v.rechunk specs = .ok v') :
    Rep lib w v' ∧ Settled v' ∧ ∀ f, v.fill = some f → v'.body = v.body := by
  have key : ∀ (b : Body V) (grid : List (List Nat)), b = v.body →
      grid.map List.sum = w.array.shape →
      Rep lib w { v with body := b, grid } ∧ Settled { v with body := b, grid } ∧
        ∀ f, v.fill = some f → b = v.body := by
    rintro b grid rfl hg
    exact ⟨⟨h.name, h.dims, h.fill, h.props, h.raw, hg, h.kind, h.hidden, h.shown⟩, hs,
      fun _ _ => rfl⟩
  unfold LVar.rechunk at hr
  cases hb : v.body with
  | tuple b => exact absurd hb (h.kind.1 b)
  | plain a =>
    rw [hb] at hr
    simp only [bind, Except.bind] at hr
    split at hr
    · cases hr
    · next grid hg =>
      cases hr
      have hraw : a = w.array := by have := h.raw; rwa [hb] at this
      have := key (.plain a) grid hb.symm (hraw ▸ rechunk_sums _ _ _ hg)
      rwa [hb] at this
  | masked a m g =>
    rw [hb] at hr
    simp only [bind, Except.bind] at hr
    split at hr
    · cases hr
    · next grid hg =>
      cases hr
      have hraw : a = w.array := by have := h.raw; rwa [hb] at this
      have := key (.masked a m g) grid hb.symm (hraw ▸ rechunk_sums _ _ _ hg)
      rwa [hb] at this
  | compressed s f p =>
    rw [hb] at hr
    simp only [bind, Except.bind] at hr
    split at hr
    · cases hr
    · next grid hg =>
      cases hr
      have hraw : content s p = w.array := by have := h.raw; rwa [hb] at this
      have hsh : s = w.array.shape := congrArg Arr.shape hraw
      refine ⟨⟨h.name, h.dims, h.fill, h.props, hraw, ?_, ⟨fun _ hc => (nomatch hc),
        fun _ _ _ hc => (nomatch hc), fun _ _ _ hc => (nomatch hc)⟩, fun _ hc => (nomatch hc),
        fun _ _ _ hc => (nomatch hc)⟩, fun _ _ _ hc => (nomatch hc), ?_⟩
      · exact hsh ▸ rechunk_sums _ _ _ hg
      · intro g hg'
        have := hs s f p hb
        rw [hg'] at this; cases this

theorem rep_rechunk_total {lib : Lib V} {w : Var V} {v : LVar V} (h : Rep lib w v)
    {specs : List Chunk.ChunkSpec} (hp : Chunk.ChunkSpec.size 0 ∉ specs) :
    ∃ v', v.rechunk specs = .ok v' := by
  unfold LVar.rechunk
  cases hb : v.body with
  | tuple b => exact absurd hb (h.kind.1 b)
  | plain a =>
    obtain ⟨bs, hbs⟩ := rechunk_total a.shape specs hp
    simp only [Body.raw, hbs, bind, Except.bind]
    exact ⟨_, rfl⟩
  | masked a m g =>
    obtain ⟨bs, hbs⟩ := rechunk_total a.shape specs hp
    simp only [Body.raw, hbs, bind, Except.bind]
    exact ⟨_, rfl⟩
  | compressed s f p =>
    obtain ⟨bs, hbs⟩ := rechunk_total s specs hp
    simp only [hbs, bind, Except.bind]
    exact ⟨_, rfl⟩

/-! ### Lists of variables -/

theorem pairs_mapPy {α β γ : Type} {R : α → β → Prop} {S : α → γ → Prop} {f : β → Py γ}
    (ws : List α) (vs : List β) (h : Pairs R ws vs)
    (hf : ∀ w ∈ ws, ∀ v, R w v → ∃ v', f v = .ok v' ∧ S w v') :
    ∃ vs', mapPy f vs = .ok vs' ∧ Pairs S ws vs' := by
  induction ws generalizing vs with
  | nil =>
    cases vs with
    | nil => exact ⟨[], rfl, trivial⟩
    | cons _ _ => exact h.elim
  | cons w ws ih =>
    cases vs with
    | nil => exact h.elim
    | cons v vs =>
      obtain ⟨v', h1, h2⟩ := hf w (by simp) v h.1
      obtain ⟨vs', h3, h4⟩ := ih vs h.2 fun w hw => hf w (by simp [hw])
      exact ⟨v' :: vs', by simp [mapPy, h1, h3, bind, Except.bind], h2, h4⟩

theorem pairs_mapPy_of {α β γ : Type} {R : α → β → Prop} {S : α → γ → Prop} {f : β → Py γ}
    (ws : List α) (vs : List β) (vs' : List γ) (h : Pairs R ws vs) (hm : mapPy f vs = .ok vs')
    (hf : ∀ w ∈ ws, ∀ v v', R w v → f v = .ok v' → S w v') : Pairs S ws vs' := by
  induction ws generalizing vs vs' with
  | nil =>
    cases vs with
    | nil => cases hm; trivial
    | cons _ _ => exact h.elim
  | cons w ws ih =>
    cases vs with
    | nil => exact h.elim
    | cons v vs =>
      simp only [mapPy, bind, Except.bind] at hm
      split at hm
      · cases hm
      · next v' hv =>
        split at hm
        · cases hm
        · next t ht =>
          cases hm
          exact ⟨hf w (by simp) v v' h.1 hv, ih vs t h.2 ht fun w hw => hf w (by simp [hw])⟩

theorem pairs_mono {α β : Type} {R S : α → β → Prop} (ws : List α) (vs : List β)
    (h : Pairs R ws vs) (hRS : ∀ w ∈ ws, ∀ v, R w v → S w v) : Pairs S ws vs := by
  induction ws generalizing vs with
  | nil =>
    cases vs with
    | nil => trivial
    | cons _ _ => exact h.elim
  | cons w ws ih =>
    cases vs with
    | nil => exact h.elim
    | cons v vs => exact ⟨hRS w (by simp) v h.1, ih vs h.2 fun w hw => hRS w (by simp [hw])⟩

theorem pairs_map {α β γ : Type} {R : α → γ → Prop} (f : β → γ) (ws : List α) (vs : List β) :
    Pairs R ws (vs.map f) ↔ Pairs (fun w v => R w (f v)) ws vs := by
  induction ws generalizing vs with
  | nil => cases vs <;> simp [Pairs]
  | cons w ws ih => cases vs <;> simp [Pairs, ih]

theorem pairs_self {α : Type} {R : α → α → Prop} (l : List α) (h : ∀ x ∈ l, R x x) :
    Pairs R l l := by
  induction l with
  | nil => trivial
  | cons x t ih => exact ⟨h x (by simp), ih fun y hy => h y (by simp [hy])⟩

theorem pairs_names {α β γ : Type} {R : α → β → Prop} {f : α → γ} {g : β → γ} (ws : List α)
    (vs : List β) (h : Pairs R ws vs) (hf : ∀ w v, R w v → g v = f w) : vs.map g = ws.map f := by
  induction ws generalizing vs with
  | nil =>
    cases vs with
    | nil => rfl
    | cons _ _ => exact h.elim
  | cons w ws ih =>
    cases vs with
    | nil => exact h.elim
    | cons v vs => rw [List.map_cons, List.map_cons, hf w v h.1, ih vs h.2]

theorem pairs_mem {α β : Type} {R : α → β → Prop} (ws : List α) (vs : List β) (h : Pairs R ws vs)
    (v : β) (hv : v ∈ vs) : ∃ w ∈ ws, R w v := by
  induction ws generalizing vs with
  | nil =>
    cases vs with
    | nil => cases hv
    | cons _ _ => exact h.elim
  | cons w ws ih =>
    cases vs with
    | nil => exact h.elim
    | cons u vs =>
      rcases List.mem_cons.1 hv with rfl | hv
      · exact ⟨w, by simp, h.1⟩
      · obtain ⟨w', h1, h2⟩ := ih vs h.2 hv
        exact ⟨w', by simp [h1], h2⟩

theorem updateDims_none (dims : List (String × Nat)) (vars : List (Var V)) (b : Bool)
    (hne : vars ≠ []) (h : ∀ v ∈ vars, v.delayed = b) :
    updateDims dims none vars = updateDims dims (some b) vars := by
  cases vs : vars with
  | nil => exact absurd vs hne
  | cons v t =>
    have := h v (by simp [vs])
    simp [updateDims, this]

theorem mk_all_delayed (vars : List (Var V)) (attrs : List (String × String))
    (chunks : List (String × Nat)) (limit : Nat) (h : ∀ v ∈ vars, v.delayed = true) :
    mk vars attrs chunks limit none = mk vars attrs chunks limit (some true) := by
  unfold mk
  cases hv : vars.foldl setVar [] with
  | nil => rfl
  | cons v t =>
    have : updateDims [] none (v :: t) = updateDims [] (some true) (v :: t) := by
      apply updateDims_none [] (v :: t) true (by simp)
      intro u hu
      rw [← hv] at hu
      rcases foldl_setVar_mem vars [] u hu with hu | hu
      · exact h u hu
      · cases hu
    simp only [this]

/-! ### Datasets -/

/-- The state of one variable; `p` tells if the dataset was persisted. -/
structure VarInv (lib : Lib V) (p : Bool) (w : Var V) (v : LVar V) : Prop where
  rep : Rep lib w v
  settled : Settled v
  fresh : p = false → ∃ a, v.body = .plain a
  persisted : p = true → ∀ f, v.fill = some f → ∃ a m, v.body = .masked a m (lib.conv f)

/-- The state of a delayed dataset made of `ds`. -/
structure Inv (lib : Lib V) (p : Bool) (ds : Dataset V) (l : LDataset V) : Prop where
  vars : Pairs (VarInv lib p) ds.vars l.vars
  attrs : l.attrs = ds.attrs
  chunks : l.chunks = ds.chunks
  limit : l.limit = ds.limit
  dims : ∀ d n, l.dims.lookup d = some n → ds.dims.lookup d = some n

theorem inv_start (lib : Lib V) {grid : String → List (List Nat)} {ds : Dataset V}
    (h : Lazy grid ds) : Inv lib false ds (ofDataset grid ds) := by
  refine ⟨?_, rfl, rfl, rfl, fun _ _ h => h⟩
  simp only [ofDataset, pairs_map]
  apply pairs_self
  intro w hw
  refine ⟨⟨rfl, rfl, rfl, rfl, rfl, h.blocks w hw, ⟨fun _ hc => (nomatch hc),
    fun _ _ _ hc => (nomatch hc), fun _ _ _ hc => (nomatch hc)⟩, fun _ hc => (nomatch hc),
    fun _ _ _ hc => (nomatch hc)⟩, fun _ _ _ hc => (nomatch hc), fun _ => ⟨_, rfl⟩,
    fun hp => (nomatch hp)⟩

theorem inv_persist {lib : Lib V} (hu : Usual lib) {p : Bool} {ds : Dataset V} {l : LDataset V}
    (ha : ∀ v ∈ ds.vars, ArrOk v.array) (h : Inv lib p ds l) (c : Bool) :
    ∃ l', persist lib c l = .ok l' ∧ Inv lib true ds l' := by
  have h1 : ∃ vs, (if c then mapPy (compress lib) l.vars else .ok l.vars) = .ok vs ∧
      Pairs (Rep lib) ds.vars vs := by
    cases c with
    | false => exact ⟨l.vars, rfl, pairs_mono _ _ h.vars fun _ _ _ hr => hr.rep⟩
    | true =>
      exact pairs_mapPy _ _ h.vars fun w hw v hr => rep_compress hu (ha w hw) hr.rep
  obtain ⟨vs, e1, h1⟩ := h1
  obtain ⟨vs', e2, h2⟩ := pairs_mapPy (S := VarInv lib true)
    (f := fun v => do
      let b ← LVar.data lib v
      .ok { v with body := b }) _ _ h1 (by
    intro w hw v hr
    obtain ⟨b, hb, hr', hm⟩ := rep_data hr
    refine ⟨{ v with body := b }, by simp [hb, bind, Except.bind], hr', ?_, fun hp => (nomatch hp),
      fun _ f hf => hm f hf⟩
    intro s f q hc
    cases hf : v.fill with
    | none => rfl
    | some g =>
      obtain ⟨a, m, e⟩ := hm g hf
      rw [e] at hc; cases hc)
  refine ⟨{ l with vars := vs' }, ?_, h2, h.attrs, h.chunks, h.limit, h.dims⟩
  cases c with
  | false =>
    cases e1
    simp only [persist, Bool.false_eq_true, if_false, bind, Except.bind]
    simp only [bind, Except.bind] at e2
    rw [e2]
  | true =>
    rw [if_pos rfl] at e1
    simp only [persist, if_true, e1, bind, Except.bind]
    simp only [bind, Except.bind] at e2
    rw [e2]

theorem erase_mk {lib : Lib V} {ds : Dataset V} (hc : Consistent ds) {vs : List (LVar V)}
    (h : Pairs (Rep lib) ds.vars vs) (attrs : List (String × String))
    (chunks : List (String × Nat)) (limit : Nat) :
    ∃ r, mk (vs.map LVar.erase) attrs chunks limit none = .ok r ∧
      ∀ d n, r.dims.lookup d = some n → ds.dims.lookup d = some n := by
  have hn : (vs.map LVar.erase).map (·.name) = ds.vars.map (·.name) := by
    rw [List.map_map]
    exact pairs_names _ _ h fun _ _ hr => hr.name
  obtain ⟨dims, e, hext⟩ := mk_ok (vs.map LVar.erase) attrs chunks limit true ds.dims
    (by rw [hn]; exact hc.names)
    (by intro v hv; obtain ⟨u, _, rfl⟩ := List.mem_map.1 hv; rfl)
    (by
      intro v hv
      obtain ⟨u, hu, rfl⟩ := List.mem_map.1 hv
      obtain ⟨w, hw, hr⟩ := pairs_mem _ _ h u hu
      have := hc.sizes w hw
      simp only [Agrees, LVar.erase, hr.raw, hr.dims]
      exact this)
  refine ⟨_, (mk_all_delayed _ attrs chunks limit ?_).trans e, hext⟩
  intro v hv
  obtain ⟨u, _, rfl⟩ := List.mem_map.1 hv
  rfl

theorem inv_rechunk {lib : Lib V} {p : Bool} {ds : Dataset V} {l : LDataset V}
    (hc : Consistent ds) (h : Inv lib p ds l) (specs : String → List Chunk.ChunkSpec) :
    (∀ l', rechunk specs l = .ok l' → Inv lib p ds l') ∧
    ((∀ name, Chunk.ChunkSpec.size 0 ∉ specs name) → ∃ l', rechunk specs l = .ok l') := by
  have step : ∀ w ∈ ds.vars, ∀ v v', VarInv lib p w v → v.rechunk (specs v.name) = .ok v' →
      VarInv lib p w v' := by
    intro w hw v v' hv hr
    obtain ⟨h1, h2, h3⟩ := rep_rechunk hv.rep hv.settled hr
    refine ⟨h1, h2, ?_, ?_⟩
    · intro hp
      obtain ⟨a, hb⟩ := hv.fresh hp
      simp only [LVar.rechunk, hb, bind, Except.bind] at hr
      split at hr
      · cases hr
      · cases hr; exact ⟨a, rfl⟩
    · intro hp f hf
      have : v.fill = some f := by rw [hv.rep.fill, ← h1.fill]; exact hf
      rw [h3 f this]
      exact hv.persisted hp f this
  constructor
  · intro l' hl
    simp only [rechunk, bind, Except.bind] at hl
    split at hl
    · cases hl
    · next vs hvs =>
      have hp := pairs_mapPy_of _ _ _ h.vars hvs step
      obtain ⟨r, hr, hd⟩ := erase_mk hc (pairs_mono _ _ hp fun _ _ _ hr => hr.rep) l.attrs l.chunks
        l.limit
      rw [hr] at hl
      cases hl
      exact ⟨hp, h.attrs, h.chunks, h.limit, hd⟩
  · intro hp
    obtain ⟨vs, hvs, hq⟩ := pairs_mapPy (S := VarInv lib p)
      (f := fun v => v.rechunk (specs v.name)) _ _ h.vars (by
        intro w hw v hv
        obtain ⟨v', hr⟩ := rep_rechunk_total hv.rep (hp v.name)
        exact ⟨v', hr, step w hw v v' hv hr⟩)
    obtain ⟨r, hr, _⟩ := erase_mk hc (pairs_mono _ _ hq fun _ _ _ hr => hr.rep) l.attrs l.chunks
      l.limit
    simp only [rechunk, hvs, hr, bind, Except.bind]
    exact ⟨_, rfl⟩

/-- A dataset is persisted by one of the steps. -/
def persists (ops : List Op) : Bool := ops.any fun o => match o with | .persist _ => true | _ => false

theorem inv_run {lib : Lib V} (hu : Usual lib) {ds : Dataset V} (hc : Consistent ds)
    (ha : ∀ v ∈ ds.vars, ArrOk v.array) (ops : List Op) (hops : ∀ o ∈ ops, NotVar o) {p : Bool}
    {l : LDataset V} (h : Inv lib p ds l) :
    (∀ l', run lib ops l = .ok l' → Inv lib (p || persists ops) ds l') ∧
    ((∀ o ∈ ops, Positive o) → ∃ l', run lib ops l = .ok l') := by
  induction ops generalizing p l with
  | nil => exact ⟨fun l' e => by cases e; simpa [persists] using h, fun _ => ⟨l, rfl⟩⟩
  | cons o t ih =>
    have ih := fun {p l} => @ih (fun o ho => hops o (by simp [ho])) p l
    have key : ∀ l1 (q : Bool), step lib l o = .ok l1 → Inv lib q ds l1 →
        (q || persists t) = (p || persists (o :: t)) →
        (∀ l', run lib (o :: t) l = .ok l' → Inv lib (p || persists (o :: t)) ds l') ∧
        ((∀ o' ∈ o :: t, Positive o') → ∃ l', run lib (o :: t) l = .ok l') := by
      intro l1 q e hi heq
      obtain ⟨h1, h2⟩ := ih hi
      constructor
      · intro l' hl
        simp only [run, e, bind, Except.bind] at hl
        rw [← heq]
        exact h1 l' hl
      · intro hp
        obtain ⟨l', hl⟩ := h2 fun o' ho' => hp o' (by simp [ho'])
        exact ⟨l', by simp only [run, e, bind, Except.bind]; exact hl⟩
    cases o with
    | persistVar n => exact False.elim (hops (.persistVar n) (by simp))
    | persist c =>
      obtain ⟨l1, e, hi⟩ := inv_persist hu ha h c
      exact key l1 true e hi (by simp [persists])
    | rechunk specs =>
      obtain ⟨h1, h2⟩ := inv_rechunk hc h specs
      cases e : rechunk specs l with
      | ok l1 => exact key l1 p e (h1 l1 e) (by simp [persists])
      | error err =>
        constructor
        · intro l' hl
          simp only [run, step, e, bind, Except.bind] at hl
          cases hl
        · intro hp
          obtain ⟨l1, e'⟩ := h2 (hp (.rechunk specs) (by simp))
          rw [e] at e'; cases e'

end Verif
