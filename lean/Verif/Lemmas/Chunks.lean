import Verif.Model.Chunks
import Verif.Lemmas.Array

namespace Verif

open Spec Nd Chunk

variable {V : Type}

theorem inBounds_iff (idx shape : List Nat) : inBounds idx shape = true ↔ Inside shape idx := by
  induction idx generalizing shape with
  | nil =>
    cases shape with
    | nil => simp [inBounds, Inside]
    | cons n s => simp [inBounds, Inside]
  | cons x t ih =>
    cases shape with
    | nil => simp [inBounds, Inside]
    | cons n s =>
      simp only [inBounds, Bool.and_eq_true, decide_eq_true_eq, ih, Inside, List.length_cons]
      constructor
      · rintro ⟨h1, h2, h3⟩
        refine ⟨by omega, ?_⟩
        intro i a b ha hb
        cases i with
        | zero => simp at ha hb; omega
        | succ i => exact h3 i a b (by simpa using ha) (by simpa using hb)
      · rintro ⟨h1, h2⟩
        refine ⟨h2 0 x n rfl rfl, by omega, ?_⟩
        intro i a b ha hb
        exact h2 (i + 1) a b (by simpa using ha) (by simpa using hb)

theorem inside_cons (n x : Nat) (shape idx : List Nat) :
    Inside (n :: shape) (x :: idx) ↔ x < n ∧ Inside shape idx := by
  rw [← inBounds_iff, ← inBounds_iff]
  simp [inBounds]

theorem inside_nil_cons (x : Nat) (idx : List Nat) : ¬ Inside [] (x :: idx) := by
  simp [Inside]

theorem inside_cons_nil (n : Nat) (shape : List Nat) : ¬ Inside (n :: shape) [] := by
  simp [Inside]

theorem blockdims_sum (n c : Nat) (b : List Nat) (h : blockdims n c = .ok b) :
    b.sum = n ∧ b ≠ [] ∧ ∀ x ∈ b.head?, 0 < n → 0 < x := by
  unfold blockdims at h
  split at h
  · next h0 => cases h; simp [h0]
  · next h0 =>
    split at h
    · cases h
    · next hc =>
      cases h
      have hdm := Nat.div_add_mod n c
      have hsum : (List.replicate (n / c) c).sum = n / c * c := by simp
      refine ⟨?_, ?_, ?_⟩
      · split
        · simp; rw [Nat.mul_comm]; omega
        · simp; rw [Nat.mul_comm]; omega
      · intro he
        simp only [List.append_eq_nil_iff, List.replicate_eq_nil_iff] at he
        obtain ⟨h1, h2⟩ := he
        split at h2
        · rw [h1] at hdm; simp at hdm; omega
        · cases h2
      · intro x hx _
        cases hq : n / c with
        | zero =>
          rw [hq] at hx hdm
          simp at hx hdm
          split at hx
          · simp at hx
          · simp at hx; omega
        | succ q =>
          rw [hq, List.replicate_succ] at hx
          simp at hx
          omega

theorem rechunkDim_sum (n : Nat) (s : ChunkSpec) (b : List Nat) (h : rechunkDim n s = .ok b) :
    b.sum = n ∧ b ≠ [] ∧ ∀ x ∈ b.head?, 0 < n → 0 < x := by
  cases s with
  | whole => simp only [rechunkDim] at h; cases h; simp
  | size c => exact blockdims_sum n c b h

/-- The blocks of each dimension add up to its size, and the first one is not empty unless
the dimension is. -/
def BlocksOk : List Nat → List (List Nat) → Prop
  | [], [] => True
  | n :: shape, b :: bs => (b.sum = n ∧ b ≠ [] ∧ ∀ x ∈ b.head?, 0 < n → 0 < x) ∧ BlocksOk shape bs
  | _, _ => False

theorem rechunk_ok (shape : List Nat) (specs : List ChunkSpec) (bs : List (List Nat))
    (h : rechunk shape specs = .ok bs) : BlocksOk shape bs := by
  induction shape generalizing specs bs with
  | nil =>
    cases specs <;> simp only [rechunk] at h <;> cases h <;> trivial
  | cons n shape ih =>
    cases specs with
    | nil =>
      simp only [rechunk, bind, Except.bind] at h
      split at h
      · cases h
      · next r hr =>
        cases h
        exact ⟨by simp, ih [] r hr⟩
    | cons s specs =>
      simp only [rechunk, bind, Except.bind] at h
      split at h
      · cases h
      · next b hb =>
        split at h
        · cases h
        · next r hr =>
          cases h
          exact ⟨rechunkDim_sum n s b hb, ih specs r hr⟩

theorem normalized_ok (shape cs : List Nat) (bs : List (List Nat)) (hl : cs.length = shape.length)
    (h : normalized shape cs = .ok bs) : BlocksOk shape bs := by
  induction shape generalizing cs bs with
  | nil => simp only [normalized] at h; cases h; trivial
  | cons n shape ih =>
    cases cs with
    | nil => simp at hl
    | cons c cs =>
      simp only [normalized, bind, Except.bind] at h
      split at h
      · cases h
      · next b hb =>
        split at h
        · cases h
        · next r hr =>
          cases h
          exact ⟨blockdims_sum n c b hb, ih cs r (by simpa using hl) hr⟩

theorem bounds_cover (bs : List Nat) (s i : Nat) (h : i < bs.sum) :
    ∃ r ∈ bounds s bs, r.1 ≤ s + i ∧ s + i < r.2 := by
  induction bs generalizing s i with
  | nil => simp at h
  | cons b t ih =>
    by_cases hb : i < b
    · exact ⟨(s, s + b), by simp [bounds], by simp, by simp; omega⟩
    · simp only [List.sum_cons] at h
      obtain ⟨r, h1, h2, h3⟩ := ih (s + b) (i - b) (by omega)
      exact ⟨r, by simp [bounds, h1], by omega, by omega⟩

theorem regions_cover (shape : List Nat) (bs : List (List Nat)) (h : BlocksOk shape bs)
    (idx : List Nat) (hi : Inside shape idx) : ∃ r ∈ regions bs, inRegion r idx = true := by
  induction shape generalizing bs idx with
  | nil =>
    cases bs with
    | cons _ _ => exact h.elim
    | nil =>
      cases idx with
      | nil => exact ⟨[], by simp [regions], rfl⟩
      | cons x t => exact absurd hi (inside_nil_cons x t)
  | cons n shape ih =>
    cases bs with
    | nil => exact h.elim
    | cons b bs =>
      cases idx with
      | nil => exact absurd hi (inside_cons_nil n shape)
      | cons x t =>
        rw [inside_cons] at hi
        obtain ⟨r, h1, h2⟩ := ih bs h.2 t hi.2
        obtain ⟨q, g1, g2, g3⟩ := bounds_cover b 0 x (by rw [h.1.1]; exact hi.1)
        refine ⟨q :: r, ?_, ?_⟩
        · simp only [regions, List.mem_flatMap, List.mem_map]
          exact ⟨q, g1, r, h1, rfl⟩
        · simp only [inRegion, h2, Bool.and_true, decide_eq_true_eq]
          omega

theorem chunkShape_pos (shape : List Nat) (bs : List (List Nat)) (cs : List Nat)
    (hb : BlocksOk shape bs) (h : chunkShape bs = .ok cs) :
    cs.length = shape.length ∧ ∀ idx, Inside shape idx → ∀ c ∈ cs, 0 < c := by
  induction shape generalizing bs cs with
  | nil =>
    cases bs with
    | cons _ _ => exact hb.elim
    | nil => simp only [chunkShape] at h; cases h; simp
  | cons n shape ih =>
    cases bs with
    | nil => exact hb.elim
    | cons b bs =>
      cases b with
      | nil => exact absurd rfl hb.1.2.1
      | cons c b =>
        simp only [chunkShape, bind, Except.bind] at h
        split at h
        · cases h
        · next r hr =>
          cases h
          obtain ⟨h1, h2⟩ := ih bs r hb.2 hr
          refine ⟨by simp [h1], ?_⟩
          intro idx hi k hk
          cases idx with
          | nil => exact absurd hi (inside_cons_nil n shape)
          | cons x t =>
            rw [inside_cons] at hi
            rcases List.mem_cons.1 hk with rfl | hk2
            · exact hb.1.2.2 k rfl (by omega)
            · exact h2 t hi.2 k hk2

theorem chunkShape_total (shape : List Nat) (bs : List (List Nat)) (hb : BlocksOk shape bs) :
    ∃ cs, chunkShape bs = .ok cs := by
  induction shape generalizing bs with
  | nil =>
    cases bs with
    | cons _ _ => exact hb.elim
    | nil => exact ⟨[], rfl⟩
  | cons n shape ih =>
    cases bs with
    | nil => exact hb.elim
    | cons b bs =>
      cases b with
      | nil => exact absurd rfl hb.1.2.1
      | cons c b =>
        obtain ⟨cs, h⟩ := ih bs hb.2
        exact ⟨c :: cs, by simp only [chunkShape, bind, Except.bind, h]⟩

theorem globalIdx_self (cs idx : List Nat) (hl : idx.length = cs.length) :
    globalIdx cs (chunkOf cs idx) (within cs idx) = idx := by
  induction cs generalizing idx with
  | nil => cases idx with
    | nil => rfl
    | cons _ _ => simp at hl
  | cons c cs ih =>
    cases idx with
    | nil => simp at hl
    | cons i idx =>
      have := ih idx (by simpa using hl)
      simp only [chunkOf, within, List.zipWith_cons_cons, globalIdx] at this ⊢
      rw [this]
      congr 1
      rw [Nat.mul_comm]
      exact Nat.div_add_mod i c

theorem within_mem (cs idx : List Nat) (hl : idx.length = cs.length) (hp : ∀ c ∈ cs, 0 < c) :
    within cs idx ∈ indices cs := by
  induction cs generalizing idx with
  | nil => cases idx with
    | nil => simp [within, indices]
    | cons _ _ => simp at hl
  | cons c cs ih =>
    cases idx with
    | nil => simp at hl
    | cons i idx =>
      have := ih idx (by simpa using hl) fun x hx => hp x (by simp [hx])
      simp only [within, List.zipWith_cons_cons, indices, List.mem_flatMap, List.mem_range,
        List.mem_map] at this ⊢
      exact ⟨i % c, Nat.mod_lt _ (hp c (by simp)), _, this, rfl⟩

/-- What is read after a write: the value written in the region, the previous one elsewhere;
or the fill value, if zarr holds the two for the same. -/
theorem read_write (eqv : V → V → Bool) (we : Bool) (z : ZArray V) (r : List (Nat × Nat))
    (vals : List Nat → Option V) (idx : List Nat) (hl : idx.length = z.chunk.length)
    (hp : ∀ c ∈ z.chunk, 0 < c) :
    let cur := if inRegion r idx = true then vals idx else z.read idx
    (z.write eqv we r vals).read idx = cur ∨
      (we = false ∧ ∃ x f, cur = some x ∧ z.fill = some f ∧ eqv x f = true ∧
        (z.write eqv we r vals).read idx = some f) := by
  have hg := globalIdx_self z.chunk idx hl
  have hm := within_mem z.chunk idx hl hp
  intro cur
  unfold ZArray.read ZArray.write
  simp only
  by_cases hany : (indices z.chunk).any (fun l => inRegion r (globalIdx z.chunk
      (chunkOf z.chunk idx) l)) = true
  · rw [if_pos hany]
    have hcur : (if inRegion r (globalIdx z.chunk (chunkOf z.chunk idx)
          (within z.chunk idx)) = true
        then vals (globalIdx z.chunk (chunkOf z.chunk idx) (within z.chunk idx))
        else z.content (chunkOf z.chunk idx) (within z.chunk idx)) = cur := by
      rw [hg]
      rfl
    split
    · next c hc =>
      split at hc
      · cases hc
      · cases hc
        left
        exact hcur
    · next hc =>
      right
      split at hc
      · next hcond =>
        obtain ⟨h1, h2⟩ := hcond
        refine ⟨by simpa using h1, ?_⟩
        unfold allFill at h2
        cases hf : z.fill with
        | none => rw [hf] at h2; cases h2
        | some f =>
          rw [hf] at h2
          simp only [List.all_eq_true] at h2
          have := h2 _ hm
          rw [hcur] at this
          cases hcu : cur with
          | none => rw [hcu] at this; cases this
          | some x =>
            rw [hcu] at this
            exact ⟨x, f, rfl, rfl, this, rfl⟩
      · cases hc
  · rw [if_neg hany]
    left
    have : ¬ inRegion r idx = true := by
      intro hr
      apply hany
      rw [List.any_eq_true]
      exact ⟨_, hm, by rw [hg]; exact hr⟩
    simp only [cur, if_neg this]
    rfl

theorem write_fields (eqv : V → V → Bool) (we : Bool) (z : ZArray V) (r : List (Nat × Nat))
    (vals : List Nat → Option V) :
    (z.write eqv we r vals).shape = z.shape ∧ (z.write eqv we r vals).chunk = z.chunk ∧
    (z.write eqv we r vals).fill = z.fill := ⟨rfl, rfl, rfl⟩

/-- `y` may be read where `x` was written. -/
def ReadAs (eqv : V → V → Bool) (fill : Option V) (x y : V) : Prop :=
  y = x ∨ fill = some y ∧ eqv x y = true

theorem writes_read (eqv : V → V → Bool) (rs : List (List (Nat × Nat))) (z : ZArray V)
    (a : List Nat → Option V) (idx : List Nat) (x : V) (hx : a idx = some x)
    (hl : idx.length = z.chunk.length) (hp : ∀ c ∈ z.chunk, 0 < c)
    (h : (∃ r ∈ rs, inRegion r idx = true) ∨ ∃ y, z.read idx = some y ∧ ReadAs eqv z.fill x y) :
    ∃ y, (rs.foldl (fun z r => z.write eqv false r a) z).read idx = some y ∧
      ReadAs eqv z.fill x y := by
  induction rs generalizing z with
  | nil =>
    rcases h with ⟨r, hr, _⟩ | h
    · simp at hr
    · exact h
  | cons r t ih =>
    simp only [List.foldl_cons]
    refine ih (z.write eqv false r a) hl hp ?_
    have hrw := read_write eqv false z r a idx hl hp
    simp only at hrw
    by_cases hr : inRegion r idx = true
    · right
      rw [if_pos hr, hx] at hrw
      rcases hrw with h1 | ⟨_, x', f, h1, h2, h3, h4⟩
      · exact ⟨x, h1, Or.inl rfl⟩
      · cases h1
        exact ⟨f, h4, Or.inr ⟨h2, h3⟩⟩
    · rw [if_neg hr] at hrw
      rcases h with ⟨q, hq, hqi⟩ | ⟨y, hy, hya⟩
      · left
        rcases List.mem_cons.1 hq with rfl | hq2
        · exact absurd hqi hr
        · exact ⟨q, hq2, hqi⟩
      · right
        rw [hy] at hrw
        rcases hrw with h1 | ⟨_, x', f, h1, h2, h3, h4⟩
        · exact ⟨y, h1, hya⟩
        · cases h1
          refine ⟨f, h4, ?_⟩
          rcases hya with rfl | ⟨g1, g2⟩
          · exact Or.inr ⟨h2, h3⟩
          · rw [h2] at g1
            cases g1
            exact Or.inr ⟨h2, g2⟩

theorem writes_fields (eqv : V → V → Bool) (rs : List (List (Nat × Nat))) (z : ZArray V)
    (a : List Nat → Option V) :
    (rs.foldl (fun z r => z.write eqv false r a) z).shape = z.shape ∧
    (rs.foldl (fun z r => z.write eqv false r a) z).chunk = z.chunk ∧
    (rs.foldl (fun z r => z.write eqv false r a) z).fill = z.fill := by
  induction rs generalizing z with
  | nil => exact ⟨rfl, rfl, rfl⟩
  | cons r t ih => exact ih (z.write eqv false r a)

theorem inRegion_full (shape idx : List Nat) :
    inRegion (shape.map fun n => (0, n)) idx = true ↔ Inside shape idx := by
  induction shape generalizing idx with
  | nil => cases idx <;> simp [inRegion, Inside]
  | cons n shape ih =>
    cases idx with
    | nil => simp [inRegion, Inside]
    | cons x t => rw [inside_cons]; simp [inRegion, ih]

theorem blockOf_some (bs : List Nat) (s i : Nat) (h : i < bs.sum) :
    ∃ p k, blockOf s bs i = some (p, k) ∧ p + k = s + i := by
  induction bs generalizing s i with
  | nil => simp at h
  | cons b t ih =>
    simp only [blockOf]
    split
    · exact ⟨s, i, rfl, rfl⟩
    · simp only [List.sum_cons] at h
      obtain ⟨p, k, h1, h2⟩ := ih (s + b) (i - b) (by omega)
      exact ⟨p, k, h1, by omega⟩

theorem blockOf_none (bs : List Nat) (s i : Nat) (h : bs.sum ≤ i) : blockOf s bs i = none := by
  induction bs generalizing s i with
  | nil => rfl
  | cons b t ih =>
    simp only [List.sum_cons] at h
    simp only [blockOf]
    rw [if_neg (by omega)]
    exact ih _ _ (by omega)

theorem viaBlocks_spec (shape : List Nat) (bs : List (List Nat)) (h : BlocksOk shape bs)
    (idx : List Nat) :
    viaBlocks bs idx = if inBounds idx shape then some idx else none := by
  induction shape generalizing bs idx with
  | nil =>
    cases bs with
    | cons _ _ => exact h.elim
    | nil => cases idx <;> rfl
  | cons n shape ih =>
    cases bs with
    | nil => exact h.elim
    | cons b bs =>
      cases idx with
      | nil => rfl
      | cons i idx =>
        simp only [viaBlocks, ih bs h.2 idx, inBounds]
        by_cases hi : i < n
        · obtain ⟨p, k, h1, h2⟩ := blockOf_some b 0 i (by rw [h.1.1]; exact hi)
          rw [h1]
          by_cases hb : inBounds idx shape = true
          · simp only [hb, if_true, hi, decide_true, Bool.and_self]
            congr 2
            omega
          · simp [hb, hi]
        · rw [blockOf_none b 0 i (by rw [h.1.1]; omega)]
          simp [hi]

theorem arrOk_none {a : Arr V} (h : ArrOk a) {idx : List Nat} (hi : inBounds idx a.shape = false) :
    a.get idx = none := by
  cases hx : a.get idx with
  | none => rfl
  | some x =>
    have := (h idx).1 ⟨x, hx⟩
    rw [← inBounds_iff, hi] at this
    cases this

end Verif
