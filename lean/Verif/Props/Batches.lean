import Verif.Lemmas.Batches

/-! C19: work is distributed exactly once. -/

namespace Verif

open Batches

variable {α : Type}

/-- C19: for a non-empty sequence, the blocks are consecutive, non-empty and together the
whole sequence; there are as many as requested (at most one per element) and their sizes
differ by at most one. -/
theorem C19_split_sequence (l : List α) (sections : Option Int) (hl : l ≠ [])
    (hs : ∀ n, sections = some n → 0 < n) :
    ∃ bs, splitSequence l sections = .ok bs ∧ bs.flatten = l ∧ (∀ b ∈ bs, b ≠ []) ∧
      (bs.length : Int) = (match sections with
        | none => (l.length : Int)
        | some n => min n l.length) ∧
      ∀ b ∈ bs, ∀ c ∈ bs, b.length ≤ c.length + 1 := by
  obtain ⟨m, hm, h0, hle, h⟩ := splitSequence_blocks l sections hl hs
  have hsum := sizes_sum l.length m h0
  have hq : 0 < l.length / m := Nat.div_pos hle h0
  have hmem : ∀ n ∈ List.replicate (l.length % m) (l.length / m + 1) ++
      List.replicate (m - l.length % m) (l.length / m),
      n = l.length / m + 1 ∨ n = l.length / m := by
    intro n hn
    rw [List.mem_append, List.mem_replicate, List.mem_replicate] at hn
    rcases hn with hn | hn
    · exact .inl hn.2
    · exact .inr hn.2
  refine ⟨_, h, blocks_flatten _ _ hsum, ?_, ?_, ?_⟩
  · intro b hb hnil
    have := hmem _ (blocks_length_mem _ _ hsum b hb)
    rw [hnil, List.length_nil] at this
    omega
  · rw [blocks_length, List.length_append, List.length_replicate, List.length_replicate]
    have := Nat.mod_lt l.length h0
    cases sections with
    | none => dsimp only at hm ⊢; omega
    | some n =>
      have := hs n rfl
      dsimp only at hm ⊢
      omega
  · intro b hb c hc
    have h1 := hmem _ (blocks_length_mem _ _ hsum b hb)
    have h2 := hmem _ (blocks_length_mem _ _ hsum c hc)
    omega

/-- C19: a number of sections that is not positive is refused. -/
theorem C19_bad_sections (l : List α) (n : Int) (h : n ≤ 0) :
    splitSequence l (some n) = .error .valueError := by
  simp [splitSequence, h]

/-- C19, full statement for the empty sequence: no block. -/
def C19_empty_full : Prop :=
  ∀ (n : Int), 0 < n → splitSequence ([] : List Nat) (some n) = .ok []

/-- C19 is violated for the empty sequence: it raises instead of giving no block. -/
theorem C19_empty_counterexample : ¬ C19_empty_full ∧
    splitSequence ([] : List Nat) none = .error .valueError := by
  refine ⟨fun h => ?_, by decide⟩
  have := h 1 (by decide)
  revert this
  decide

/-- C19: with `npartitions=n`, no batch of an insertion has more than `n` partitions, and
every partition is in exactly one batch. -/
theorem C19_insert_batches (l : List α) (n : Int) (hl : l ≠ []) (hn : 1 ≤ n) :
    ∃ bs, insertBatches l (some n) = .ok bs ∧ bs.flatten = l ∧ (∀ b ∈ bs, b ≠ []) ∧
      ∀ b ∈ bs, (b.length : Int) ≤ n := by
  have hnn : 0 ≤ (l.length : Int) / n := Int.ediv_nonneg (by omega) (by omega)
  have hs : ∀ k, some ((l.length : Int) / n + 1) = some k → 0 < k := by
    intro k hk
    rw [Option.some.injEq] at hk
    omega
  obtain ⟨bs, h1, h2, h3, _, _⟩ := C19_split_sequence l (some ((l.length : Int) / n + 1)) hl hs
  obtain ⟨m, hm, h0, hle, h⟩ := splitSequence_blocks l (some ((l.length : Int) / n + 1)) hl hs
  refine ⟨bs, ?_, h2, h3, ?_⟩
  · have : ¬ n < 1 := by omega
    simp only [insertBatches, this, if_false, h1]
  · rw [h1] at h
    cases h
    intro b hb
    have hmem := blocks_length_mem _ _ (sizes_sum l.length m h0) b hb
    rw [List.mem_append, List.mem_replicate, List.mem_replicate] at hmem
    dsimp only at hm
    have hlt := Nat.mod_lt l.length h0
    have hdm := Nat.div_add_mod l.length m
    obtain ⟨k, rfl⟩ : ∃ k : Nat, n = k := ⟨n.toNat, by omega⟩
    have hk0 : 0 < k := by omega
    have hm' : m = min (l.length / k + 1) l.length := by
      rw [hm]
      congr 1
    have hlen : l.length ≤ k * m := by
      rcases Nat.le_total (l.length / k + 1) l.length with hc | hc
      · rw [hm', Nat.min_eq_left hc]
        have a1 := Nat.div_add_mod l.length k
        have a2 := Nat.mod_lt l.length hk0
        rw [Nat.mul_add]
        omega
      · rw [hm', Nat.min_eq_right hc]
        exact Nat.le_mul_of_pos_left _ hk0
    have hdiv : l.length / m ≤ k := Nat.div_le_of_le_mul (by rw [Nat.mul_comm]; exact hlen)
    rcases hmem with hmem | hmem
    · have hne : l.length / m ≠ k := by
        intro he
        rw [he, Nat.mul_comm] at hdm
        omega
      omega
    · omega

/-- C19: a batch size below one is refused. -/
theorem C19_bad_npartitions (l : List α) (n : Int) (h : n < 1) :
    insertBatches l (some n) = .error .valueError := by
  simp [insertBatches, h]

example : splitSequence [1, 2, 3, 4, 5, 6, 7] (some 3) = .ok [[1, 2, 3], [4, 5], [6, 7]] := by
  decide

example : insertBatches [1, 2, 3, 4, 5, 6] (some 2) = .ok [[1, 2], [3, 4], [5], [6]] := by
  decide

end Verif
