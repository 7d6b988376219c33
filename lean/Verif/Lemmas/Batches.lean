import Verif.Model.Batches

/-! Lemmas on `split_sequence`. -/

namespace Verif.Batches

variable {α : Type}

/-- Cut a list in blocks of given sizes. -/
def blocks : List Nat → List α → List (List α)
  | [], _ => []
  | n :: t, l => l.take n :: blocks t (l.drop n)

theorem slices_accumulate (l : List α) (s : Nat) (sizes : List Nat) :
    slices l (s :: accumulate s sizes) = blocks sizes (l.drop s) := by
  induction sizes generalizing s with
  | nil => rfl
  | cons n t ih =>
    rw [accumulate, slices, blocks, ih, List.drop_drop, List.drop_take]
    congr 2
    omega

theorem blocks_flatten (sizes : List Nat) (l : List α) (h : sizes.sum = l.length) :
    (blocks sizes l).flatten = l := by
  induction sizes generalizing l with
  | nil =>
    cases l with
    | nil => rfl
    | cons _ _ => simp at h
  | cons n t ih =>
    rw [blocks, List.flatten_cons, ih, List.take_append_drop]
    rw [List.sum_cons] at h
    simp
    omega

theorem blocks_length_mem (sizes : List Nat) (l : List α) (h : sizes.sum = l.length) :
    ∀ b ∈ blocks sizes l, b.length ∈ sizes := by
  induction sizes generalizing l with
  | nil => simp [blocks]
  | cons n t ih =>
    intro b hb
    rw [List.sum_cons] at h
    rcases List.mem_cons.1 hb with rfl | hb
    · rw [List.length_take, Nat.min_eq_left (by omega)]
      exact List.mem_cons_self
    · exact List.mem_cons_of_mem _ (ih _ (by simp; omega) b hb)

theorem blocks_length (sizes : List Nat) (l : List α) : (blocks sizes l).length = sizes.length := by
  induction sizes generalizing l with
  | nil => rfl
  | cons n t ih => simp [blocks, ih]

/-- What `split_sequence` returns for `m` sections, with `1 ≤ m ≤ length`. -/
theorem splitSequence_blocks (l : List α) (sections : Option Int) (hl : l ≠ [])
    (hs : ∀ n, sections = some n → 0 < n) :
    ∃ m, m = (match sections with
        | none => l.length
        | some n => min n.toNat l.length) ∧ 0 < m ∧ m ≤ l.length ∧
      splitSequence l sections = .ok (blocks (List.replicate (l.length % m) (l.length / m + 1) ++
        List.replicate (m - l.length % m) (l.length / m)) l) := by
  have hpos : 0 < l.length := List.length_pos_iff.2 hl
  refine ⟨_, rfl, ?_⟩
  cases sections with
  | none =>
    refine ⟨hpos, Nat.le_refl _, ?_⟩
    have h1 : ¬ ((l.length : Int) ≤ 0) := by omega
    have h2 : min (l.length : Int).toNat l.length = l.length := by simp
    have h3 : l.length ≠ 0 := by omega
    simp only [splitSequence, Option.getD_none, h1, if_false, h2, h3]
    rw [List.append_assoc, List.singleton_append, accumulate, Nat.add_zero, slices_accumulate]
    rfl
  | some n =>
    have hn := hs n rfl
    refine ⟨by simp; omega, Nat.min_le_right _ _, ?_⟩
    have h1 : ¬ (n ≤ 0) := by omega
    have h3 : min n.toNat l.length ≠ 0 := by omega
    simp only [splitSequence, Option.getD_some, h1, if_false, h3]
    rw [List.append_assoc, List.singleton_append, accumulate, Nat.add_zero, slices_accumulate]
    rfl

theorem sizes_sum (len m : Nat) (h : 0 < m) :
    (List.replicate (len % m) (len / m + 1) ++ List.replicate (m - len % m) (len / m)).sum = len := by
  rw [List.sum_append, List.sum_replicate_nat, List.sum_replicate_nat]
  have h1 := Nat.mod_lt len h
  have h2 := Nat.div_add_mod len m
  generalize len % m = r at *
  generalize len / m = q at *
  obtain ⟨d, rfl⟩ : ∃ d, m = r + d := ⟨m - r, by omega⟩
  rw [Nat.add_sub_cancel_left, Nat.mul_add, ← h2, Nat.add_mul]
  omega

end Verif.Batches
