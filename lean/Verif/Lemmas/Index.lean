import Verif.Spec.Index
import Verif.Lemmas.Sort
import Verif.Lemmas.OverlapLoad

/-! Lemmas about the slices of a query. -/

namespace Verif

open Spec Ix Np
open Ds (mapPy)

/-! ### `numpy.where`, `numpy.unique` and pairs -/

theorem mem_whereFrom (k : Nat) (m : List Bool) (i : Nat) :
    i ∈ whereFrom k m ↔ ∃ j, i = k + j ∧ m[j]? = some true := by
  induction m generalizing k with
  | nil => simp [whereFrom]
  | cons b t ih =>
    have key : i ∈ whereFrom (k + 1) t ↔ ∃ j, i = k + (j + 1) ∧ (b :: t)[j + 1]? = some true := by
      rw [ih]
      constructor
      · rintro ⟨j, rfl, h⟩; exact ⟨j, by omega, by simpa using h⟩
      · rintro ⟨j, rfl, h⟩; exact ⟨j, by omega, by simpa using h⟩
    have hsplit : (∃ j, i = k + j ∧ (b :: t)[j]? = some true) ↔
        (i = k ∧ b = true) ∨ ∃ j, i = k + (j + 1) ∧ (b :: t)[j + 1]? = some true := by
      constructor
      · rintro ⟨j, h1, h2⟩
        cases j with
        | zero => exact .inl ⟨h1, by simpa using h2⟩
        | succ j => exact .inr ⟨j, h1, h2⟩
      · rintro (⟨rfl, rfl⟩ | ⟨j, h1, h2⟩)
        · exact ⟨0, rfl, rfl⟩
        · exact ⟨j + 1, h1, h2⟩
    rw [hsplit, ← key]
    cases b with
    | true => simp [whereFrom]
    | false => simp [whereFrom]

theorem mem_where (m : List Bool) (i : Nat) : i ∈ Np.where m ↔ m[i]? = some true := by
  unfold Np.where
  rw [mem_whereFrom]
  constructor
  · rintro ⟨j, rfl, h⟩; simpa using h
  · intro h; exact ⟨i, by omega, h⟩

theorem eraseDups_sub {α : Type} [DecidableEq α] (l : List α) : l.eraseDups.Sublist l := by
  induction h : l.length using Nat.strongRecOn generalizing l with
  | _ n ih =>
    cases l with
    | nil => simp
    | cons x t =>
      rw [List.eraseDups_cons]
      refine List.Sublist.cons_cons _ ((ih _ ?_ _ rfl).trans List.filter_sublist)
      have := List.length_filter_le (fun b => !b == x) t
      simp only [List.length_cons] at h
      omega

theorem eraseDups_nodup' {α : Type} [DecidableEq α] (l : List α) : l.eraseDups.Nodup := by
  induction h : l.length using Nat.strongRecOn generalizing l with
  | _ n ih =>
    cases l with
    | nil => simp
    | cons x t =>
      rw [List.eraseDups_cons, List.nodup_cons]
      refine ⟨by simp [List.mem_eraseDups], ih _ ?_ _ rfl⟩
      have := List.length_filter_le (fun b => !b == x) t
      simp only [List.length_cons] at h
      omega

/-- `numpy.unique` -/
theorem unique_sorted (l : List Nat) :
    ((Sort.isort (fun a b : Nat => decide (a ≤ b)) l).eraseDups).Pairwise (· < ·) := by
  have h1 : (Sort.isort (fun a b : Nat => decide (a ≤ b)) l).Pairwise fun a b =>
      decide (a ≤ b) = true :=
    Sort.isort_pairwise (by simp; omega) (by simp; omega) l
  have h2 := h1.sublist (eraseDups_sub _)
  have h3 := eraseDups_nodup' (Sort.isort (fun a b : Nat => decide (a ≤ b)) l)
  refine List.Pairwise.imp ?_ (h2.and h3)
  rintro a b ⟨h4, h5⟩
  simp only [decide_eq_true_eq] at h4
  omega

theorem mem_pairs_cons {α : Type} (x y : α) (t : List α) :
    pairs (x :: y :: t) = (x, y) :: pairs (y :: t) := rfl

theorem pairs_adjacent (l : List Nat) (hs : l.Pairwise (· < ·)) (a b : Nat)
    (h : (a, b) ∈ pairs l) : a ∈ l ∧ b ∈ l ∧ a < b ∧ ∀ c ∈ l, c ≤ a ∨ b ≤ c := by
  induction l with
  | nil => simp [pairs] at h
  | cons x t ih =>
    cases t with
    | nil => simp [pairs] at h
    | cons y s =>
      rw [mem_pairs_cons] at h
      rw [List.pairwise_cons] at hs
      rcases List.mem_cons.1 h with h | h
      · cases h
        refine ⟨by simp, by simp, hs.1 _ (by simp), ?_⟩
        intro c hc
        rcases List.mem_cons.1 hc with rfl | hc
        · exact .inl (Nat.le_refl _)
        · rcases List.mem_cons.1 hc with rfl | hc
          · exact .inr (Nat.le_refl _)
          · have := (List.pairwise_cons.1 hs.2).1 c hc
            exact .inr (by omega)
      · obtain ⟨h1, h2, h3, h4⟩ := ih hs.2 h
        refine ⟨by simp [h1], by simp [h2], h3, ?_⟩
        intro c hc
        rcases List.mem_cons.1 hc with rfl | hc
        · have := hs.1 a h1
          exact .inl (by omega)
        · exact h4 c hc

theorem pairs_cover (l : List Nat) (x : Nat) (y i : Nat) (hs : (x :: l).Pairwise (· < ·))
    (hx : x ≤ i) (hy : y ∈ l) (hi : i < y) : ∃ a b, (a, b) ∈ pairs (x :: l) ∧ a ≤ i ∧ i < b := by
  induction l generalizing x with
  | nil => cases hy
  | cons z t ih =>
    rw [mem_pairs_cons]
    by_cases h : i < z
    · exact ⟨x, z, by simp, hx, h⟩
    · rw [List.pairwise_cons] at hs
      have hyt : y ∈ t := by
        rcases List.mem_cons.1 hy with rfl | hy
        · exact absurd hi h
        · exact hy
      obtain ⟨a, b, h1, h2, h3⟩ := ih z hs.2 (by omega) hyt
      exact ⟨a, b, by simp [h1], h2, h3⟩

theorem pairs_pairwise (l : List Nat) (hs : l.Pairwise (· < ·)) :
    (pairs l).Pairwise fun x y => x.2 ≤ y.1 := by
  induction l with
  | nil => simp [pairs]
  | cons x t ih =>
    cases t with
    | nil => simp [pairs]
    | cons y s =>
      rw [mem_pairs_cons, List.pairwise_cons]
      rw [List.pairwise_cons] at hs
      refine ⟨?_, ih hs.2⟩
      rintro ⟨a, b⟩ hab
      obtain ⟨h1, _⟩ := pairs_adjacent _ hs.2 a b hab
      rcases List.mem_cons.1 h1 with rfl | h1
      · exact Nat.le_refl _
      · have := (List.pairwise_cons.1 hs.2).1 a h1
        show y ≤ a
        omega

/-! ### The slices -/

variable {L : Type} [DecidableEq L]

omit [DecidableEq L] in
theorem mem_gaps (rows : List (L × Int × Int)) (i : Nat) :
    i ∈ gaps rows ↔ ∃ k x y, i = k + 1 ∧ rows[k]? = some x ∧ rows[k + 1]? = some y ∧
      x.2.2 < y.2.1 := by
  unfold gaps pairs
  simp only [List.mem_map, mem_where, List.getElem?_map, Option.map_eq_some_iff]
  constructor
  · rintro ⟨k, ⟨⟨x, y⟩, h1, h2⟩, rfl⟩
    rw [List.getElem?_zip_eq_some] at h1
    simp only [List.getElem?_tail, decide_eq_true_eq] at h1 h2
    exact ⟨k, x, y, rfl, h1.1, h1.2, by omega⟩
  · rintro ⟨k, x, y, rfl, h1, h2, h3⟩
    refine ⟨k, ⟨(x, y), ?_, ?_⟩, rfl⟩
    · rw [List.getElem?_zip_eq_some]
      simp only [List.getElem?_tail]
      exact ⟨h1, h2⟩
    · simp only [decide_eq_true_eq]
      omega

theorem mem_changes (rows : List (L × Int × Int)) (k : Nat) (x y : L × Int × Int)
    (hx : rows[k]? = some x) (hy : rows[k + 1]? = some y) :
    k + 1 ∈ changes rows ↔ x.1 ≠ y.1 := by
  unfold changes
  cases hl : rows.getLast? with
  | none =>
    rw [List.getLast?_eq_none_iff] at hl
    rw [hl] at hx
    cases hx
  | some last =>
    simp only [mem_where, List.getElem?_map, Option.map_eq_some_iff]
    have hk : k + 1 < rows.length := (List.getElem?_eq_some_iff.1 hy).1
    have hz : ((last :: rows.dropLast).zip rows)[k + 1]? = some (x, y) := by
      rw [List.getElem?_zip_eq_some]
      refine ⟨?_, hy⟩
      rw [List.getElem?_cons_succ, List.getElem?_dropLast, if_pos (by omega)]
      exact hx
    rw [hz]
    simp

theorem changes_lt (rows : List (L × Int × Int)) (i : Nat) (h : i ∈ changes rows) :
    i < rows.length := by
  unfold changes at h
  split at h
  · cases h
  · rw [mem_where] at h
    have := (List.getElem?_eq_some_iff.1 h).1
    simp only [List.length_map, List.length_zip] at this
    omega

theorem mem_chunks (rows : List (L × Int × Int)) (i : Nat) :
    i ∈ chunks rows ↔ i = 0 ∨ i ∈ gaps rows ∨ i = rows.length ∨ i ∈ changes rows := by
  unfold chunks
  rw [List.mem_eraseDups, (Sort.isort_perm _).mem_iff]
  simp only [List.mem_append, List.mem_singleton]
  constructor
  · rintro (((h | h) | h) | h)
    · exact .inl h
    · exact .inr (.inl h)
    · exact .inr (.inr (.inl h))
    · exact .inr (.inr (.inr h))
  · rintro (h | h | h | h)
    · exact .inl (.inl (.inl h))
    · exact .inl (.inl (.inr h))
    · exact .inl (.inr h)
    · exact .inr h

theorem chunks_le (rows : List (L × Int × Int)) (i : Nat) (h : i ∈ chunks rows) :
    i ≤ rows.length := by
  rcases (mem_chunks rows i).1 h with rfl | h | rfl | h
  · omega
  · obtain ⟨k, x, y, rfl, _, hy, _⟩ := (mem_gaps rows i).1 h
    have := (List.getElem?_eq_some_iff.1 hy).1
    omega
  · omega
  · have := changes_lt rows i h
    omega

/-- Between two beginnings of slices, the rows have the same label and no gap. -/
theorem chunk_inside (rows : List (L × Int × Int)) (a b : Nat) (h : (a, b) ∈ pairs (chunks rows))
    (i : Nat) (hi : a ≤ i) (hb : i + 1 < b) (x y : L × Int × Int) (hx : rows[i]? = some x)
    (hy : rows[i + 1]? = some y) : x.1 = y.1 ∧ y.2.1 ≤ x.2.2 := by
  obtain ⟨_, _, _, h4⟩ := pairs_adjacent _ (unique_sorted _) a b h
  constructor
  · apply Classical.byContradiction
    intro hc
    have := h4 (i + 1) ((mem_chunks rows _).2 (.inr (.inr (.inr ((mem_changes rows i x y hx hy).2 hc)))))
    omega
  · apply Classical.byContradiction
    intro hc
    have := h4 (i + 1) ((mem_chunks rows _).2 (.inr (.inl ((mem_gaps rows _).2
      ⟨i, x, y, rfl, hx, hy, by omega⟩))))
    omega

theorem chunk_label (rows : List (L × Int × Int)) (a b : Nat) (h : (a, b) ∈ pairs (chunks rows))
    (x : L × Int × Int) (hx : rows[a]? = some x) (d : Nat) (hb : a + d < b)
    (y : L × Int × Int) (hy : rows[a + d]? = some y) : y.1 = x.1 := by
  induction d generalizing y with
  | zero => rw [Nat.add_zero, hx] at hy; cases hy; rfl
  | succ d ih =>
    obtain ⟨z, hz⟩ : ∃ z, rows[a + d]? = some z := by
      have := (List.getElem?_eq_some_iff.1 hy).1
      exact ⟨_, List.getElem?_eq_getElem (by omega)⟩
    rw [← ih (by omega) z hz]
    exact ((chunk_inside rows a b h (a + d) (by omega) (by omega) z y hz hy).1).symm

/-- What `toIndexer` returns. -/
theorem toIndexer_ok (rows : List (L × Int × Int)) : ∃ out, toIndexer rows = .ok out ∧
    out.length = (pairs (chunks rows)).length ∧
    ∀ (k a b : Nat), (pairs (chunks rows))[k]? = some (a, b) → ∃ x y, rows[a]? = some x ∧
      rows[b - 1]? = some y ∧ out[k]? = some (x.1, (x.2.1, y.2.2)) := by
  have hone : ∀ p ∈ pairs (chunks rows), ∃ s, sliceOf rows p = .ok s := by
    rintro ⟨a, b⟩ h
    obtain ⟨h1, h2, h3, _⟩ := pairs_adjacent _ (unique_sorted _) a b h
    have := chunks_le rows b h2
    simp only [sliceOf, List.getElem?_eq_getElem (show a < rows.length by omega),
      List.getElem?_eq_getElem (show b - 1 < rows.length by omega)]
    exact ⟨_, rfl⟩
  obtain ⟨out, hout⟩ := mapPy_exists _ _ hone
  obtain ⟨h1, h2⟩ := mapPy_spec _ _ _ hout
  refine ⟨out, hout, h1, ?_⟩
  intro k a b hk
  obtain ⟨s, hs, he⟩ := h2 k _ hk
  obtain ⟨g1, g2, g3, _⟩ := pairs_adjacent _ (unique_sorted _) a b (List.mem_of_getElem? hk)
  have := chunks_le rows b g2
  obtain ⟨x, hx⟩ : ∃ x, rows[a]? = some x := ⟨_, List.getElem?_eq_getElem (show a < rows.length by omega)⟩
  obtain ⟨y, hy⟩ : ∃ y, rows[b - 1]? = some y := ⟨_, List.getElem?_eq_getElem (show b - 1 < rows.length by omega)⟩
  simp only [sliceOf, hx, hy] at he
  cases he
  exact ⟨x, y, hx, hy, hs⟩

omit [DecidableEq L] in
/-- A record between the beginning of the first row and the end of the last one is in one of
them. -/
theorem between (rows : List (L × Int × Int)) (d a : Nat) (x y : L × Int × Int)
    (hx : rows[a]? = some x) (hy : rows[a + d]? = some y)
    (h : ∀ i, a ≤ i → i < a + d → ∀ u v, rows[i]? = some u → rows[i + 1]? = some v → v.2.1 ≤ u.2.2)
    (j : Int) (h1 : x.2.1 ≤ j) (h2 : j < y.2.2) :
    ∃ i z, a ≤ i ∧ i ≤ a + d ∧ rows[i]? = some z ∧ z.2.1 ≤ j ∧ j < z.2.2 := by
  induction d generalizing a x with
  | zero =>
    rw [Nat.add_zero, hx] at hy
    cases hy
    exact ⟨a, _, by omega, by omega, hx, h1, h2⟩
  | succ d ih =>
    obtain ⟨v, hv⟩ : ∃ v, rows[a + 1]? = some v := by
      have := (List.getElem?_eq_some_iff.1 hy).1
      exact ⟨_, List.getElem?_eq_getElem (by omega)⟩
    by_cases hj : v.2.1 ≤ j
    · obtain ⟨i, z, g1, g2, g3⟩ := ih (a + 1) v hv (by rw [← hy]; congr 1; omega)
        (fun i hi hi' => h i (by omega) (by omega)) hj
      exact ⟨i, z, by omega, by omega, g3⟩
    · have := h a (by omega) (by omega) x v hx hv
      exact ⟨a, x, by omega, by omega, hx, h1, by omega⟩

/-- The slices have only records of the rows. -/
theorem toIndexer_sound (rows : List (L × Int × Int)) (out : List (L × (Int × Int)))
    (h : toIndexer rows = .ok out) (lab : L) (j : Int) (hs : Selected out lab j) :
    InRows rows lab j := by
  obtain ⟨out', h1, h2, h3⟩ := toIndexer_ok rows
  rw [h] at h1
  cases h1
  obtain ⟨s, hm, hj1, hj2⟩ := hs
  obtain ⟨k, hk⟩ := List.getElem?_of_mem hm
  obtain ⟨⟨a, b⟩, hab⟩ : ∃ p, (pairs (chunks rows))[k]? = some p :=
    ⟨_, List.getElem?_eq_getElem (by rw [← h2]; exact (List.getElem?_eq_some_iff.1 hk).1)⟩
  obtain ⟨x, y, hx, hy, ho⟩ := h3 k a b hab
  rw [hk] at ho
  simp only [Option.some.injEq, Prod.mk.injEq] at ho
  obtain ⟨rfl, rfl⟩ := ho
  have hmem := List.mem_of_getElem? hab
  obtain ⟨_, _, hlt, _⟩ := pairs_adjacent _ (unique_sorted _) a b hmem
  obtain ⟨i, z, g1, g2, g3, g4, g5⟩ := between rows (b - 1 - a) a x y hx
    (by rw [← hy]; congr 1; omega)
    (fun i hi hi' u v hu hv =>
      (chunk_inside rows a b hmem i hi (by omega) u v hu hv).2) j hj1 hj2
  have hlab := chunk_label rows a b hmem x hx (i - a) (by omega) z (by rw [← g3]; congr 1; omega)
  refine ⟨z.2.1, z.2.2, ?_, g4, g5⟩
  rw [← hlab]
  exact List.mem_of_getElem? g3

/-- The slices have all the records of the rows, when the rows of a label are sorted by their
beginning and by their end. -/
theorem toIndexer_complete (rows : List (L × Int × Int)) (out : List (L × (Int × Int)))
    (h : toIndexer rows = .ok out)
    (hs : rows.Pairwise fun x y => x.1 = y.1 → x.2.1 ≤ y.2.1 ∧ x.2.2 ≤ y.2.2)
    (lab : L) (j : Int) (hr : InRows rows lab j) : Selected out lab j := by
  obtain ⟨out', h1, h2, h3⟩ := toIndexer_ok rows
  rw [h] at h1
  cases h1
  obtain ⟨p, q, hm, hj1, hj2⟩ := hr
  obtain ⟨i, hi⟩ := List.getElem?_of_mem hm
  have hil : i < rows.length := (List.getElem?_eq_some_iff.1 hi).1
  obtain ⟨t, ht⟩ : ∃ t, chunks rows = 0 :: t := by
    have h0 : 0 ∈ chunks rows := (mem_chunks rows 0).2 (.inl rfl)
    have hsort := unique_sorted ([0] ++ gaps rows ++ [rows.length] ++ changes rows)
    have : chunks rows = (Sort.isort (fun a b : Nat => decide (a ≤ b))
      ([0] ++ gaps rows ++ [rows.length] ++ changes rows)).eraseDups := rfl
    rw [← this] at hsort
    cases hc : chunks rows with
    | nil => rw [hc] at h0; cases h0
    | cons c t =>
      rw [hc] at h0 hsort
      rcases List.mem_cons.1 h0 with h0 | h0
      · exact ⟨t, by rw [h0]⟩
      · have := (List.pairwise_cons.1 hsort).1 0 h0
        omega
  have hnt : rows.length ∈ t := by
    have := (mem_chunks rows rows.length).2 (.inr (.inr (.inl rfl)))
    rw [ht] at this
    rcases List.mem_cons.1 this with h0 | h0
    · omega
    · exact h0
  obtain ⟨a, b, hab, hai, hib⟩ := pairs_cover t 0 rows.length i (by
    have := unique_sorted ([0] ++ gaps rows ++ [rows.length] ++ changes rows)
    rw [← ht]
    exact this) (Nat.zero_le _) hnt hil
  rw [← ht] at hab
  obtain ⟨k, hk⟩ := List.getElem?_of_mem hab
  obtain ⟨x, y, hx, hy, ho⟩ := h3 k a b hk
  have hlx : lab = x.1 := chunk_label rows a b hab x hx (i - a) (by omega) (lab, p, q) (by
    rw [← hi]; congr 1; omega)
  have hly : y.1 = x.1 := chunk_label rows a b hab x hx (b - 1 - a) (by omega) y (by
    rw [← hy]; congr 1; omega)
  have hpw : ∀ (i1 i2 : Nat) u v, rows[i1]? = some u → rows[i2]? = some v → i1 < i2 → u.1 = v.1 →
      u.2.1 ≤ v.2.1 ∧ u.2.2 ≤ v.2.2 := by
    intro i1 i2 u v hu hv hlt
    obtain ⟨l1, e1⟩ := List.getElem?_eq_some_iff.1 hu
    obtain ⟨l2, e2⟩ := List.getElem?_eq_some_iff.1 hv
    have := List.pairwise_iff_getElem.1 hs i1 i2 l1 l2 hlt
    rwa [e1, e2] at this
  refine ⟨(x.2.1, y.2.2), ?_, ?_, ?_⟩
  · rw [hlx]
    exact List.mem_of_getElem? ho
  · show x.2.1 ≤ j
    rcases Nat.lt_or_ge a i with hlt | hge
    · have := (hpw a i x (lab, p, q) hx hi hlt hlx.symm).1
      simp only at this
      omega
    · have : a = i := by omega
      subst this
      rw [hx] at hi
      cases hi
      exact hj1
  · show j < y.2.2
    rcases Nat.lt_or_ge i (b - 1) with hlt | hge
    · have := (hpw i (b - 1) (lab, p, q) y hi hy hlt (hlx.trans hly.symm)).2
      simp only at this
      omega
    · have : b - 1 = i := by omega
      rw [this, hi] at hy
      cases hy
      exact hj2

/-- The slices of a label are in order and separated, when the rows of a label follow each other,
sorted by their beginning. -/
theorem toIndexer_separated (rows : List (L × Int × Int)) (out : List (L × (Int × Int)))
    (h : toIndexer rows = .ok out)
    (hs : rows.Pairwise fun x y => x.1 = y.1 → x.2.1 ≤ y.2.1)
    (hc : ∀ (i j k : Nat) x y z, rows[i]? = some x → rows[j]? = some y → rows[k]? = some z →
      i ≤ j → j ≤ k → x.1 = z.1 → y.1 = x.1) :
    out.Pairwise fun s s' => s.1 = s'.1 → s.2.2 < s'.2.1 := by
  obtain ⟨out', h1, h2, h3⟩ := toIndexer_ok rows
  rw [h] at h1
  cases h1
  rw [List.pairwise_iff_getElem]
  intro k k' hk hk' hlt hlab
  obtain ⟨⟨a, b⟩, hab⟩ : ∃ p, (pairs (chunks rows))[k]? = some p :=
    ⟨_, List.getElem?_eq_getElem (by rw [← h2]; exact hk)⟩
  obtain ⟨⟨a', b'⟩, hab'⟩ : ∃ p, (pairs (chunks rows))[k']? = some p :=
    ⟨_, List.getElem?_eq_getElem (by rw [← h2]; exact hk')⟩
  obtain ⟨x, y, hx, hy, ho⟩ := h3 k a b hab
  obtain ⟨x', y', hx', hy', ho'⟩ := h3 k' a' b' hab'
  rw [List.getElem?_eq_getElem hk, Option.some.injEq] at ho
  rw [List.getElem?_eq_getElem hk', Option.some.injEq] at ho'
  rw [ho, ho'] at hlab ⊢
  simp only at hlab ⊢
  have hmem := List.mem_of_getElem? hab
  obtain ⟨_, hbm, hablt, _⟩ := pairs_adjacent _ (unique_sorted _) a b hmem
  have hba : b ≤ a' := by
    have := List.pairwise_iff_getElem.1 (pairs_pairwise _ (unique_sorted
      ([0] ++ gaps rows ++ [rows.length] ++ changes rows))) k k'
      (h2 ▸ hk : k < (pairs (chunks rows)).length)
      (h2 ▸ hk' : k' < (pairs (chunks rows)).length) hlt
    obtain ⟨l1, e1⟩ := List.getElem?_eq_some_iff.1 hab
    obtain ⟨l2, e2⟩ := List.getElem?_eq_some_iff.1 hab'
    have e1' : (pairs (Sort.isort (fun a b : Nat => decide (a ≤ b))
      ([0] ++ gaps rows ++ [rows.length] ++ changes rows)).eraseDups)[k] = (a, b) := e1
    have e2' : (pairs (Sort.isort (fun a b : Nat => decide (a ≤ b))
      ([0] ++ gaps rows ++ [rows.length] ++ changes rows)).eraseDups)[k'] = (a', b') := e2
    rw [e1', e2'] at this
    exact this
  have ha'l : a' < rows.length := (List.getElem?_eq_some_iff.1 hx').1
  obtain ⟨u, hu⟩ : ∃ u, rows[b]? = some u := ⟨_, List.getElem?_eq_getElem (by omega)⟩
  have hyx : y.1 = x.1 := chunk_label rows a b hmem x hx (b - 1 - a) (by omega) y (by
    rw [← hy]; congr 1; omega)
  have hux : u.1 = x.1 := hc a b a' x u x' hx hu hx' (by omega) hba hlab
  -- the slice begins with a gap
  have hgap : y.2.2 < u.2.1 := by
    have hu' : rows[b - 1 + 1]? = some u := by rw [← hu]; congr 1; omega
    rcases (mem_chunks rows b).1 hbm with h0 | h0 | h0 | h0
    · omega
    · obtain ⟨m, p, q, e, hp, hq, hlt'⟩ := (mem_gaps rows b).1 h0
      have : m = b - 1 := by omega
      subst this
      rw [hy] at hp
      rw [hu'] at hq
      cases hp
      cases hq
      exact hlt'
    · omega
    · have : b = b - 1 + 1 := by omega
      rw [this] at h0
      exact absurd (hyx.trans hux.symm) ((mem_changes rows (b - 1) y u hy hu').1 h0)
  rcases Nat.lt_or_ge b a' with hlt' | hge
  · obtain ⟨l1, e1⟩ := List.getElem?_eq_some_iff.1 hu
    obtain ⟨l2, e2⟩ := List.getElem?_eq_some_iff.1 hx'
    have := List.pairwise_iff_getElem.1 hs b a' l1 l2 hlt'
    rw [e1, e2] at this
    have := this (hux.trans hlab)
    omega
  · have : a' = b := by omega
    subst this
    rw [hu] at hx'
    cases hx'
    exact hgap

/-- The slices of rows that are not empty are not empty. -/
theorem toIndexer_nonempty (rows : List (L × Int × Int)) (out : List (L × (Int × Int)))
    (h : toIndexer rows = .ok out)
    (hs : rows.Pairwise fun x y => x.1 = y.1 → x.2.1 ≤ y.2.1)
    (hr : ∀ x ∈ rows, x.2.1 < x.2.2) : ∀ s ∈ out, s.2.1 < s.2.2 := by
  obtain ⟨out', h1, h2, h3⟩ := toIndexer_ok rows
  rw [h] at h1
  cases h1
  intro s hsm
  obtain ⟨k, hk⟩ := List.getElem?_of_mem hsm
  have hkl := (List.getElem?_eq_some_iff.1 hk).1
  obtain ⟨⟨a, b⟩, hab⟩ : ∃ p, (pairs (chunks rows))[k]? = some p :=
    ⟨_, List.getElem?_eq_getElem (by rw [← h2]; exact hkl)⟩
  obtain ⟨x, y, hx, hy, ho⟩ := h3 k a b hab
  rw [hk, Option.some.injEq] at ho
  subst ho
  have hmem := List.mem_of_getElem? hab
  obtain ⟨_, _, hablt, _⟩ := pairs_adjacent _ (unique_sorted _) a b hmem
  have hyx : y.1 = x.1 := chunk_label rows a b hmem x hx (b - 1 - a) (by omega) y (by
    rw [← hy]; congr 1; omega)
  have hy' := hr y (List.mem_of_getElem? hy)
  show x.2.1 < y.2.2
  rcases Nat.lt_or_ge a (b - 1) with hlt | hge
  · obtain ⟨l1, e1⟩ := List.getElem?_eq_some_iff.1 hx
    obtain ⟨l2, e2⟩ := List.getElem?_eq_some_iff.1 hy
    have := List.pairwise_iff_getElem.1 hs a (b - 1) l1 l2 hlt
    rw [e1, e2] at this
    have := this hyx.symm
    omega
  · have : b - 1 = a := by omega
    rw [this, hx] at hy
    cases hy
    exact hy'

end Verif
