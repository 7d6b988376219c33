import Verif.Model.Split
import Verif.Spec.Split
import Verif.Lemmas.Cuts
import Verif.Lemmas.Sort

/-! Lemmas on the splitting of a dataset. -/

namespace Verif.Split

open Spec

variable {κ : Type} [DecidableEq κ]

/-- A total order given by a Boolean function. -/
structure LinOrd (le : κ → κ → Bool) : Prop where
  total : ∀ a b, (le a b || le b a) = true
  trans : ∀ a b c, le a b = true → le b c = true → le a c = true
  antisymm : ∀ a b, le a b = true → le b a = true → a = b

omit [DecidableEq κ] in
theorem LinOrd.refl {le : κ → κ → Bool} (h : LinOrd le) (a : κ) : le a a = true := by
  simpa using h.total a a

theorem linOrd_int : LinOrd (fun a b : Int => decide (a ≤ b)) where
  total a b := by simp only [Bool.or_eq_true, decide_eq_true_eq]; omega
  trans a b c := by simp only [decide_eq_true_eq]; omega
  antisymm a b := by simp only [decide_eq_true_eq]; omega

theorem linOrd_row : LinOrd (fun a b : List Int => decide (a ≤ b)) where
  total a b := by
    simp only [Bool.or_eq_true, decide_eq_true_eq]
    exact List.le_total a b
  trans a b c := by
    simp only [decide_eq_true_eq]
    exact List.le_trans
  antisymm a b := by
    simp only [decide_eq_true_eq]
    exact List.le_antisymm

/-! ### pairs and chains -/

theorem pairs_cons_cons {α : Type} (a b : α) (l : List α) :
    Np.pairs (a :: b :: l) = (a, b) :: Np.pairs (b :: l) := rfl

theorem increasing_iff (l : List Nat) : increasing l = true ↔ l.Pairwise (· < ·) := by
  induction l with
  | nil => simp [increasing, Np.pairs]
  | cons a l ih =>
    cases l with
    | nil => simp [increasing, Np.pairs]
    | cons b l =>
      have : increasing (a :: b :: l) = (decide (a < b) && increasing (b :: l)) := by
        simp [increasing, pairs_cons_cons]
      rw [this, Bool.and_eq_true, ih, decide_eq_true_eq, List.pairwise_cons (a := a)]
      constructor
      · rintro ⟨h, hp⟩
        refine ⟨?_, hp⟩
        intro x hx
        rcases List.mem_cons.1 hx with rfl | hx
        · exact h
        · have := (List.pairwise_cons.1 hp).1 x hx
          omega
      · rintro ⟨h, hp⟩
        exact ⟨h b (by simp), hp⟩

theorem chain_of_increasing (a n : Nat) (l : List Nat) (h : (a :: l).Pairwise (· < ·))
    (hn : ∀ i ∈ a :: l, i < n) : Chain a n (Np.pairs (a :: l ++ [n])) := by
  induction l generalizing a with
  | nil => simpa [Np.pairs, Chain] using hn a (by simp)
  | cons b l ih =>
    have hp := List.pairwise_cons.1 h
    simp only [List.cons_append, pairs_cons_cons, Chain, true_and]
    exact ⟨hp.1 b (by simp), ih b hp.2 fun i hi => hn i (by simp [hi])⟩

/-! ### changes -/

theorem keepNew_sublist (x : κ) (l : List (κ × Nat)) : (keepNew x l).Sublist l := by
  induction l generalizing x with
  | nil => simp [keepNew]
  | cons p t ih =>
    obtain ⟨y, i⟩ := p
    simp only [keepNew]
    split
    · exact (ih x).cons _
    · exact (ih y).cons_cons _

theorem changes_sublist (l : List (κ × Nat)) : (changes l).Sublist l := by
  cases l with
  | nil => simp [changes]
  | cons p t => obtain ⟨x, i⟩ := p; exact (keepNew_sublist x t).cons_cons _

theorem keepNew_sorted {le : κ → κ → Bool} (h : LinOrd le) (x : κ) (l : List (κ × Nat))
    (hx : ∀ p ∈ l, le x p.1 = true) (hl : l.Pairwise fun a b => le a.1 b.1 = true) :
    (∀ p ∈ keepNew x l, le x p.1 = true ∧ x ≠ p.1) ∧
      (keepNew x l).Pairwise fun a b => le a.1 b.1 = true ∧ a.1 ≠ b.1 := by
  induction l generalizing x with
  | nil => simp [keepNew]
  | cons p t ih =>
    obtain ⟨y, i⟩ := p
    have hp := List.pairwise_cons.1 hl
    have hxy := hx (y, i) (by simp)
    simp only [keepNew]
    split
    · next he =>
      subst he
      exact ih y hp.1 hp.2
    · next hne =>
      obtain ⟨h1, h2⟩ := ih y hp.1 hp.2
      refine ⟨?_, List.pairwise_cons.2 ⟨h1, h2⟩⟩
      intro q hq
      rcases List.mem_cons.1 hq with rfl | hq
      · exact ⟨hxy, fun e => hne e.symm⟩
      · obtain ⟨h3, h4⟩ := h1 q hq
        refine ⟨h.trans _ _ _ hxy h3, ?_⟩
        rintro rfl
        exact hne (h.antisymm _ _ h3 hxy)

theorem changes_sorted {le : κ → κ → Bool} (h : LinOrd le) (l : List (κ × Nat))
    (hl : l.Pairwise fun a b => le a.1 b.1 = true) :
    (changes l).Pairwise fun a b => le a.1 b.1 = true ∧ a.1 ≠ b.1 := by
  cases l with
  | nil => simp [changes]
  | cons p t =>
    obtain ⟨x, i⟩ := p
    have hp := List.pairwise_cons.1 hl
    obtain ⟨h1, h2⟩ := keepNew_sorted h x t hp.1 hp.2
    exact List.pairwise_cons.2 ⟨h1, h2⟩

theorem keepNew_mem (x y : κ) (i : Nat) (pre post : List (κ × Nat)) (hxy : y ≠ x)
    (h : ∀ p ∈ pre, p.1 ≠ y) : (y, i) ∈ keepNew x (pre ++ (y, i) :: post) := by
  induction pre generalizing x with
  | nil => simp [keepNew, hxy]
  | cons p t ih =>
    obtain ⟨z, j⟩ := p
    have hz : z ≠ y := h (z, j) (by simp)
    simp only [List.cons_append, keepNew]
    split
    · exact ih x hxy fun p hp => h p (by simp [hp])
    · exact List.mem_cons_of_mem _ (ih z (fun e => hz e.symm) fun p hp => h p (by simp [hp]))

theorem changes_mem (y : κ) (i : Nat) (pre post : List (κ × Nat)) (h : ∀ p ∈ pre, p.1 ≠ y) :
    (y, i) ∈ changes (pre ++ (y, i) :: post) := by
  cases pre with
  | nil => simp [changes]
  | cons p t =>
    obtain ⟨z, j⟩ := p
    simp only [List.cons_append, changes]
    exact List.mem_cons_of_mem _ (keepNew_mem z y i t post (fun e => h (z, j) (by simp) e.symm)
      fun p hp => h p (by simp [hp]))

/-- If the kept keys are sorted then so is the whole column. -/
theorem sorted_of_keepNew {le : κ → κ → Bool} (h : LinOrd le) (x : κ) (l : List (κ × Nat))
    (hs : (x :: (keepNew x l).map (·.1)).Pairwise fun a b => le a b = true) :
    (x :: l.map (·.1)).Pairwise fun a b => le a b = true := by
  induction l generalizing x with
  | nil => simp
  | cons p t ih =>
    obtain ⟨y, i⟩ := p
    simp only [keepNew] at hs
    split at hs
    · next he =>
      subst he
      have := ih y hs
      refine List.pairwise_cons.2 ⟨?_, this⟩
      intro z hz
      rcases List.mem_cons.1 hz with rfl | hz
      · exact h.refl _
      · exact (List.pairwise_cons.1 this).1 z hz
    · simp only [List.map_cons] at hs
      have h1 := List.pairwise_cons.1 hs
      have h2 := ih y h1.2
      refine List.pairwise_cons.2 ⟨?_, h2⟩
      intro z hz
      have hxy := h1.1 y (by simp)
      rcases List.mem_cons.1 hz with rfl | hz
      · exact hxy
      · exact h.trans _ _ _ hxy ((List.pairwise_cons.1 h2).1 z hz)

/-! ### the argsort -/

theorem leIdx_trans {le : κ → κ → Bool} (h : LinOrd le) (a b c : κ × Nat)
    (h1 : leIdx le a b = true) (h2 : leIdx le b c = true) : leIdx le a c = true := by
  simp only [leIdx, Bool.and_eq_true, Bool.or_eq_true, decide_eq_true_eq] at *
  refine ⟨h.trans _ _ _ h1.1 h2.1, ?_⟩
  by_cases hac : a.1 = c.1
  · right
    have hab : a.1 = b.1 := h.antisymm _ _ h1.1 (hac ▸ h2.1)
    have hbc : b.1 = c.1 := hab ▸ hac
    have h3 : a.2 ≤ b.2 := h1.2.resolve_left fun e => e hab
    have h4 : b.2 ≤ c.2 := h2.2.resolve_left fun e => e hbc
    omega
  · exact .inl hac

theorem leIdx_total {le : κ → κ → Bool} (h : LinOrd le) (a b : κ × Nat) :
    (leIdx le a b || leIdx le b a) = true := by
  simp only [leIdx, Bool.and_eq_true, Bool.or_eq_true, decide_eq_true_eq]
  by_cases hab : a.1 = b.1
  · rw [hab]
    have := h.refl b.1
    by_cases hle : a.2 ≤ b.2
    · exact .inl ⟨this, .inr hle⟩
    · exact .inr ⟨this, .inr (by omega)⟩
  · have := h.total a.1 b.1
    simp only [Bool.or_eq_true] at this
    rcases this with h1 | h1
    · exact .inl ⟨h1, .inl hab⟩
    · exact .inr ⟨h1, .inl fun e => hab e.symm⟩

theorem argsort_pairwise {le : κ → κ → Bool} (h : LinOrd le) (arr : List κ) :
    (argsort le arr).Pairwise fun a b => leIdx le a b = true :=
  Sort.isort_pairwise (leIdx_trans h) (leIdx_total h) _

theorem argsort_perm (le : κ → κ → Bool) (arr : List κ) : (argsort le arr).Perm arr.zipIdx :=
  Sort.isort_perm _

omit [DecidableEq κ] in
theorem zipIdx_pairwise_lt (l : List κ) (k : Nat) :
    (l.zipIdx k).Pairwise fun a b => a.2 < b.2 := by
  induction l generalizing k with
  | nil => simp
  | cons x l ih =>
    rw [List.zipIdx_cons]
    refine List.pairwise_cons.2 ⟨?_, ih (k + 1)⟩
    rintro ⟨y, j⟩ hy
    have := (List.mem_zipIdx hy).1
    show k < j
    omega

/-- On a sorted column the argsort is the identity. -/
theorem argsort_of_sorted {le : κ → κ → Bool} (arr : List κ)
    (hs : arr.Pairwise fun a b => le a b = true) : argsort le arr = arr.zipIdx := by
  apply Sort.isort_of_pairwise
  have h1 : arr.zipIdx.Pairwise fun a b => le a.1 b.1 = true := by
    have : (arr.zipIdx.map (·.1)).Pairwise fun a b => le a b = true := by
      rw [List.zipIdx_map_fst]; exact hs
    exact List.pairwise_map.1 this
  have h2 := zipIdx_pairwise_lt arr 0
  refine (h1.and h2).imp ?_
  rintro a b ⟨h3, h4⟩
  simp only [leIdx, h3, Bool.true_and, Bool.or_eq_true, decide_eq_true_eq]
  right; omega

/-- If the argsort is increasing the column is sorted. -/
theorem sorted_of_argsort {le : κ → κ → Bool} (h : LinOrd le) (arr : List κ)
    (hs : ((argsort le arr).map (·.2)).Pairwise (· < ·)) :
    arr.Pairwise fun a b => le a b = true := by
  have hperm := argsort_perm le arr
  have heq : argsort le arr = arr.zipIdx := by
    have h1 : (argsort le arr).Pairwise fun a b => a.2 < b.2 := List.pairwise_map.1 hs
    have h2 := zipIdx_pairwise_lt arr 0
    exact hperm.eq_of_pairwise (le := fun a b => a.2 < b.2)
      (fun a b _ _ h3 h4 => absurd h3 (by omega)) h1 h2
  have h3 := argsort_pairwise h arr
  rw [heq] at h3
  have h4 : arr.zipIdx.Pairwise fun a b => le a.1 b.1 = true := by
    refine h3.imp ?_
    intro a b hab
    simp only [leIdx, Bool.and_eq_true] at hab
    exact hab.1
  have : (arr.zipIdx.map (·.1)).Pairwise fun a b => le a b = true := List.pairwise_map.2 h4
  rwa [List.zipIdx_map_fst] at this

/-! ### the lazy split -/

/-- The slices of a column by runs of equal keys. -/
theorem runs_spec (R : List κ) (a k : Nat) (x : κ) (rows : List κ) (hak : a < k)
    (hR : R.drop k = rows) (hx : ∀ i, a ≤ i → i < k → R[i]? = some x) (hk : k ≤ R.length) :
    Chain a R.length (Np.pairs (a :: (keepNew x (rows.zipIdx k)).map (·.2) ++ [R.length])) ∧
    KeysCorrect R ((x :: (keepNew x (rows.zipIdx k)).map (·.1)).zip
      (Np.pairs (a :: (keepNew x (rows.zipIdx k)).map (·.2) ++ [R.length]))) := by
  induction rows generalizing a k x with
  | nil =>
    have hlen : R.length = k := by
      have := List.drop_eq_nil_iff.1 hR
      omega
    simp only [List.zipIdx_nil, keepNew, List.map_nil, List.cons_append, List.nil_append,
      Np.pairs, List.tail_cons, List.zip_cons_cons, List.zip_nil_right, Chain]
    refine ⟨⟨trivial, by omega, trivial⟩, ?_⟩
    intro p hp i h1 h2
    simp only [List.mem_singleton] at hp
    subst hp
    exact hx i h1 (by simp only at h2; omega)
  | cons y rows ih =>
    have hlt : k < R.length := by
      by_cases h : k < R.length
      · exact h
      · rw [List.drop_eq_nil_iff.2 (by omega)] at hR; simp at hR
    have hget : R[k]? = some y := by
      have := congrArg List.head? hR
      simpa [List.head?_drop] using this
    have hdrop : R.drop (k + 1) = rows := by
      rw [← List.drop_drop, hR]; rfl
    rw [List.zipIdx_cons]
    simp only [keepNew]
    split
    · next he =>
      subst he
      exact ih a (k + 1) y (by omega) hdrop (by
        intro i h1 h2
        by_cases h3 : i = k
        · subst h3; exact hget
        · exact hx i h1 (by omega)) (by omega)
    · obtain ⟨h1, h2⟩ := ih k (k + 1) y (by omega) hdrop (by
        intro i h1 h2
        have : i = k := by omega
        subst this; exact hget) (by omega)
      simp only [List.map_cons, List.cons_append, pairs_cons_cons, List.zip_cons_cons]
      refine ⟨⟨rfl, hak, h1⟩, ?_⟩
      intro p hp
      rcases List.mem_cons.1 hp with rfl | hp
      · intro i h3 h4
        exact hx i h3 h4
      · exact h2 p hp

/-- The lazy variant: slices cover the column and keys are correct. -/
theorem delayed_spec (arr : List κ) (h : arr ≠ []) :
    Chain 0 arr.length (Np.pairs ((changes arr.zipIdx).map (·.2) ++ [arr.length])) ∧
    KeysCorrect arr (slices ((changes arr.zipIdx).map (·.1), (changes arr.zipIdx).map (·.2))
      arr.length) := by
  cases arr with
  | nil => exact absurd rfl h
  | cons x rows =>
    have := runs_spec (x :: rows) 0 1 x rows (by omega) rfl (by
      intro i _ h2
      have : i = 0 := by omega
      subst this; rfl) (by simp)
    simpa [changes, slices, List.zipIdx_cons] using this

theorem keepNew_length_eq (arr : List κ) :
    ((changes arr.zipIdx).map (·.1)).length = ((changes arr.zipIdx).map (·.2)).length := by simp

/-! ### the eager split -/

/-- The eager variant, when it returns: the indices start with 0 and are increasing. -/
theorem eager_indices {le : κ → κ → Bool} (h : LinOrd le) (x : κ) (rows : List κ)
    (hinc : ((changes (argsort le (x :: rows))).map (·.2)).Pairwise (· < ·)) :
    ∃ l, (changes (argsort le (x :: rows))).map (·.2) = 0 :: l := by
  have hmem : (x, 0) ∈ argsort le (x :: rows) := by
    rw [(argsort_perm le (x :: rows)).mem_iff, List.zipIdx_cons]
    simp
  obtain ⟨pre, post, hsplit⟩ := List.append_of_mem hmem
  have hpw := argsort_pairwise h (x :: rows)
  have hnodup : (argsort le (x :: rows)).Pairwise fun a b => a.2 ≠ b.2 := by
    have h1 : (x :: rows).zipIdx.Pairwise fun a b => a.2 ≠ b.2 :=
      (zipIdx_pairwise_lt (x :: rows) 0).imp fun h => by omega
    exact ((argsort_perm le (x :: rows)).pairwise_iff fun {a b} hab => fun e => hab e.symm).2 h1
  rw [hsplit] at hpw hnodup
  have hpre : ∀ p ∈ pre, p.1 ≠ x := by
    intro p hp he
    have h1 := (List.pairwise_append.1 hpw).2.2 p hp (x, 0) (by simp)
    have h2 := (List.pairwise_append.1 hnodup).2.2 p hp (x, 0) (by simp)
    simp only [leIdx, Bool.and_eq_true, Bool.or_eq_true, decide_eq_true_eq] at h1
    have := h1.2.resolve_left fun e => e he
    simp only at h2 this
    omega
  have h0 : (0 : Nat) ∈ (changes (argsort le (x :: rows))).map (·.2) := by
    rw [hsplit]
    exact List.mem_map.2 ⟨(x, 0), changes_mem x 0 pre post hpre, rfl⟩
  generalize (changes (argsort le (x :: rows))).map (·.2) = idx at hinc h0
  cases idx with
  | nil => simp at h0
  | cons i idx =>
    rcases List.mem_cons.1 h0 with rfl | h0
    · exact ⟨idx, rfl⟩
    · have := (List.pairwise_cons.1 hinc).1 0 h0
      omega

theorem eager_chain {le : κ → κ → Bool} (h : LinOrd le) (arr : List κ)
    (hinc : ((npUnique le arr).2).Pairwise (· < ·)) (hne : arr ≠ []) :
    Chain 0 arr.length (Np.pairs ((npUnique le arr).2 ++ [arr.length])) := by
  cases arr with
  | nil => exact absurd rfl hne
  | cons x rows =>
    obtain ⟨l, hl⟩ := eager_indices h x rows hinc
    simp only [npUnique] at hinc ⊢
    rw [hl] at hinc ⊢
    apply chain_of_increasing _ _ _ hinc
    intro i hi
    rw [← hl] at hi
    obtain ⟨p, hp, rfl⟩ := List.mem_map.1 hi
    have := (changes_sublist _).subset hp
    rw [(argsort_perm le (x :: rows)).mem_iff] at this
    have := (List.mem_zipIdx this).2.1
    omega

theorem pairs_append_length (l : List Nat) (n : Nat) : (Np.pairs (l ++ [n])).length = l.length := by
  simp [Np.pairs]

end Verif.Split
