import Verif.Lemmas.Split

/-!
C09-C12: splitting a dataset into partitions.

Every theorem is stated for the splitting of matrix rows (`splitRows`, used by `Sequence`)
and of a column of truncated dates (`splitDates`, used by `Date`); `sequenceSplit` lifts
them to the named key columns of a dataset.
-/

namespace Verif

open Spec Split

/-- The key column is sorted in non-decreasing (lexicographic) order. -/
def KeysSorted {κ : Type} [LE κ] (column : List κ) : Prop := column.Pairwise (· ≤ ·)

/-! ### Helper facts -/

private theorem delayedMono_rows (u : List (List Int)) :
    isMonotonic u = true ↔ u.Pairwise fun a b => decide (a ≤ b) = true := by
  unfold isMonotonic
  rw [increasing_iff]
  constructor
  · exact sorted_of_argsort linOrd_row u
  · intro h
    rw [argsort_of_sorted u h]
    exact List.pairwise_map.2 (zipIdx_pairwise_lt u 0)

private theorem delayedMono_dates (u : List Int) :
    ((Np.diff u).all fun d => decide (d ≥ 0)) = true ↔
      u.Pairwise fun a b => decide (a ≤ b) = true := by
  induction u with
  | nil => simp [Np.diff]
  | cons a u ih =>
    cases u with
    | nil => simp [Np.diff]
    | cons b u =>
      simp only [Np.diff, List.all_cons, Bool.and_eq_true]
      rw [ih, List.pairwise_cons (a := a)]
      simp only [decide_eq_true_eq]
      constructor
      · rintro ⟨h1, h2⟩
        refine ⟨?_, h2⟩
        intro x hx
        rcases List.mem_cons.1 hx with rfl | hx
        · omega
        · have := (List.pairwise_cons.1 h2).1 x hx
          omega
      · rintro ⟨h1, h2⟩
        have := h1 b (by simp)
        exact ⟨by omega, h2⟩

section Generic

variable {κ : Type} [DecidableEq κ]

/-- Common form of the four splits: `delayed` and the monotony test are parameters. -/
private def split (le : κ → κ → Bool) (arr : List κ) (delayed : Bool) (mono : List κ → Bool) :
    Py (List (κ × (Nat × Nat))) :=
  if delayed then do
    let u ← uniqueDelayed arr
    if mono u.1 then .ok (slices u arr.length) else .error .valueError
  else do
    let u ← uniqueAndCheckMonotony le arr
    .ok (slices u arr.length)

private theorem split_delayed (le : κ → κ → Bool) (x : κ) (l : List κ) (mono : List κ → Bool) :
    split le (x :: l) true mono =
      if mono ((changes (x :: l).zipIdx).map (·.1)) then
        .ok (slices ((changes (x :: l).zipIdx).map (·.1), (changes (x :: l).zipIdx).map (·.2))
          (x :: l).length)
      else .error .valueError := rfl

private theorem split_eager (le : κ → κ → Bool) (arr : List κ) (mono : List κ → Bool) :
    split le arr false mono =
      if increasing (npUnique le arr).2 then .ok (slices (npUnique le arr) arr.length)
      else .error .valueError := by
  simp only [split, uniqueAndCheckMonotony, Bool.false_eq_true, if_false, bind, Except.bind]
  by_cases h : increasing (npUnique le arr).2 = true
  · simp [h]
  · simp [h]

private theorem zip_snd {α β : Type} (a : List α) (b : List β) (h : b.length ≤ a.length) :
    (a.zip b).map (·.2) = b := List.map_snd_zip h

private theorem zip_fst {α β : Type} (a : List α) (b : List β) (h : a.length ≤ b.length) :
    (a.zip b).map (·.1) = a := List.map_fst_zip h

private theorem sorted_of_changes {le : κ → κ → Bool} (hle : LinOrd le) (x : κ) (l : List κ)
    (h : ((changes (x :: l).zipIdx).map (·.1)).Pairwise fun a b => le a b = true) :
    (x :: l).Pairwise fun a b => le a b = true := by
  rw [List.zipIdx_cons] at h
  simp only [changes, List.map_cons] at h
  have := sorted_of_keepNew hle x (l.zipIdx (0 + 1)) h
  rwa [List.zipIdx_map_fst] at this

private theorem changes_of_sorted {le : κ → κ → Bool} (arr : List κ)
    (h : arr.Pairwise fun a b => le a b = true) :
    ((changes arr.zipIdx).map (·.1)).Pairwise fun a b => le a b = true := by
  have h1 : (arr.zipIdx.map (·.1)).Pairwise fun a b => le a b = true := by
    rw [List.zipIdx_map_fst]; exact h
  exact h1.sublist ((changes_sublist _).map _)

private theorem generic_cover {le : κ → κ → Bool} (hle : LinOrd le) (arr : List κ)
    (delayed : Bool) (mono : List κ → Bool) (ps : List (κ × (Nat × Nat)))
    (h : split le arr delayed mono = .ok ps) : Chain 0 arr.length (ps.map (·.2)) := by
  cases delayed with
  | true =>
    cases arr with
    | nil => simp [split, uniqueDelayed, bind, Except.bind] at h
    | cons x l =>
      rw [split_delayed] at h
      split at h
      · cases h
        rw [slices, zip_snd _ _ (by rw [pairs_append_length]; simp)]
        exact (delayed_spec (x :: l) (by simp)).1
      · simp at h
  | false =>
    rw [split_eager] at h
    split at h
    · next hinc =>
      cases h
      rw [slices, zip_snd _ _ (by rw [pairs_append_length]; simp [npUnique])]
      cases arr with
      | nil => simp [npUnique, argsort, Sort.isort, changes, Np.pairs, Chain]
      | cons x l => exact eager_chain hle _ ((increasing_iff _).1 hinc) (by simp)
    · simp at h

private theorem generic_keys_increasing {le : κ → κ → Bool} (hle : LinOrd le) (arr : List κ)
    (delayed : Bool) (mono : List κ → Bool)
    (hmono : ∀ u, mono u = true ↔ u.Pairwise fun a b => le a b = true)
    (ps : List (κ × (Nat × Nat))) (h : split le arr delayed mono = .ok ps) :
    (ps.map (·.1)).Pairwise fun a b => le a b = true ∧ a ≠ b := by
  cases delayed with
  | true =>
    cases arr with
    | nil => simp [split, uniqueDelayed, bind, Except.bind] at h
    | cons x l =>
      rw [split_delayed] at h
      split at h
      · next hm =>
        cases h
        rw [slices, zip_fst _ _ (by rw [pairs_append_length]; simp)]
        have hs := sorted_of_changes hle x l ((hmono _).1 hm)
        have h1 : (x :: l).zipIdx.Pairwise fun a b => le a.1 b.1 = true := by
          have : ((x :: l).zipIdx.map (·.1)).Pairwise fun a b => le a b = true := by
            rw [List.zipIdx_map_fst]; exact hs
          exact List.pairwise_map.1 this
        exact List.pairwise_map.2 (changes_sorted hle _ h1)
      · simp at h
  | false =>
    rw [split_eager] at h
    split at h
    · cases h
      rw [slices, zip_fst _ _ (by rw [pairs_append_length]; simp [npUnique])]
      simp only [npUnique]
      refine List.pairwise_map.2 (changes_sorted hle _ ((argsort_pairwise hle arr).imp ?_))
      intro a b hab
      simp only [leIdx, Bool.and_eq_true] at hab
      exact hab.1
    · simp at h

/-- On a sorted non-empty column both variants return the same slices. -/
private theorem generic_sorted {le : κ → κ → Bool} (x : κ) (l : List κ) (delayed : Bool)
    (mono : List κ → Bool) (hmono : ∀ u, mono u = true ↔ u.Pairwise fun a b => le a b = true)
    (hs : (x :: l).Pairwise fun a b => le a b = true) :
    split le (x :: l) delayed mono =
      .ok (slices ((changes (x :: l).zipIdx).map (·.1), (changes (x :: l).zipIdx).map (·.2))
        (x :: l).length) := by
  cases delayed with
  | true =>
    rw [split_delayed, if_pos]
    exact (hmono _).2 (changes_of_sorted _ hs)
  | false =>
    rw [split_eager]
    simp only [npUnique, argsort_of_sorted _ hs]
    rw [if_pos]
    rw [increasing_iff]
    exact List.pairwise_map.2 ((zipIdx_pairwise_lt (x :: l) 0).sublist (changes_sublist _))

private theorem generic_delayed_iff {le : κ → κ → Bool} (hle : LinOrd le) (arr : List κ)
    (mono : List κ → Bool) (hmono : ∀ u, mono u = true ↔ u.Pairwise fun a b => le a b = true)
    (hne : arr ≠ []) :
    ((∃ ps, split le arr true mono = .ok ps) ↔ arr.Pairwise fun a b => le a b = true) ∧
    (¬ (arr.Pairwise fun a b => le a b = true) → split le arr true mono = .error .valueError) := by
  cases arr with
  | nil => exact absurd rfl hne
  | cons x l =>
    by_cases hm : mono ((changes (x :: l).zipIdx).map (·.1)) = true
    · have hs := sorted_of_changes hle x l ((hmono _).1 hm)
      rw [split_delayed, if_pos hm]
      exact ⟨iff_of_true ⟨_, rfl⟩ hs, fun h => absurd hs h⟩
    · have hs : ¬ ((x :: l).Pairwise fun a b => le a b = true) := fun h =>
        hm ((hmono _).2 (changes_of_sorted _ h))
      rw [split_delayed, if_neg hm]
      exact ⟨iff_of_false (by simp) hs, fun _ => rfl⟩

private theorem generic_keys {le : κ → κ → Bool} (hle : LinOrd le) (arr : List κ)
    (delayed : Bool) (mono : List κ → Bool)
    (hmono : ∀ u, mono u = true ↔ u.Pairwise fun a b => le a b = true)
    (ps : List (κ × (Nat × Nat))) (h : split le arr delayed mono = .ok ps)
    (hs : delayed = true ∨ arr.Pairwise fun a b => le a b = true) : KeysCorrect arr ps := by
  cases arr with
  | nil =>
    cases delayed with
    | true => simp [split, uniqueDelayed, bind, Except.bind] at h
    | false =>
      rw [split_eager] at h
      simp [npUnique, argsort, Sort.isort, changes, increasing, Np.pairs, slices] at h
      subst h
      simp [KeysCorrect]
  | cons x l =>
    have hsort : (x :: l).Pairwise fun a b => le a b = true := by
      rcases hs with rfl | hs
      · exact ((generic_delayed_iff hle (x :: l) mono hmono (by simp)).1).1 ⟨ps, h⟩
      · exact hs
    rw [generic_sorted x l delayed mono hmono hsort] at h
    cases h
    exact (delayed_spec (x :: l) (by simp)).2

end Generic

private theorem splitRows_eq (rows : List (List Int)) (d : Bool) :
    splitRows rows d = split (fun a b => decide (a ≤ b)) rows d isMonotonic := by
  cases d
  · simp only [splitRows, seqUnique, split, Bool.false_eq_true, if_false, bind, Except.bind, pure,
      Except.pure]
  · simp only [splitRows, seqUnique, split, if_true, bind, Except.bind, pure, Except.pure]
    cases uniqueDelayed rows with
    | error e => rfl
    | ok u => by_cases h : isMonotonic u.1 = true <;> simp [h]

private theorem splitDates_eq (dates : List Int) (d : Bool) :
    splitDates dates d = split (fun a b => decide (a ≤ b)) dates d
      (fun u => (Np.diff u).all fun x => decide (x ≥ 0)) := by
  cases d
  · simp only [splitDates, dateUnique, split, Bool.false_eq_true, if_false, bind, Except.bind,
      pure, Except.pure]
  · simp only [splitDates, dateUnique, split, if_true, bind, Except.bind, pure, Except.pure]
    cases uniqueDelayed dates with
    | error e => rfl
    | ok u =>
      by_cases h : ((Np.diff u.1).all fun x => decide (x ≥ 0)) = true <;> simp only [h] <;> rfl

private theorem sorted_dec {κ : Type} [LE κ] [DecidableLE κ] (l : List κ) :
    KeysSorted l ↔ l.Pairwise fun a b => decide (a ≤ b) = true := by
  simp [KeysSorted]

/-! ### C09: each record goes to exactly one slice -/

/-- C09: the slices are non-empty, contiguous, ordered and cover the column. -/
theorem C09_cover_rows (rows : List (List Int)) (delayed : Bool)
    (ps : List (List Int × (Nat × Nat))) (h : splitRows rows delayed = .ok ps) :
    Chain 0 rows.length (ps.map (·.2)) :=
  generic_cover linOrd_row rows delayed _ ps (by rw [← splitRows_eq]; exact h)

/-- C09, for dates. -/
theorem C09_cover_dates (dates : List Int) (delayed : Bool) (ps : List (Int × (Nat × Nat)))
    (h : splitDates dates delayed = .ok ps) : Chain 0 dates.length (ps.map (·.2)) :=
  generic_cover linOrd_int dates delayed _ ps (by rw [← splitDates_eq]; exact h)

/-- C09: with contiguous slices every record belongs to exactly one slice. -/
theorem C09_exactly_one (n : Nat) (slices : List (Nat × Nat)) (h : Chain 0 n slices) (i : Nat)
    (hi : i < n) : ∃ p ∈ slices, (p.1 ≤ i ∧ i < p.2) ∧
      ∀ q ∈ slices, q.1 ≤ i → i < q.2 → q = p := by
  suffices hg : ∀ a, Chain a n slices → a ≤ i → ∃ p ∈ slices, (p.1 ≤ i ∧ i < p.2) ∧
      ∀ q ∈ slices, q.1 ≤ i → i < q.2 → q = p from hg 0 h (by omega)
  clear h
  induction slices with
  | nil =>
    intro a h ha
    simp only [Chain] at h
    omega
  | cons p t ih =>
    obtain ⟨s, e⟩ := p
    intro a h ha
    obtain ⟨rfl, hse, ht⟩ := h
    have hge : ∀ (l : List (Nat × Nat)) (b : Nat), Chain b n l → ∀ q ∈ l, b ≤ q.1 := by
      intro l
      induction l with
      | nil => simp
      | cons q l ihl =>
        obtain ⟨s', e'⟩ := q
        intro b hb q hq
        obtain ⟨rfl, h1, h2⟩ := hb
        rcases List.mem_cons.1 hq with rfl | hq
        · exact Nat.le_refl _
        · have := ihl e' h2 q hq
          omega
    by_cases hlt : i < e
    · refine ⟨(s, e), by simp, ⟨ha, hlt⟩, ?_⟩
      intro q hq h1 h2
      rcases List.mem_cons.1 hq with rfl | hq
      · rfl
      · have := hge t e ht q hq
        omega
    · obtain ⟨p, hp, hpi, hu⟩ := ih e ht (by omega)
      refine ⟨p, List.mem_cons_of_mem _ hp, hpi, ?_⟩
      intro q hq h1 h2
      rcases List.mem_cons.1 hq with rfl | hq
      · exact absurd h2 (by simp only; omega)
      · exact hu q hq h1 h2

/-- C09: concatenating the slices of a dataset gives the dataset back. -/
theorem C09_concat {α : Type} (ds : List α) (slices : List (Nat × Nat))
    (h : Chain 0 ds.length slices) :
    (slices.map fun p => Np.slice ds p.1 p.2).flatten = ds := by
  suffices hg : ∀ a, Chain a ds.length slices →
      (slices.map fun p => Np.slice ds p.1 p.2).flatten = ds.drop a by simpa using hg 0 h
  clear h
  induction slices with
  | nil =>
    intro a h
    simp only [Chain] at h
    simp [h]
  | cons p t ih =>
    obtain ⟨s, e⟩ := p
    intro a h
    obtain ⟨rfl, hse, ht⟩ := h
    rw [List.map_cons, List.flatten_cons, ih e ht]
    simp only [Np.slice]
    rw [List.drop_take]
    have : ds.drop e = (ds.drop s).drop (e - s) := by
      rw [List.drop_drop]; congr 1; omega
    rw [this, List.take_append_drop]

example : splitRows [[1, 2], [1, 2], [1, 3], [2, 0]] true
    = .ok [([1, 2], (0, 2)), ([1, 3], (2, 3)), ([2, 0], (3, 4))] := by decide +kernel

/-! ### C10: each record goes to the partition of its own key -/

/-- C10, full statement, for the rows of keys. -/
def C10_full : Prop :=
  ∀ (rows : List (List Int)) (delayed : Bool) (ps : List (List Int × (Nat × Nat))),
    splitRows rows delayed = .ok ps → KeysCorrect rows ps

private theorem exists_split_121 : splitRows [[1], [2], [1]] false
    = .ok [([1], (0, 1)), ([2], (1, 3))] := by decide +kernel

/-- C10 is violated by the code: with data loaded eagerly, the keys 1, 2, 1 are accepted and
the last record is filed in partition 2. -/
theorem C10_counterexample : ¬ C10_full := by
  intro h
  have := h [[1], [2], [1]] false _ exists_split_121 ([2], (1, 3)) (by simp) 2 (by simp) (by simp)
  revert this
  decide +kernel

/-- C10, the same violation for dates. -/
theorem C10_dates_counterexample :
    ∃ dates ps, splitDates dates false = .ok ps ∧ ¬ KeysCorrect dates ps := by
  refine ⟨[1, 2, 1], [(1, (0, 1)), (2, (1, 3))], by decide +kernel, ?_⟩
  intro h
  have := h (2, (1, 3)) (by simp) 2 (by simp) (by simp)
  revert this
  decide +kernel

/-- C10 holds for data loaded lazily, and for data loaded eagerly with sorted keys.
Missing for C10: eager data with unsorted keys that the check of the code does not
detect. -/
theorem C10_rows_partial (rows : List (List Int)) (delayed : Bool)
    (ps : List (List Int × (Nat × Nat))) (h : splitRows rows delayed = .ok ps)
    (hs : delayed = true ∨ KeysSorted rows) : KeysCorrect rows ps :=
  generic_keys linOrd_row rows delayed _ delayedMono_rows ps (by rw [← splitRows_eq]; exact h)
    (hs.imp_right (sorted_dec rows).1)

/-- C10 for dates, with the same restriction. -/
theorem C10_dates_partial (dates : List Int) (delayed : Bool) (ps : List (Int × (Nat × Nat)))
    (h : splitDates dates delayed = .ok ps) (hs : delayed = true ∨ KeysSorted dates) :
    KeysCorrect dates ps :=
  generic_keys linOrd_int dates delayed _ delayedMono_dates ps (by rw [← splitDates_eq]; exact h)
    (hs.imp_right (sorted_dec dates).1)

example : KeysSorted [[1, 2], [1, 2], [1, 3]] ∧
    splitRows [[1, 2], [1, 2], [1, 3]] false = .ok [([1, 2], (0, 2)), ([1, 3], (2, 3))] := by
  refine ⟨by rw [sorted_dec]; decide, by decide +kernel⟩

/-! ### C11: keys are strictly increasing, unsorted keys are refused -/

/-- C11: the keys of the slices are strictly increasing, so no key occurs twice. -/
theorem C11_keys_increasing_rows (rows : List (List Int)) (delayed : Bool)
    (ps : List (List Int × (Nat × Nat))) (h : splitRows rows delayed = .ok ps) :
    (ps.map (·.1)).Pairwise fun a b => a ≤ b ∧ a ≠ b :=
  (generic_keys_increasing linOrd_row rows delayed _ delayedMono_rows ps
    (by rw [← splitRows_eq]; exact h)).imp fun h => ⟨of_decide_eq_true h.1, h.2⟩

/-- C11 for dates. -/
theorem C11_keys_increasing_dates (dates : List Int) (delayed : Bool)
    (ps : List (Int × (Nat × Nat))) (h : splitDates dates delayed = .ok ps) :
    (ps.map (·.1)).Pairwise (· < ·) :=
  (generic_keys_increasing linOrd_int dates delayed _ delayedMono_dates ps
    (by rw [← splitDates_eq]; exact h)).imp fun h => by
      have := of_decide_eq_true h.1
      have := h.2
      omega

/-- C11: sorted keys are always accepted, eagerly or lazily. -/
theorem C11_sorted_accepted_rows (rows : List (List Int)) (delayed : Bool) (hne : rows ≠ [])
    (hs : KeysSorted rows) : ∃ ps, splitRows rows delayed = .ok ps := by
  cases rows with
  | nil => exact absurd rfl hne
  | cons x l =>
    rw [splitRows_eq, generic_sorted x l delayed _ delayedMono_rows ((sorted_dec _).1 hs)]
    exact ⟨_, rfl⟩

/-- C11: sorted dates are always accepted, eagerly or lazily. -/
theorem C11_sorted_accepted_dates (dates : List Int) (delayed : Bool) (hne : dates ≠ [])
    (hs : KeysSorted dates) : ∃ ps, splitDates dates delayed = .ok ps := by
  cases dates with
  | nil => exact absurd rfl hne
  | cons x l =>
    rw [splitDates_eq, generic_sorted x l delayed _ delayedMono_dates ((sorted_dec _).1 hs)]
    exact ⟨_, rfl⟩

/-- C11, full statement of the refusal of unsorted keys. -/
def C11_refused_full : Prop :=
  ∀ (rows : List (List Int)) (delayed : Bool), rows ≠ [] → ¬ KeysSorted rows →
    splitRows rows delayed = .error .valueError

/-- C11 is violated by the code: unsorted keys loaded eagerly can be accepted. -/
theorem C11_counterexample : ¬ C11_refused_full := by
  intro h
  have := h [[1], [2], [1]] false (by simp) (by rw [sorted_dec]; decide)
  revert this
  decide +kernel

/-- C11: lazily loaded unsorted keys are always refused with `ValueError`.  Missing for
C11: the same for eagerly loaded keys. -/
theorem C11_refused_rows_partial (rows : List (List Int)) (hne : rows ≠ [])
    (hs : ¬ KeysSorted rows) : splitRows rows true = .error .valueError := by
  rw [splitRows_eq]
  exact (generic_delayed_iff linOrd_row rows _ delayedMono_rows hne).2
    (fun h => hs ((sorted_dec _).2 h))

/-- C11: lazily loaded unsorted dates are always refused with `ValueError`. -/
theorem C11_refused_dates_partial (dates : List Int) (hne : dates ≠ [])
    (hs : ¬ KeysSorted dates) : splitDates dates true = .error .valueError := by
  rw [splitDates_eq]
  exact (generic_delayed_iff linOrd_int dates _ delayedMono_dates hne).2
    (fun h => hs ((sorted_dec _).2 h))

/-- C11: what the eager check does guarantee: if unsorted keys are accepted, the keys seen
for the first time still appear in increasing order. -/
theorem C11_eager_first_occurrences (rows : List (List Int)) (ps : List (List Int × (Nat × Nat)))
    (h : splitRows rows false = .ok ps) : ∀ p ∈ ps, rows[p.2.1]? = some p.1 := by
  rw [splitRows_eq, split_eager] at h
  split at h
  · cases h
    intro p hp
    simp only [slices, npUnique] at hp
    have hmem : (p.1, p.2.1) ∈ changes (argsort (fun a b => decide (a ≤ b)) rows) := by
      generalize changes (argsort (fun a b => decide (a ≤ b)) rows) = u at hp
      generalize rows.length = n at hp
      induction u with
      | nil => simp [Np.pairs] at hp
      | cons q t ih =>
        cases t with
        | nil =>
          simp [Np.pairs] at hp
          simp [hp]
        | cons q' t' =>
          simp only [List.map_cons, List.cons_append, pairs_cons_cons, List.zip_cons_cons] at hp
          rcases List.mem_cons.1 hp with rfl | hp
          · simp
          · exact List.mem_cons_of_mem _ (ih hp)
    have := (changes_sublist _).subset hmem
    rw [(argsort_perm _ rows).mem_iff] at this
    rw [List.mk_mem_zipIdx_iff_getElem?] at this
    exact this
  · simp at h

example : ¬ KeysSorted [[2], [1]] ∧ splitRows [[2], [1]] true = .error .valueError := by
  refine ⟨by rw [sorted_dec]; decide, by decide +kernel⟩

/-! ### C12: eager and lazy splitting agree -/

/-- C12, full statement. -/
def C12_full : Prop :=
  ∀ rows : List (List Int), rows ≠ [] → splitRows rows false = splitRows rows true

/-- C12 is violated by the code: the lazy split refuses the keys 1, 2, 1, the eager one
accepts them. -/
theorem C12_counterexample : ¬ C12_full := by
  intro h
  have := h [[1], [2], [1]] (by simp)
  revert this
  decide +kernel

/-- C12: both variants agree on sorted keys, and whenever the lazy split returns, the eager
split returns the same.  Missing for C12: unsorted keys. -/
theorem C12_rows_partial (rows : List (List Int)) (hne : rows ≠ []) :
    (KeysSorted rows → splitRows rows false = splitRows rows true) ∧
    (∀ ps, splitRows rows true = .ok ps → splitRows rows false = .ok ps) := by
  have key : KeysSorted rows → splitRows rows false = splitRows rows true := by
    intro hs
    cases rows with
    | nil => exact absurd rfl hne
    | cons x l =>
      rw [splitRows_eq, splitRows_eq,
        generic_sorted x l false _ delayedMono_rows ((sorted_dec _).1 hs),
        generic_sorted x l true _ delayedMono_rows ((sorted_dec _).1 hs)]
  refine ⟨key, ?_⟩
  intro ps h
  rw [key, h]
  rw [splitRows_eq] at h
  exact (sorted_dec _).2
    (((generic_delayed_iff linOrd_row rows _ delayedMono_rows hne).1).1 ⟨ps, h⟩)

/-- C12 for dates, with the same restriction. -/
theorem C12_dates_partial (dates : List Int) (hne : dates ≠ []) :
    (KeysSorted dates → splitDates dates false = splitDates dates true) ∧
    (∀ ps, splitDates dates true = .ok ps → splitDates dates false = .ok ps) := by
  have key : KeysSorted dates → splitDates dates false = splitDates dates true := by
    intro hs
    cases dates with
    | nil => exact absurd rfl hne
    | cons x l =>
      rw [splitDates_eq, splitDates_eq,
        generic_sorted x l false _ delayedMono_dates ((sorted_dec _).1 hs),
        generic_sorted x l true _ delayedMono_dates ((sorted_dec _).1 hs)]
  refine ⟨key, ?_⟩
  intro ps h
  rw [key, h]
  rw [splitDates_eq] at h
  exact (sorted_dec _).2
    (((generic_delayed_iff linOrd_int dates _ delayedMono_dates hne).1).1 ⟨ps, h⟩)

/-- C12, limit of validity: on an empty column the eager split returns no slice and the lazy
one raises. -/
theorem C12_empty : splitRows [] false = .ok [] ∧ splitRows [] true = .error .indexError := by
  decide +kernel

example : KeysSorted [[1], [1], [4]] ∧ splitRows [[1], [1], [4]] false
    = splitRows [[1], [1], [4]] true := by
  refine ⟨by rw [sorted_dec]; decide, by decide +kernel⟩

/-! ### The named key columns of a dataset (`Sequence._split`) -/

private theorem filterMap_row (cols : List (List Int)) (n i : Nat)
    (h : ∀ c ∈ cols, c.length = n) (hi : i < n) (j : Nat) (c : List Int)
    (hc : cols[j]? = some c) : (cols.filterMap (·[i]?))[j]? = c[i]? := by
  induction cols generalizing j with
  | nil => simp at hc
  | cons d t ih =>
    have hd : i < d.length := by have := h d (by simp); omega
    rw [List.filterMap_cons]
    simp only [List.getElem?_eq_getElem hd]
    cases j with
    | zero =>
      simp only [List.getElem?_cons_zero, Option.some.injEq] at hc ⊢
      subst hc
      exact (List.getElem?_eq_getElem hd).symm
    | succ j =>
      simp only [List.getElem?_cons_succ] at hc ⊢
      exact ih (fun c hc => h c (by simp [hc])) j hc

theorem vstackT_spec (cols m : List (List Int)) (h : vstackT cols = .ok m) :
    (∀ c ∈ cols, c.length = m.length) ∧ (∀ row ∈ m, row.length = cols.length) ∧
      ∀ i (j : Nat) (c : List Int), i < m.length → cols[j]? = some c →
        (m[i]?.bind (·[j]?)) = c[i]? := by
  cases cols with
  | nil => simp [vstackT] at h
  | cons c cs =>
    simp only [vstackT] at h
    split at h
    · next hl =>
      have hl' : ∀ d ∈ c :: cs, d.length = c.length := by
        intro d hd
        rcases List.mem_cons.1 hd with rfl | hd
        · rfl
        · simpa using List.all_eq_true.1 hl d hd
      simp only [Except.ok.injEq] at h
      subst h
      refine ⟨by simpa using hl', ?_, ?_⟩
      · intro row hrow
        simp only [List.mem_map, List.mem_range] at hrow
        obtain ⟨i, hi, rfl⟩ := hrow
        have : ∀ cols : List (List Int), (∀ d ∈ cols, d.length = c.length) →
            (cols.filterMap (·[i]?)).length = cols.length := by
          intro cols
          induction cols with
          | nil => simp
          | cons d t ih =>
            intro hd
            have h1 : i < d.length := by have := hd d (by simp); omega
            rw [List.filterMap_cons]
            simp [List.getElem?_eq_getElem h1, ih fun x hx => hd x (by simp [hx])]
        exact this _ hl'
      · intro i j d hi hd
        simp only [List.length_map, List.length_range] at hi
        rw [List.getElem?_map, List.getElem?_range hi]
        exact filterMap_row _ c.length i hl' hi j d hd
    · simp at h

/-- C09 for `Sequence._split`: the slices cover every key column, and every key column has
the same number of records. -/
theorem C09_cover_sequence (variables : List (String × List Int)) (isInt delayed : Bool)
    (ps : List (List (String × Int) × (Nat × Nat)))
    (h : sequenceSplit variables isInt delayed = .ok ps) :
    ∃ n, (∀ v ∈ variables, v.2.length = n) ∧ Chain 0 n (ps.map (·.2)) := by
  simp only [sequenceSplit, bind, Except.bind, pure, Except.pure] at h
  cases hm : vstackT (variables.map (·.2)) with
  | error e => simp [hm] at h
  | ok m =>
    simp only [hm] at h
    cases isInt with
    | false => simp [throw, throwThe, MonadExceptOf.throw] at h
    | true =>
      simp only [Bool.not_true, Bool.false_eq_true, if_false] at h
      cases hp : splitRows m delayed with
      | error e => simp [hp] at h
      | ok pieces =>
        simp only [hp, Except.ok.injEq] at h
        subst h
        refine ⟨m.length, ?_, ?_⟩
        · intro v hv
          exact (vstackT_spec _ _ hm).1 v.2 (List.mem_map_of_mem hv)
        · rw [List.map_map]
          exact C09_cover_rows m delayed pieces hp

/-- C10 for `Sequence._split`: the key of a slice gives, for every key variable in order, its
name and its value at every record of the slice.  Missing for C10: eager data with
unsorted keys. -/
theorem C10_sequence_partial (variables : List (String × List Int)) (isInt delayed : Bool)
    (ps : List (List (String × Int) × (Nat × Nat)))
    (h : sequenceSplit variables isInt delayed = .ok ps)
    (hs : delayed = true ∨ ∀ m, vstackT (variables.map (·.2)) = .ok m → KeysSorted m) :
    ∀ p ∈ ps, p.1.length = variables.length ∧
      ∀ (i j : Nat) (name : String) (column : List Int), p.2.1 ≤ i → i < p.2.2 →
        variables[j]? = some (name, column) →
        ∃ v, column[i]? = some v ∧ p.1[j]? = some (name, v) := by
  simp only [sequenceSplit, bind, Except.bind, pure, Except.pure] at h
  cases hm : vstackT (variables.map (·.2)) with
  | error e => simp [hm] at h
  | ok m =>
    simp only [hm] at h
    cases isInt with
    | false => simp [throw, throwThe, MonadExceptOf.throw] at h
    | true =>
      simp only [Bool.not_true, Bool.false_eq_true, if_false] at h
      cases hp : splitRows m delayed with
      | error e => simp [hp] at h
      | ok pieces =>
        simp only [hp, Except.ok.injEq] at h
        subst h
        have hkeys := C10_rows_partial m delayed pieces hp (hs.imp_right fun f => f m hm)
        have hchain := C09_cover_rows m delayed pieces hp
        obtain ⟨hv1, hv2, hv3⟩ := vstackT_spec _ _ hm
        intro p hpm
        obtain ⟨q, hq, rfl⟩ := List.mem_map.1 hpm
        have hlen : q.1.length = variables.length := by
          have hne : q.2.1 < q.2.2 := by
            have : ∀ (l : List (Nat × Nat)) (a : Nat), Chain a m.length l → ∀ r ∈ l,
                r.1 < r.2 := by
              intro l
              induction l with
              | nil => simp
              | cons r l ih =>
                intro a ha r' hr'
                obtain ⟨_, h1, h2⟩ := ha
                rcases List.mem_cons.1 hr' with rfl | hr'
                · exact h1
                · exact ih _ h2 r' hr'
            exact this _ 0 hchain q.2 (List.mem_map_of_mem hq)
          have hk := hkeys q hq q.2.1 (Nat.le_refl _) hne
          have := hv2 q.1 (List.mem_of_getElem? hk)
          simpa using this
        refine ⟨by simp [hlen], ?_⟩
        intro i j name column h1 h2 hj
        have hk := hkeys q hq i h1 h2
        have hi : i < m.length := by
          rw [List.getElem?_eq_some_iff] at hk
          exact hk.1
        have hcol : (variables.map (·.2))[j]? = some column := by simp [hj]
        have h3 := hv3 i j column hi hcol
        rw [hk] at h3
        simp only [Option.bind_some] at h3
        have hic : i < column.length := by
          have := hv1 column (List.mem_of_getElem? hcol)
          omega
        refine ⟨column[i], List.getElem?_eq_getElem hic, ?_⟩
        rw [List.getElem?_eq_getElem hic] at h3
        simp only [List.getElem?_zip_eq_some, List.getElem?_map, hj, h3, Option.map_some,
          and_self]

/-- The key columns must be integers and of equal lengths. -/
theorem C10_sequence_errors (variables : List (String × List Int)) (isInt delayed : Bool) :
    (∀ m, vstackT (variables.map (·.2)) = .ok m → isInt = false →
      sequenceSplit variables isInt delayed = .error .typeError) ∧
    ((∃ v ∈ variables, ∃ w ∈ variables, v.2.length ≠ w.2.length) →
      sequenceSplit variables isInt delayed = .error .valueError) := by
  constructor
  · intro m hm hi
    simp [sequenceSplit, hm, hi, bind, Except.bind, throw, throwThe, MonadExceptOf.throw]
  · rintro ⟨v, hv, w, hw, hne⟩
    have hmem1 : v.2 ∈ variables.map (·.2) := List.mem_map_of_mem hv
    have hmem2 : w.2 ∈ variables.map (·.2) := List.mem_map_of_mem hw
    have : vstackT (variables.map (·.2)) = .error .valueError := by
      cases hm : vstackT (variables.map (·.2)) with
      | ok m =>
        have h1 := (vstackT_spec _ _ hm).1 _ hmem1
        have h2 := (vstackT_spec _ _ hm).1 _ hmem2
        omega
      | error e =>
        cases hc : variables.map (·.2) with
        | nil => simp [hc] at hmem1
        | cons c cs =>
          rw [hc] at hm
          simp only [vstackT] at hm
          split at hm <;> simp_all
    simp [sequenceSplit, this, bind, Except.bind]

example : sequenceSplit [("cycle", [1, 1, 2]), ("pass", [5, 6, 1])] true true =
    .ok [([("cycle", 1), ("pass", 5)], (0, 1)), ([("cycle", 1), ("pass", 6)], (1, 2)),
      ([("cycle", 2), ("pass", 1)], (2, 3))] := by decide +kernel

end Verif
