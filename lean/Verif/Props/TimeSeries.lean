import Verif.Lemmas.Gaps

/-!
C01-C05: merging of time series.
-/

namespace Verif

open Spec TS

variable {α : Type}

private theorem nonempty_of_isMin {l : List (Rec α)} {x : Int} (h : IsMin x (axis l)) :
    l ≠ [] := by
  rintro rfl
  simp [IsMin, axis] at h

/-! ### C01: content of the merge -/

/-- C01, full statement: the merge returns the existing records strictly before the first
inserted time, the inserted records, and the existing records strictly after the last
inserted time. -/
def C01_full (α : Type) : Prop :=
  ∀ (existing inserted : List (Rec α)) (lo hi : Int), Sorted existing → existing ≠ [] →
    IsMin lo (inserted.map (·.1)) → IsMax hi (inserted.map (·.1)) →
    mergeTimeSeries existing inserted none = .ok (merged existing inserted lo hi)

/-- C01 is violated by the code: an existing record located exactly one tick after the
last inserted time is dropped. -/
theorem C01_counterexample : ¬ C01_full Nat := by
  intro h
  have := h [(5, 0), (6, 1), (7, 2)] [(5, 3)] 5 5 (by simp [Sorted]) (by simp)
    (by simp [IsMin]) (by simp [IsMax])
  revert this
  decide

/-- C01 is violated by the code: if that record is the only one after the inserted data,
the merge fails instead. -/
theorem C01_error_counterexample :
    ∃ existing inserted : List (Rec Nat), StrictSorted existing ∧ StrictSorted inserted ∧
      mergeTimeSeries existing inserted none = .error .indexError := by
  refine ⟨[(4, 0), (6, 1)], [(5, 3)], by simp [StrictSorted], by simp [StrictSorted], ?_⟩
  decide

/-- C01, exact extent: on sorted existing data the merge gives the specified result if and
only if no existing record lies exactly one tick after the inserted data, or all existing
records lie after the inserted data.  Missing for C01: the excluded case, where the code
loses the record. -/
theorem C01_partial (existing inserted : List (Rec α)) (lo hi : Int) (hs : Sorted existing)
    (hne : existing ≠ []) (hlo : IsMin lo (inserted.map (·.1)))
    (hhi : IsMax hi (inserted.map (·.1))) :
    mergeTimeSeries existing inserted none = .ok (merged existing inserted lo hi) ↔
      ((∀ r ∈ existing, r.1 ≠ hi + 1) ∨ (∀ r ∈ existing, hi < r.1)) := by
  obtain ⟨elo, helo⟩ := Np.exists_isMin (axis_ne_nil hne)
  obtain ⟨ehi, hehi⟩ := Np.exists_isMax (axis_ne_nil hne)
  have hel : ∀ r ∈ existing, elo ≤ r.1 ∧ r.1 ≤ ehi := fun r hr =>
    ⟨helo.2 _ (mem_axis hr), hehi.2 _ (mem_axis hr)⟩
  have hli : lo ≤ hi := hlo.2 _ hhi.1
  simp only [mergeTimeSeries]
  rw [mergeOne_char existing inserted hs lo hi elo ehi hlo hhi helo hehi]
  by_cases h1 : hi < elo
  · simp only [h1, if_true]
    have hall : ∀ r ∈ existing, hi < r.1 := fun r hr => by have := hel r hr; omega
    refine iff_of_true ?_ (.inr hall)
    rw [merged, filter_eq_nil_of (f := fun r => decide (r.1 < lo))
      fun r hr => by have := hall r hr; simp only [decide_eq_false_iff_not]; omega,
      filter_eq_self_of (f := fun r => decide (hi < r.1)) fun r hr => by simpa using hall r hr]
    simp
  · simp only [h1, if_false]
    have hnall : ¬ ∀ r ∈ existing, hi < r.1 := by
      intro h
      obtain ⟨r, hr, hrr⟩ := List.mem_map.1 helo.1
      have := h r hr
      omega
    by_cases h2 : elo < lo ∧ hi < ehi ∧ existing.filter (fun r => decide (hi + 1 < r.1)) = []
    · rw [if_pos h2]
      refine iff_of_false (by simp) ?_
      rintro (h | h)
      · obtain ⟨r, hr, hrr⟩ := List.mem_map.1 hehi.1
        have hr1 := h r hr
        have hmem : r ∈ existing.filter (fun r => decide (hi + 1 < r.1)) :=
          List.mem_filter.2 ⟨hr, by simp only [decide_eq_true_eq]; omega⟩
        rw [h2.2.2] at hmem
        simp at hmem
      · exact hnall h
    · rw [if_neg h2]
      simp only [hnall, or_false, Except.ok.injEq, merged]
      rw [List.append_cancel_left_eq]
      constructor
      · intro h r hr hr1
        have hmem : r ∈ existing.filter (fun r => decide (hi < r.1)) :=
          List.mem_filter.2 ⟨hr, by simp only [decide_eq_true_eq]; omega⟩
        rw [← h] at hmem
        have := (List.mem_filter.1 hmem).2
        simp only [decide_eq_true_eq] at this
        omega
      · intro h
        apply List.filter_congr
        intro r hr
        have := h r hr
        by_cases h3 : hi < r.1
        · have : hi + 1 < r.1 := by omega
          simp [h3, this]
        · have : ¬ hi + 1 < r.1 := by omega
          simp [h3, this]

/-- C01, error branch: on sorted existing data the merge fails exactly when one of the
datasets is empty (`ValueError`) or when the inserted data lies inside the existing data
and no existing record lies more than one tick after it (`IndexError`). -/
theorem C01_errors (existing inserted : List (Rec α)) (hs : Sorted existing) :
    (mergeTimeSeries existing inserted none = .error .valueError ↔
      existing = [] ∨ inserted = []) ∧
    (∀ err, mergeTimeSeries existing inserted none = .error err →
      err = .valueError ∨ err = .indexError) ∧
    (mergeTimeSeries existing inserted none = .error .indexError ↔
      ∃ lo hi, IsMin lo (inserted.map (·.1)) ∧ IsMax hi (inserted.map (·.1)) ∧
        (∃ r ∈ existing, r.1 < lo) ∧ (∃ r ∈ existing, r.1 = hi + 1) ∧
        ∀ r ∈ existing, r.1 ≤ hi + 1) := by
  cases existing with
  | nil =>
    have : mergeTimeSeries ([] : List (Rec α)) inserted none = .error .valueError := rfl
    rw [this]
    simp
  | cons x e =>
    generalize hE : x :: e = E at hs
    have hne : E ≠ [] := by rw [← hE]; simp
    obtain ⟨elo, helo⟩ := Np.exists_isMin (axis_ne_nil hne)
    obtain ⟨ehi, hehi⟩ := Np.exists_isMax (axis_ne_nil hne)
    cases inserted with
    | nil =>
      have : mergeTimeSeries E ([] : List (Rec α)) none = .error .valueError := by
        simp only [mergeTimeSeries, mergeOne, Np.amin_ok.2 helo, Np.amax_ok.2 hehi, bind,
          Except.bind]
        rfl
      rw [this]
      simp [IsMin]
    | cons y i =>
      generalize hI : y :: i = I
      have hine : I ≠ [] := by rw [← hI]; simp
      obtain ⟨lo, hlo⟩ := Np.exists_isMin (axis_ne_nil hine)
      obtain ⟨hi, hhi⟩ := Np.exists_isMax (axis_ne_nil hine)
      have hel : ∀ r ∈ E, elo ≤ r.1 ∧ r.1 ≤ ehi := fun r hr =>
        ⟨helo.2 _ (mem_axis hr), hehi.2 _ (mem_axis hr)⟩
      have hli : lo ≤ hi := hlo.2 _ hhi.1
      have key : (∃ lo hi, IsMin lo (I.map (·.1)) ∧ IsMax hi (I.map (·.1)) ∧
          (∃ r ∈ E, r.1 < lo) ∧ (∃ r ∈ E, r.1 = hi + 1) ∧ ∀ r ∈ E, r.1 ≤ hi + 1) ↔
          (¬ hi < elo ∧ elo < lo ∧ hi < ehi ∧ E.filter (fun r => decide (hi + 1 < r.1)) = []) := by
        constructor
        · rintro ⟨lo', hi', h1, h2, ⟨r, hr, hr'⟩, ⟨s, hs, hs'⟩, h5⟩
          obtain rfl := Np.isMin_unique h1 hlo
          obtain rfl := Np.isMax_unique h2 hhi
          have := hel r hr
          have := hel s hs
          refine ⟨by omega, by omega, by omega, ?_⟩
          apply filter_eq_nil_of
          intro r hr
          have := h5 r hr
          simp only [decide_eq_false_iff_not]
          omega
        · rintro ⟨h1, h2, h3, h4⟩
          rw [List.filter_eq_nil_iff] at h4
          obtain ⟨r, hr, hrr⟩ := List.mem_map.1 helo.1
          obtain ⟨s, hs, hss⟩ := List.mem_map.1 hehi.1
          have h4s := h4 s hs
          simp only [decide_eq_true_eq] at h4s
          refine ⟨lo, hi, hlo, hhi, ⟨r, hr, by omega⟩, ⟨s, hs, by omega⟩, ?_⟩
          intro q hq
          have := h4 q hq
          simp only [decide_eq_true_eq] at this
          omega
      simp only [mergeTimeSeries]
      rw [mergeOne_char E I hs lo hi elo ehi hlo hhi helo hehi, key]
      simp only [hne, hine, or_self, iff_false]
      by_cases h1 : hi < elo
      · simp [h1]
      · by_cases h2 : elo < lo ∧ hi < ehi ∧ E.filter (fun r => decide (hi + 1 < r.1)) = []
        · rw [if_neg h1, if_pos h2]
          simp [h1, h2]
        · rw [if_neg h1, if_neg h2]
          simp only [h1, h2]
          simp

example : Sorted [(1, "a"), (2, "b"), (9, "c")] ∧
    IsMin 2 ([(2, "d"), (3, "e")].map (·.1)) ∧ IsMax 3 ([(2, "d"), (3, "e")].map (·.1)) ∧
    (∀ r ∈ [(1, "a"), (2, "b"), (9, "c")], r.1 ≠ 3 + 1) ∧
    mergeTimeSeries [(1, "a"), (2, "b"), (9, "c")] [(2, "d"), (3, "e")] none
      = .ok [(1, "a"), (2, "d"), (3, "e"), (9, "c")] := by
  refine ⟨by simp [Sorted], by simp [IsMin], by simp [IsMax], by simp, by decide⟩

/-! ### C02: order of the merged axis -/

/-- C02: the merge of strictly increasing datasets is strictly increasing. -/
theorem C02_sorted (existing inserted m : List (Rec α)) (he : StrictSorted existing)
    (hi' : StrictSorted inserted) (h : mergeTimeSeries existing inserted none = .ok m) :
    StrictSorted m := by
  have hs : Sorted existing := he.imp fun h => by omega
  have hne : existing ≠ [] := by
    intro h0
    have := ((C01_errors existing inserted hs).1).2 (.inl h0)
    rw [h] at this
    simp at this
  have hine : inserted ≠ [] := by
    intro h0
    have := ((C01_errors existing inserted hs).1).2 (.inr h0)
    rw [h] at this
    simp at this
  obtain ⟨lo, hlo⟩ := Np.exists_isMin (axis_ne_nil hine)
  obtain ⟨hi, hhi⟩ := Np.exists_isMax (axis_ne_nil hine)
  obtain ⟨elo, helo⟩ := Np.exists_isMin (axis_ne_nil hne)
  obtain ⟨ehi, hehi⟩ := Np.exists_isMax (axis_ne_nil hne)
  have hel : ∀ r ∈ existing, elo ≤ r.1 ∧ r.1 ≤ ehi := fun r hr =>
    ⟨helo.2 _ (mem_axis hr), hehi.2 _ (mem_axis hr)⟩
  have hil : ∀ r ∈ inserted, lo ≤ r.1 ∧ r.1 ≤ hi := fun r hr =>
    ⟨hlo.2 _ (mem_axis hr), hhi.2 _ (mem_axis hr)⟩
  have hli : lo ≤ hi := hlo.2 _ hhi.1
  simp only [mergeTimeSeries] at h
  rw [mergeOne_char existing inserted hs lo hi elo ehi hlo hhi helo hehi] at h
  split at h
  · cases h
    refine List.pairwise_append.2 ⟨hi', he, fun a ha b hb => ?_⟩
    have := hil a ha
    have := hel b hb
    omega
  · split at h
    · simp at h
    · cases h
      refine List.pairwise_append.2 ⟨List.pairwise_append.2 ⟨he.filter _, hi', ?_⟩,
        he.filter _, ?_⟩
      · intro a ha b hb
        have := hil b hb
        have := (List.mem_filter.1 ha).2
        simp only [decide_eq_true_eq] at this
        omega
      · intro a ha b hb
        have hb := (List.mem_filter.1 hb).2
        simp only [decide_eq_true_eq] at hb
        rcases List.mem_append.1 ha with ha | ha
        · have ha := (List.mem_filter.1 ha).2
          simp only [decide_eq_true_eq] at ha
          omega
        · have := hil a ha
          omega

example : StrictSorted [(1, "a"), (5, "b")] ∧ StrictSorted [(3, "c"), (4, "d")] ∧
    mergeTimeSeries [(1, "a"), (7, "b")] [(3, "c"), (4, "d")] none
      = .ok [(1, "a"), (3, "c"), (4, "d"), (7, "b")] := by
  refine ⟨by simp [StrictSorted], by simp [StrictSorted], by decide⟩

/-! ### C03: nothing inserted is lost, nothing is invented -/

private theorem slice_sublist {β : Type} (l : List β) (i j : Nat) :
    (Np.slice l i j).Sublist l :=
  (List.drop_sublist _ _).trans (List.take_sublist _ _)

/-- C03: whatever the order of the existing records, the merged dataset consists of some
existing records in their order, all inserted records as given, and some existing records
in their order. -/
theorem C03_content (existing inserted m : List (Rec α))
    (h : mergeTimeSeries existing inserted none = .ok m) :
    ∃ before after, m = before ++ inserted ++ after ∧ before.Sublist existing ∧
      after.Sublist existing := by
  simp only [mergeTimeSeries, mergeOne, bind, Except.bind, pure, Except.pure, iselIdx_where] at h
  (repeat' split at h) <;> (try simp only [reduceCtorEq, Except.ok.injEq] at h) <;>
    (try contradiction) <;> (try subst h)
  · exact ⟨[], existing, by simp, by simp, by simp⟩
  · exact ⟨existing, [], by simp, by simp, by simp⟩
  · exact ⟨[], [], by simp, by simp, by simp⟩
  · exact ⟨[], _, by simp; rfl, by simp, List.filter_sublist⟩
  · exact ⟨_, [], by simp; rfl, List.filter_sublist, by simp⟩
  · exact ⟨_, _, by rw [List.append_assoc]; rfl, slice_sublist _ _ _, slice_sublist _ _ _⟩

/-- C03: if the existing records are sorted, the existing records that remain are a
subsequence of the existing ones: none is duplicated or reordered, and each of them lies
outside the span of the inserted times. -/
theorem C03_sorted_content (existing inserted m : List (Rec α)) (hs : Sorted existing)
    (h : mergeTimeSeries existing inserted none = .ok m) :
    ∃ before after, m = before ++ inserted ++ after ∧ (before ++ after).Sublist existing ∧
      (∀ r ∈ before, ∀ i ∈ inserted, r.1 < i.1) ∧ (∀ r ∈ after, ∀ i ∈ inserted, i.1 < r.1) := by
  have hne : existing ≠ [] := by
    intro h0
    have := ((C01_errors existing inserted hs).1).2 (.inl h0)
    rw [h] at this
    simp at this
  have hine : inserted ≠ [] := by
    intro h0
    have := ((C01_errors existing inserted hs).1).2 (.inr h0)
    rw [h] at this
    simp at this
  obtain ⟨lo, hlo⟩ := Np.exists_isMin (axis_ne_nil hine)
  obtain ⟨hi, hhi⟩ := Np.exists_isMax (axis_ne_nil hine)
  obtain ⟨elo, helo⟩ := Np.exists_isMin (axis_ne_nil hne)
  obtain ⟨ehi, hehi⟩ := Np.exists_isMax (axis_ne_nil hne)
  have hil : ∀ r ∈ inserted, lo ≤ r.1 ∧ r.1 ≤ hi := fun r hr =>
    ⟨hlo.2 _ (mem_axis hr), hhi.2 _ (mem_axis hr)⟩
  have hel : ∀ r ∈ existing, elo ≤ r.1 := fun r hr => helo.2 _ (mem_axis hr)
  have hli : lo ≤ hi := hlo.2 _ hhi.1
  simp only [mergeTimeSeries] at h
  rw [mergeOne_char existing inserted hs lo hi elo ehi hlo hhi helo hehi] at h
  split at h
  · next hb =>
    cases h
    refine ⟨[], existing, by simp, by simp, by simp, ?_⟩
    intro r hr i hi'
    have := hil i hi'
    have := hel r hr
    omega
  · split at h
    · simp at h
    · cases h
      refine ⟨_, _, rfl, ?_, ?_, ?_⟩
      · have hsplit := Np.split_of_pairwise existing (fun r => decide (r.1 < lo))
          (hs.imp fun {a c} h => by simp only [decide_eq_true_eq]; omega)
        conv => rhs; rw [hsplit]
        apply List.Sublist.append (List.Sublist.refl _)
        have : existing.filter (fun r => decide (hi + 1 < r.1)) =
            (existing.filter (fun r => !decide (r.1 < lo))).filter
              (fun r => decide (hi + 1 < r.1)) := by
          rw [List.filter_filter]
          apply List.filter_congr
          intro r _
          by_cases h3 : hi + 1 < r.1
          · have : ¬ r.1 < lo := by omega
            simp [h3, this]
          · simp [h3]
        rw [this]
        exact List.filter_sublist
      · intro r hr i hi'
        have := hil i hi'
        have := (List.mem_filter.1 hr).2
        simp only [decide_eq_true_eq] at this
        omega
      · intro r hr i hi'
        have := hil i hi'
        have := (List.mem_filter.1 hr).2
        simp only [decide_eq_true_eq] at this
        omega

/-- C03, limit of validity: on an unsorted existing dataset a record can be duplicated. -/
theorem C03_unsorted_counterexample :
    ∃ existing inserted m : List (Rec Nat), existing.Nodup ∧
      mergeTimeSeries existing inserted none = .ok m ∧ ¬ m.Nodup := by
  refine ⟨[(9, 0), (1, 1)], [(5, 2)], _, by decide, rfl, by decide⟩

example : mergeTimeSeries [(1, "a"), (9, "b")] [(5, "c")] none
    = .ok [(1, "a"), (5, "c"), (9, "b")] := by decide

/-! ### C04: idempotence -/

/-- C04, full statement: inserting the same data again changes nothing. -/
def C04_full (α : Type) : Prop :=
  ∀ existing inserted m : List (Rec α), StrictSorted existing → StrictSorted inserted →
    mergeTimeSeries existing inserted none = .ok m → mergeTimeSeries m inserted none = .ok m

/-- C04 is violated by the code: inserting the same record twice before an adjacent one
deletes the adjacent record. -/
theorem C04_counterexample : ¬ C04_full Nat := by
  intro h
  have := h [(6, 0)] [(5, 1)] [(5, 1), (6, 0)] (by simp [StrictSorted]) (by simp [StrictSorted])
    (by decide)
  revert this
  decide

/-- C04: inserting the same data again changes nothing, if no existing record lies exactly
one tick after the inserted data.  Missing for C04: the excluded case. -/
theorem C04_partial (existing inserted m : List (Rec α)) (he : StrictSorted existing)
    (hi' : StrictSorted inserted) (hi : Int) (hhi : IsMax hi (inserted.map (·.1)))
    (hend : ∀ r ∈ existing, r.1 ≠ hi + 1)
    (h : mergeTimeSeries existing inserted none = .ok m) :
    mergeTimeSeries m inserted none = .ok m := by
  have hs : Sorted existing := he.imp fun h => by omega
  have hne : existing ≠ [] := by
    intro h0
    have := ((C01_errors existing inserted hs).1).2 (.inl h0)
    rw [h] at this
    simp at this
  have hine : inserted ≠ [] := by rintro rfl; simp [IsMax] at hhi
  obtain ⟨lo, hlo⟩ := Np.exists_isMin (axis_ne_nil hine)
  have hli : lo ≤ hi := hlo.2 _ hhi.1
  have hil : ∀ r ∈ inserted, lo ≤ r.1 ∧ r.1 ≤ hi := fun r hr =>
    ⟨hlo.2 _ (mem_axis hr), hhi.2 _ (mem_axis hr)⟩
  have hm := (C01_partial existing inserted lo hi hs hne hlo hhi).2 (.inl hend)
  rw [h] at hm
  cases hm
  have hms := C02_sorted _ _ _ he hi' h
  have hmne : merged existing inserted lo hi ≠ [] := by
    simp [merged, hine]
  have := (C01_partial (merged existing inserted lo hi) inserted lo hi
    (hms.imp fun h => by omega) hmne hlo hhi).2 (.inl ?_)
  · rw [this]
    congr 1
    have e1 : inserted.filter (fun r => decide (r.1 < lo)) = [] :=
      filter_eq_nil_of fun r hr => by
        have := hil r hr; simp only [decide_eq_false_iff_not]; omega
    have e2 : inserted.filter (fun r => decide (hi < r.1)) = [] :=
      filter_eq_nil_of fun r hr => by
        have := hil r hr; simp only [decide_eq_false_iff_not]; omega
    have e3 : ∀ r : Rec α, (decide (r.1 < lo) && decide (hi < r.1)) = false := by
      intro r
      by_cases hr : r.1 < lo
      · have : ¬ hi < r.1 := by omega
        simp [this]
      · simp [hr]
    have e4 : ∀ r : Rec α, (decide (hi < r.1) && decide (r.1 < lo)) = false := by
      intro r
      rw [Bool.and_comm]
      exact e3 r
    have e5 : existing.filter (fun _ => false) = [] := by simp
    simp only [merged, List.filter_append, List.filter_filter, Bool.and_self, e1, e2, e3, e4,
      e5, List.append_nil, List.nil_append]
  · intro r hr
    simp only [merged, List.mem_append, List.mem_filter, decide_eq_true_eq] at hr
    rcases hr with (hr | hr) | hr
    · exact hend r hr.1
    · have := hil r hr; omega
    · exact hend r hr.1

example : StrictSorted [(1, "a"), (9, "b")] ∧ StrictSorted [(5, "c")] ∧
    IsMax 5 ([(5, "c")].map (·.1)) ∧ (∀ r ∈ [(1, "a"), (9, "b")], r.1 ≠ 5 + 1) ∧
    mergeTimeSeries [(1, "a"), (9, "b")] [(5, "c")] none
      = .ok [(1, "a"), (5, "c"), (9, "b")] := by
  refine ⟨by simp [StrictSorted], by simp [StrictSorted], by simp [IsMax], by simp, by decide⟩

/-! ### C05: merging with a gap tolerance -/

/-- C05, full statement: with a tolerance, the merged dataset is strictly increasing and
holds the inserted records and exactly the existing records not covered by them. -/
def C05_full (α : Type) : Prop :=
  ∀ (existing inserted : List (Rec α)) (tol : Int), StrictSorted existing →
    StrictSorted inserted → existing ≠ [] → inserted ≠ [] → 0 ≤ tol →
    ∃ m, mergeTimeSeries existing inserted (some tol) = .ok m ∧ StrictSorted m ∧
      ∀ r, r ∈ m ↔ r ∈ inserted ∨ (r ∈ existing ∧ ¬ Covered tol (inserted.map (·.1)) r.1)

/-- C05 is violated by the code, for the same reason as C01. -/
theorem C05_counterexample : ¬ C05_full Nat := by
  intro h
  obtain ⟨m, h1, -, h3⟩ := h [(0, 0), (6, 1), (20, 2)] [(5, 3), (30, 4)] 3
    (by simp [StrictSorted]) (by simp [StrictSorted]) (by simp) (by simp) (by omega)
  have h2 : mergeTimeSeries [(0, 0), (6, 1), (20, 2)] [(5, 3), (30, 4)] (some 3)
      = .ok [(0, 0), (5, 3), (20, 2), (30, 4)] := by decide
  rw [h2] at h1
  cases h1
  have := (h3 (6, 1)).2 (.inr ⟨by simp, ?_⟩)
  · revert this
    decide
  · simp only [List.map_cons, List.map_nil]
    rintro (h | ⟨pre, a, b, post, h, ha, hb, hab⟩)
    · simp at h
    · match pre, h with
      | [], h => simp at h; omega
      | [_], h => simp at h
      | _ :: _ :: pre, h => simp at h

/-- C05: the full statement holds if no existing record lies exactly one tick after the end
of a piece of the inserted data.  Missing for C05: the excluded case. -/
theorem C05_partial (existing inserted : List (Rec α)) (tol : Int)
    (he : StrictSorted existing) (hi : StrictSorted inserted) (hne : existing ≠ [])
    (hine : inserted ≠ []) (htol : 0 ≤ tol)
    (hend : ∀ r ∈ existing, ∀ a, PieceEnd tol (inserted.map (·.1)) a → r.1 ≠ a + 1) :
    ∃ m, mergeTimeSeries existing inserted (some tol) = .ok m ∧ StrictSorted m ∧
      ∀ r, r ∈ m ↔ r ∈ inserted ∨ (r ∈ existing ∧ ¬ Covered tol (inserted.map (·.1)) r.1) := by
  have hfl : (Np.groups (marked tol inserted)).flatten = inserted := by
    rw [Np.groups_flatten]
    cases inserted with
    | nil => exact absurd rfl hine
    | cons x l =>
      simp only [marked]
      rw [List.map_snd_zip]
      simp [axis, diff_length]
  simp only [mergeTimeSeries, mergePieces_eq]
  rw [(gapIndex_slices tol htol inserted hine).1]
  obtain ⟨m, h1, h2, h3⟩ := mergeAll_spec (Np.groups (marked tol inserted)) existing he hne
    (by rw [hfl]; exact hi) (Np.groups_nonempty _)
    (fun g hg h hh r hr => hend r hr h (groups_ends tol inserted hi g hg h hh))
  refine ⟨m, h1, h2, ?_⟩
  intro r
  rw [h3, hfl]
  have := spans_covered tol inserted hi r.1
  have heq : (∀ g ∈ Np.groups (marked tol inserted), ¬ Span g r.1) ↔
      ¬ Covered tol (inserted.map (·.1)) r.1 := by
    show _ ↔ ¬ Covered tol (axis inserted) r.1
    rw [← this]
    constructor
    · rintro h ⟨g, hg, hs⟩
      exact h g hg hs
    · intro h g hg hs
      exact h ⟨g, hg, hs⟩
  rw [heq]

/-- C05, error branch: a negative tolerance makes the merge fail. -/
theorem C05_negative_tolerance (existing inserted : List (Rec α)) (tol : Int) (htol : tol < 0)
    (hne : existing ≠ []) :
    mergeTimeSeries existing inserted (some tol) = .error .valueError := by
  obtain ⟨elo, helo⟩ := Np.exists_isMin (axis_ne_nil hne)
  obtain ⟨ehi, hehi⟩ := Np.exists_isMax (axis_ne_nil hne)
  simp [mergeTimeSeries, gapIndex, htol, Np.where, Np.whereFrom, Np.pairs, mergePieces,
    iselSlice, Np.slice, mergeOne, Np.amin_ok.2 helo, Np.amax_ok.2 hehi, bind, Except.bind]
  rfl

example : StrictSorted [(0, "a"), (7, "b"), (20, "c")] ∧ StrictSorted [(5, "d"), (30, "e")] ∧
    (∀ r ∈ [(0, "a"), (7, "b"), (20, "c")], ∀ a, PieceEnd 3 ([(5, "d"), (30, "e")].map (·.1)) a →
      r.1 ≠ a + 1) ∧
    mergeTimeSeries [(0, "a"), (7, "b"), (20, "c")] [(5, "d"), (30, "e")] (some 3)
      = .ok [(0, "a"), (5, "d"), (7, "b"), (20, "c"), (30, "e")] := by
  refine ⟨by simp [StrictSorted], by simp [StrictSorted], ?_, by decide⟩
  rintro r hr a ⟨pre, post, h, -⟩
  have ha : a ∈ [(5, "d"), (30, "e")].map (·.1) := by rw [h]; simp
  simp only [List.map_cons, List.map_nil, List.mem_cons, List.not_mem_nil, or_false] at ha hr
  rcases ha with rfl | rfl <;> rcases hr with rfl | rfl | rfl <;> decide

end Verif
