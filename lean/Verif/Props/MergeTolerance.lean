import Verif.Props.TimeSeries
import Verif.Spec.TimeLine

/-! C02, C03 and C05: the result of `merge_time_series`, whatever the tolerance. -/

namespace Verif

open Spec TS

variable {α : Type}

/-- One merge that returns. -/
theorem mergeOne_any (e g m : List (Rec α)) (he : StrictSorted e) (hg : StrictSorted g)
    (h : mergeOne e g = .ok m) :
    g ≠ [] ∧ StrictSorted m ∧ (∀ r ∈ g, r ∈ m) ∧
      (∀ r ∈ m, r ∈ g ∨ (r ∈ e ∧ ¬ Span g r.1)) ∧
      ∀ r ∈ e, ¬ Span g r.1 → (∀ hi, IsMax hi (axis g) → r.1 ≠ hi + 1) → r ∈ m := by
  have hs : Sorted e := he.imp fun h => by omega
  have herr := (C01_errors e g hs).1
  have hm : mergeTimeSeries e g none = .ok m := h
  have hne : e ≠ [] := fun h0 => by
    have := herr.2 (.inl h0)
    rw [hm] at this
    cases this
  have hgne : g ≠ [] := fun h0 => by
    have := herr.2 (.inr h0)
    rw [hm] at this
    cases this
  obtain ⟨lo, hlo⟩ := Np.exists_isMin (axis_ne_nil hgne)
  obtain ⟨hi, hhi⟩ := Np.exists_isMax (axis_ne_nil hgne)
  obtain ⟨elo, helo⟩ := Np.exists_isMin (axis_ne_nil hne)
  obtain ⟨ehi, hehi⟩ := Np.exists_isMax (axis_ne_nil hne)
  have hspan : ∀ t, Span g t ↔ lo ≤ t ∧ t ≤ hi := by
    intro t
    constructor
    · rintro ⟨⟨a, ha, hat⟩, ⟨b, hb, hbt⟩⟩
      have := hlo.2 _ (mem_axis ha)
      have := hhi.2 _ (mem_axis hb)
      omega
    · rintro ⟨h1, h2⟩
      obtain ⟨a, ha, rfl⟩ := List.mem_map.1 hlo.1
      obtain ⟨b, hb, rfl⟩ := List.mem_map.1 hhi.1
      exact ⟨⟨a, ha, h1⟩, ⟨b, hb, h2⟩⟩
  have hel : ∀ r ∈ e, elo ≤ r.1 := fun r hr => helo.2 _ (mem_axis hr)
  refine ⟨hgne, C02_sorted e g m he hg hm, ?_⟩
  rw [mergeOne_char e g hs lo hi elo ehi hlo hhi helo hehi] at h
  split at h
  · next hb =>
    cases h
    refine ⟨fun r hr => List.mem_append.2 (.inl hr), ?_, fun r hr _ _ => List.mem_append.2 (.inr hr)⟩
    intro r hr
    rcases List.mem_append.1 hr with hr | hr
    · exact .inl hr
    · refine .inr ⟨hr, ?_⟩
      rw [hspan]
      have := hel r hr
      omega
  · split at h
    · cases h
    · cases h
      refine ⟨fun r hr => by simp [hr], ?_, ?_⟩
      · intro r hr
        simp only [List.mem_append, List.mem_filter, decide_eq_true_eq] at hr
        rw [hspan]
        rcases hr with (hr | hr) | hr
        · exact .inr ⟨hr.1, by omega⟩
        · exact .inl hr
        · have := hlo.2 _ hhi.1
          exact .inr ⟨hr.1, by omega⟩
      · intro r hr hns hend
        rw [hspan] at hns
        have := hend hi hhi
        simp only [List.mem_append, List.mem_filter, decide_eq_true_eq]
        by_cases hlt : r.1 < lo
        · exact .inl (.inl ⟨hr, hlt⟩)
        · exact .inr ⟨hr, by omega⟩

/-- Merges of pieces that return. -/
theorem mergeAll_any (gs : List (List (Rec α))) (e m : List (Rec α)) (he : StrictSorted e)
    (hgs : StrictSorted gs.flatten) (h : mergeAll gs e = .ok m) :
    StrictSorted m ∧ (∀ r ∈ gs.flatten, r ∈ m) ∧
      (∀ r ∈ m, r ∈ gs.flatten ∨ (r ∈ e ∧ ∀ g ∈ gs, ¬ Span g r.1)) ∧
      ∀ r ∈ e, (∀ g ∈ gs, ¬ Span g r.1) →
        (∀ g ∈ gs, ∀ hi, IsMax hi (axis g) → r.1 ≠ hi + 1) → r ∈ m := by
  induction gs generalizing e with
  | nil =>
    cases h
    exact ⟨he, by simp, fun r hr => .inr ⟨hr, by simp⟩, fun r hr _ _ => hr⟩
  | cons g gs ih =>
    rw [List.flatten_cons] at hgs
    obtain ⟨hg, hrest, hcross⟩ := List.pairwise_append.1 hgs
    simp only [mergeAll, bind, Except.bind] at h
    cases hm : mergeOne e g with
    | error err => rw [hm] at h; cases h
    | ok m1 =>
      rw [hm] at h
      obtain ⟨_, a1, a2, a3, a4⟩ := mergeOne_any e g m1 he hg hm
      obtain ⟨b1, b2, b3, b4⟩ := ih m1 a1 hrest h
      refine ⟨b1, ?_, ?_, ?_⟩
      · intro r hr
        rw [List.flatten_cons, List.mem_append] at hr
        rcases hr with hr | hr
        · refine b4 r (a2 r hr) ?_ ?_
          · rintro g' hg' ⟨⟨a, ha, hat⟩, -⟩
            have := hcross r hr a (List.mem_flatten.2 ⟨g', hg', ha⟩)
            omega
          · intro g' hg' hi hhi
            obtain ⟨b, hb, hbh⟩ := List.mem_map.1 hhi.1
            have := hcross r hr b (List.mem_flatten.2 ⟨g', hg', hb⟩)
            omega
        · exact b2 r hr
      · intro r hr
        rw [List.flatten_cons, List.mem_append]
        rcases b3 r hr with hr | ⟨hr, hn⟩
        · exact .inl (.inr hr)
        · rcases a3 r hr with hr | ⟨hr, hn'⟩
          · exact .inl (.inl hr)
          · refine .inr ⟨hr, ?_⟩
            intro g' hg'
            rcases List.mem_cons.1 hg' with rfl | hg'
            · exact hn'
            · exact hn g' hg'
      · intro r hr hn hend
        exact b4 r (a4 r hr (hn g (by simp)) (hend g (by simp)))
          (fun g' hg' => hn g' (by simp [hg'])) fun g' hg' => hend g' (by simp [hg'])

/-- C02, C03 and C05 together, whatever the tolerance: a merge of strictly increasing records that
returns gives strictly increasing records; they are all the inserted ones and existing ones that the
inserted times do not replace; all of these, but possibly those exactly one tick after the end of a
piece (C01, C05). -/
theorem C05_outcome (existing inserted m : List (Rec α)) (tol : Option Int)
    (he : StrictSorted existing) (hi : StrictSorted inserted)
    (h : mergeTimeSeries existing inserted tol = .ok m) :
    StrictSorted m ∧ (∀ r ∈ inserted, r ∈ m) ∧
      (∀ r ∈ m, r ∈ inserted ∨ (r ∈ existing ∧ ¬ Hidden tol (inserted.map (·.1)) r.1)) ∧
      ∀ r ∈ existing, ¬ Hidden tol (inserted.map (·.1)) r.1 →
        (∀ a, EndOf tol (inserted.map (·.1)) a → r.1 ≠ a + 1) → r ∈ m := by
  cases tol with
  | none =>
    obtain ⟨_, h1, h2, h3, h4⟩ := mergeOne_any existing inserted m he hi h
    have hsp : ∀ t, Span inserted t ↔ Hidden none (inserted.map (·.1)) t := by
      intro t
      simp only [Span, Hidden, List.mem_map]
      constructor
      · rintro ⟨⟨a, ha, h1⟩, ⟨b, hb, h2⟩⟩
        exact ⟨⟨_, ⟨a, ha, rfl⟩, h1⟩, ⟨_, ⟨b, hb, rfl⟩, h2⟩⟩
      · rintro ⟨⟨_, ⟨a, ha, rfl⟩, h1⟩, ⟨_, ⟨b, hb, rfl⟩, h2⟩⟩
        exact ⟨⟨a, ha, h1⟩, ⟨b, hb, h2⟩⟩
    simp only [hsp] at h3 h4
    exact ⟨h1, h2, h3, h4⟩
  | some tol =>
    have hne : existing ≠ [] := by
      rintro rfl
      simp only [mergeTimeSeries] at h
      have : ∃ p ps, Np.pairs (gapIndex tol inserted) = p :: ps := by
        unfold gapIndex
        simp only [List.cons_append]
        generalize Np.where _ = l
        cases l <;> exact ⟨_, _, rfl⟩
      obtain ⟨p, ps, hp⟩ := this
      rw [hp] at h
      simp [mergePieces, mergeOne, axis, Np.amin, bind, Except.bind] at h
    have htol : 0 ≤ tol := by
      refine Classical.byContradiction fun hc => ?_
      rw [C05_negative_tolerance existing inserted tol (by omega) hne] at h
      cases h
    have hine : inserted ≠ [] := by
      rintro rfl
      have h0 : ¬ (0 > tol) := by omega
      simp [mergeTimeSeries, gapIndex, axis, Np.diff, h0, Np.where, Np.whereFrom, Np.pairs,
        mergePieces, bind, Except.bind, iselSlice, Np.slice] at h
      have hs : Sorted existing := he.imp fun h => by omega
      have := (C01_errors existing [] hs).1.2 (.inr rfl)
      simp only [mergeTimeSeries] at this
      rw [this] at h
      cases h
    have hfl : (Np.groups (marked tol inserted)).flatten = inserted := by
      rw [Np.groups_flatten]
      cases inserted with
      | nil => exact absurd rfl hine
      | cons x l =>
        simp only [marked]
        rw [List.map_snd_zip]
        simp [axis, diff_length]
    simp only [mergeTimeSeries, mergePieces_eq] at h
    rw [(gapIndex_slices tol htol inserted hine).1] at h
    obtain ⟨h1, h2, h3, h4⟩ := mergeAll_any _ existing m he (by rw [hfl]; exact hi) h
    rw [hfl] at h2 h3
    have heq : ∀ t, (∀ g ∈ Np.groups (marked tol inserted), ¬ Span g t) ↔
        ¬ Hidden (some tol) (inserted.map (·.1)) t := by
      intro t
      show _ ↔ ¬ Covered tol (axis inserted) t
      rw [← spans_covered tol inserted hi t]
      exact ⟨fun h ⟨g, hg, hs⟩ => h g hg hs, fun h g hg hs => h ⟨g, hg, hs⟩⟩
    refine ⟨h1, h2, fun r hr => ?_, fun r hr hn hend => h4 r hr ((heq _).2 hn) ?_⟩
    · rcases h3 r hr with h | ⟨h, h'⟩
      · exact .inl h
      · exact .inr ⟨h, (heq _).1 h'⟩
    · exact fun g hg a ha => hend a (groups_ends tol inserted hi g hg a ha)

/-- The hypotheses of `C05_outcome` are met; the record at 6, one tick after the piece at 5, is
lost, the one at 7 is kept. -/
example : StrictSorted [(0, "a"), (6, "b"), (7, "c")] ∧ StrictSorted [(5, "d"), (30, "e")] ∧
    mergeTimeSeries [(0, "a"), (6, "b"), (7, "c")] [(5, "d"), (30, "e")] (some 3) =
      .ok [(0, "a"), (5, "d"), (7, "c"), (30, "e")] :=
  ⟨by simp [StrictSorted], by simp [StrictSorted], by decide⟩

end Verif
