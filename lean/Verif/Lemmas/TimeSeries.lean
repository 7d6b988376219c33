import Verif.Lemmas.Numpy
import Verif.Model.TimeSeries
import Verif.Props.Period

/-! Lemmas on the merge of time series. -/

namespace Verif.TS

open Spec

variable {α : Type}

theorem filter_eq_nil_of {l : List (Rec α)} {f : Rec α → Bool} (h : ∀ r ∈ l, f r = false) :
    l.filter f = [] := by
  rw [List.filter_eq_nil_iff]
  intro r hr
  simp [h r hr]

theorem filter_eq_self_of {l : List (Rec α)} {f : Rec α → Bool} (h : ∀ r ∈ l, f r = true) :
    l.filter f = l := by
  rw [List.filter_eq_self]
  exact h

theorem mem_axis {l : List (Rec α)} {r : Rec α} (h : r ∈ l) : r.1 ∈ axis l :=
  List.mem_map_of_mem h

theorem iselIdx_where (l : List (Rec α)) (f : Int → Bool) :
    iselIdx l (Np.where ((axis l).map f)) = l.filter (fun r => f r.1) := by
  have := Np.takeIdx_where l (fun r => f r.1)
  simpa [iselIdx, axis, List.map_map, Function.comp_def] using this

/-- In a sorted dataset the leading slice found by `where(axis < b)` is the filter. -/
theorem slice_before (l : List (Rec α)) (b : Int) (hs : Sorted l)
    (hne : l.filter (fun r => r.1 < b) ≠ []) :
    ∃ n, Np.last (Np.where ((axis l).map fun t => decide (t < b))) = .ok n ∧
      iselSlice l 0 (n + 1) = l.filter (fun r => r.1 < b) := by
  have hsplit := Np.split_of_pairwise l (fun r => decide (r.1 < b))
    (hs.imp fun {a c} h => by simp only [decide_eq_true_eq]; omega)
  generalize hA : l.filter (fun r => decide (r.1 < b)) = A at hsplit hne
  generalize hB : l.filter (fun r => !decide (r.1 < b)) = B at hsplit
  have hA' : ∀ r ∈ A, decide (r.1 < b) = true := by
    intro r hr; rw [← hA] at hr; exact (List.mem_filter.1 hr).2
  have hB' : ∀ r ∈ B, decide (r.1 < b) = false := by
    intro r hr; rw [← hB] at hr; simpa using (List.mem_filter.1 hr).2
  have hw := Np.where_prefix A B (fun r => decide (r.1 < b)) hA' hB'
  have hw' : Np.where ((axis l).map fun t => decide (t < b)) = List.range' 0 A.length := by
    rw [← hw, ← hsplit]
    simp [axis, List.map_map, Function.comp_def]
  cases A with
  | nil => exact absurd rfl hne
  | cons a A =>
    refine ⟨A.length, ?_, ?_⟩
    · rw [hw', List.length_cons, Np.last_range']
      simp
    · rw [hsplit]
      simp [iselSlice, Np.slice]

/-- In a sorted dataset the trailing slice found by `where(axis > b)` is the filter. -/
theorem slice_after (l : List (Rec α)) (b : Int) (hs : Sorted l)
    (hne : l.filter (fun r => b < r.1) ≠ []) :
    ∃ m n, Np.first (Np.where ((axis l).map fun t => decide (t > b))) = .ok m ∧
      Np.last (Np.where ((axis l).map fun t => decide (t > b))) = .ok n ∧
      iselSlice l m (n + 1) = l.filter (fun r => b < r.1) := by
  have hsplit := Np.split_of_pairwise l (fun r => decide (r.1 ≤ b))
    (hs.imp fun {a c} h => by simp only [decide_eq_true_eq]; omega)
  have hflip : (fun r : Rec α => !decide (r.1 ≤ b)) = (fun r => decide (b < r.1)) := by
    funext r
    by_cases h : r.1 ≤ b
    · have : ¬ b < r.1 := by omega
      simp [h, this]
    · have : b < r.1 := by omega
      simp [h, this]
  rw [hflip] at hsplit
  generalize hB : l.filter (fun r => decide (b < r.1)) = B at hsplit hne
  generalize hA : l.filter (fun r => decide (r.1 ≤ b)) = A at hsplit
  have hA' : ∀ r ∈ A, decide (r.1 > b) = false := by
    intro r hr; rw [← hA] at hr
    have := (List.mem_filter.1 hr).2
    simp only [decide_eq_true_eq] at this
    simp only [decide_eq_false_iff_not]; omega
  have hB' : ∀ r ∈ B, decide (r.1 > b) = true := by
    intro r hr; rw [← hB] at hr; exact (List.mem_filter.1 hr).2
  have hw := Np.where_suffix A B (fun r => decide (r.1 > b)) hA' hB'
  have hw' : Np.where ((axis l).map fun t => decide (t > b)) = List.range' A.length B.length := by
    rw [← hw, ← hsplit]
    simp [axis, List.map_map, Function.comp_def]
  cases B with
  | nil => exact absurd rfl hne
  | cons a B =>
    refine ⟨A.length, A.length + B.length, ?_, ?_, ?_⟩
    · rw [hw', List.length_cons, Np.first_range']
    · rw [hw', List.length_cons, Np.last_range']
    · rw [hsplit, iselSlice, Np.slice, List.take_of_length_le (by simp; omega)]
      simp

theorem where_nil_of_filter_nil (l : List (Rec α)) (f : Int → Bool)
    (h : l.filter (fun r => f r.1) = []) : Np.where ((axis l).map f) = [] := by
  apply Np.whereFrom_all_false
  intro b hb
  simp only [axis, List.map_map, List.mem_map, Function.comp_apply] at hb
  obtain ⟨r, hr, rfl⟩ := hb
  rw [List.filter_eq_nil_iff] at h
  simpa using h r hr

/-- Complete description of `_merge_time_series` on a sorted existing dataset. -/
theorem mergeOne_char (e i : List (Rec α)) (hs : Sorted e) (lo hi elo ehi : Int)
    (hlo : IsMin lo (axis i)) (hhi : IsMax hi (axis i))
    (helo : IsMin elo (axis e)) (hehi : IsMax ehi (axis e)) :
    mergeOne e i =
      if hi < elo then .ok (i ++ e)
      else if elo < lo ∧ hi < ehi ∧ e.filter (fun r => hi + 1 < r.1) = [] then
        .error .indexError
      else .ok (e.filter (fun r => r.1 < lo) ++ i ++ e.filter (fun r => hi + 1 < r.1)) := by
  have hli : lo ≤ hi := hlo.2 _ hhi.1
  have hle : elo ≤ ehi := helo.2 _ hehi.1
  have hmin : ∀ r ∈ e, elo ≤ r.1 := fun r hr => helo.2 _ (mem_axis hr)
  have hmax : ∀ r ∈ e, r.1 ≤ ehi := fun r hr => hehi.2 _ (mem_axis hr)
  obtain ⟨r, hr⟩ := C06_relation_total (.mk' ⟨lo, 1⟩ ⟨hi, 1⟩ true) (.mk' ⟨elo, 1⟩ ⟨ehi, 1⟩ true)
  have hrel := (C06_relation_correct (.mk' ⟨lo, 1⟩ ⟨hi, 1⟩ true) (.mk' ⟨elo, 1⟩ ⟨ehi, 1⟩ true)
    hli hle r).1 hr
  have fltlo : (∀ r ∈ e, lo ≤ r.1) → e.filter (fun r => decide (r.1 < lo)) = [] := fun h =>
    filter_eq_nil_of fun r hr => by have := h r hr; simp only [decide_eq_false_iff_not]; omega
  have flthi : (∀ r ∈ e, r.1 ≤ hi + 1) → e.filter (fun r => decide (hi + 1 < r.1)) = [] := fun h =>
    filter_eq_nil_of fun r hr => by have := h r hr; simp only [decide_eq_false_iff_not]; omega
  simp only [mergeOne, Np.amin_ok.2 hlo, Np.amax_ok.2 hhi, Np.amin_ok.2 helo, Np.amax_ok.2 hehi,
    bind, Except.bind, hr, pure, Except.pure]
  cases r <;> simp only [RelHolds, Period.mk', if_true] at hrel <;>
    simp only [Rel.isBefore, Rel.isAfter, Rel.contains, Rel.isBeforeOverlapping,
      Rel.isAfterOverlapping, Rel.isInside, reduceCtorEq, List.mem_cons, List.not_mem_nil,
      decide_false, decide_true, or_true, or_false, Bool.false_eq_true, if_true, if_false,
      Bool.not_true, Bool.not_false, iselIdx_where, or_self]
  case before => simp [hrel]
  case after =>
    have h1 : ¬ hi < elo := by omega
    have h2 : ¬ hi < ehi := by omega
    simp only [h1, h2, if_false, false_and, and_false]
    rw [flthi fun r hr => by have := hmax r hr; omega,
      filter_eq_self_of fun r hr => by have := hmax r hr; simp only [decide_eq_true_eq]; omega]
    simp
  case inside =>
    have h1 : ¬ hi < elo := by omega
    have hb : (Period.intersection (.mk' ⟨lo, 1⟩ ⟨hi, 1⟩ true) (.mk' ⟨elo, 1⟩ ⟨ehi, 1⟩ true)).begin.t
        = lo := by
      simp only [Period.intersection, Period.mk', Period.end]
      (repeat' split) <;> simp_all <;> omega
    have he : (Period.intersection (.mk' ⟨lo, 1⟩ ⟨hi, 1⟩ true)
        (.mk' ⟨elo, 1⟩ ⟨ehi, 1⟩ true)).end.t = hi + 1 := by
      simp only [Period.intersection, Period.mk', Period.end]
      (repeat' split) <;> simp_all <;> omega
    rw [hb, he]
    have hne : e.filter (fun r => decide (r.1 < lo)) ≠ [] := by
      obtain ⟨r, hr, hr'⟩ := List.mem_map.1 helo.1
      intro h
      have hmem : r ∈ e.filter (fun r => decide (r.1 < lo)) :=
        List.mem_filter.2 ⟨hr, by simp only [decide_eq_true_eq]; omega⟩
      rw [h] at hmem
      simp at hmem
    obtain ⟨n, hn, hns⟩ := slice_before e lo hs hne
    rw [hn]
    simp only [hns, h1, if_false, hrel.1, hrel.2, true_and]
    by_cases hnil : e.filter (fun r => decide (hi + 1 < r.1)) = []
    · have : Np.where ((axis e).map fun t => decide (t > hi + 1)) = [] :=
        where_nil_of_filter_nil e (fun t => decide (t > hi + 1)) hnil
      rw [this]
      simp [hnil, Np.first]
    · obtain ⟨m, n', hm, hn', hsl⟩ := slice_after e (hi + 1) hs hnil
      rw [hm, hn']
      simp only [hnil, hsl, if_false]
      simp
  all_goals
    have h1 : ¬ hi < elo := by omega
    have h2 : ¬ (elo < lo ∧ hi < ehi) := by omega
    have h3 : ¬ (elo < lo ∧ hi < ehi ∧ e.filter (fun r => decide (hi + 1 < r.1)) = []) :=
      fun h => h2 ⟨h.1, h.2.1⟩
    simp only [h1, h3, if_false]
  case startTouching | startInside | insideEndTouching =>
    have hb : (Period.intersection (.mk' ⟨lo, 1⟩ ⟨hi, 1⟩ true) (.mk' ⟨elo, 1⟩ ⟨ehi, 1⟩ true)).begin.t
        = lo := by
      simp only [Period.intersection, Period.mk', Period.end]
      (repeat' split) <;> simp_all <;> omega
    rw [hb, flthi fun r hr => by have := hmax r hr; omega]
    simp
  case endTouching | endInside | insideStartTouching =>
    have he : (Period.intersection (.mk' ⟨lo, 1⟩ ⟨hi, 1⟩ true)
        (.mk' ⟨elo, 1⟩ ⟨ehi, 1⟩ true)).end.t = hi + 1 := by
      simp only [Period.intersection, Period.mk', Period.end]
      (repeat' split) <;> simp_all <;> omega
    rw [he, fltlo fun r hr => by have := hmin r hr; omega]
    simp
  all_goals
    rw [fltlo fun r hr => by have := hmin r hr; omega,
      flthi fun r hr => by have := hmax r hr; omega]
    simp

end Verif.TS
