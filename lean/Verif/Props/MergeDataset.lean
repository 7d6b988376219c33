import Verif.Lemmas.MergeDataset
import Verif.Lemmas.MergeSchema
import Verif.Props.TimeSeries
import Verif.Props.Pipeline

/-! C01-C05, C22 and C30: `merge_time_series` on datasets, and as the callback of an
insertion.  The records of a dataset hold the values of all its variables. -/

namespace Verif

open Spec Nd Ds TSD

variable {V : Type} {x : Axis V} {sig : Signature V} {size : String → Nat} {b : Bool}
  {existing inserted : Dataset V} {le li : List (Int × Content V)}

/-- The merge of two datasets has the outcome of the merge of their records. -/
theorem merge_ok (he : Series x sig size b existing le) (hi : Series x sig size b inserted li)
    (tol : Option Int) (m : List (Int × Content V)) :
    TS.mergeTimeSeries le li tol = .ok m ↔
      ∃ r, TSD.mergeTimeSeries x tol existing inserted = .ok r ∧ Series x sig size b r m := by
  have h := follows_merge he hi tol
  unfold Follows at h
  cases hm : TS.mergeTimeSeries le li tol with
  | error e =>
    rw [hm] at h
    simp only at h
    rw [h]
    simp
  | ok l =>
    rw [hm] at h
    obtain ⟨r, h1, h2⟩ := h
    constructor
    · intro he'
      cases he'
      exact ⟨r, h1, h2⟩
    · rintro ⟨r', h3, h4⟩
      rw [h1] at h3
      cases h3
      rw [holds_unique h2.toHoldsRecords h4.toHoldsRecords]

theorem merge_error (he : Series x sig size b existing le)
    (hi : Series x sig size b inserted li) (tol : Option Int) (e : PyErr) :
    TSD.mergeTimeSeries x tol existing inserted = .error e ↔
      TS.mergeTimeSeries le li tol = .error e := by
  have h := follows_merge he hi tol
  unfold Follows at h
  cases hm : TS.mergeTimeSeries le li tol with
  | error e' =>
    rw [hm] at h
    rw [show TSD.mergeTimeSeries x tol existing inserted = _ from h]
    simp
  | ok l =>
    rw [hm] at h
    obtain ⟨r, h1, _⟩ := h
    rw [h1]
    simp

/-- C01 for datasets: on sorted existing data the merge gives a dataset with the existing
records before the inserted ones, the inserted records and the existing records after them, for
all variables, if and only if no existing record lies exactly one tick after the inserted data,
or all existing records lie after the inserted data.  Missing for C01: the excluded case. -/
theorem C01_dataset_partial (he : Series x sig size b existing le)
    (hi : Series x sig size b inserted li) (lo hi' : Int) (hs : Sorted le) (hne : le ≠ [])
    (hlo : IsMin lo (li.map (·.1))) (hhi : IsMax hi' (li.map (·.1))) :
    (∃ r, TSD.mergeTimeSeries x none existing inserted = .ok r ∧
      Series x sig size b r (merged le li lo hi')) ↔
      ((∀ r ∈ le, r.1 ≠ hi' + 1) ∨ (∀ r ∈ le, hi' < r.1)) :=
  (merge_ok he hi none _).symm.trans (C01_partial le li lo hi' hs hne hlo hhi)

/-- C01 for datasets: the errors. -/
theorem C01_dataset_errors (he : Series x sig size b existing le)
    (hi : Series x sig size b inserted li) (hs : Sorted le) :
    (TSD.mergeTimeSeries x none existing inserted = .error .valueError ↔ le = [] ∨ li = []) ∧
    (∀ err, TSD.mergeTimeSeries x none existing inserted = .error err →
      err = .valueError ∨ err = .indexError) ∧
    (TSD.mergeTimeSeries x none existing inserted = .error .indexError ↔
      ∃ lo hi, IsMin lo (li.map (·.1)) ∧ IsMax hi (li.map (·.1)) ∧
        (∃ r ∈ le, r.1 < lo) ∧ (∃ r ∈ le, r.1 = hi + 1) ∧ ∀ r ∈ le, r.1 ≤ hi + 1) := by
  simp only [merge_error he hi]
  exact C01_errors le li hs

/-- C02 for datasets: the merge of strictly sorted datasets is strictly sorted. -/
theorem C02_dataset_sorted (he : Series x sig size b existing le)
    (hi : Series x sig size b inserted li) (hle : StrictSorted le) (hli : StrictSorted li)
    (r : Dataset V) (h : TSD.mergeTimeSeries x none existing inserted = .ok r) :
    ∃ m, Series x sig size b r m ∧ StrictSorted m := by
  have hf := follows_merge he hi none
  cases hm : TS.mergeTimeSeries le li none with
  | error e =>
    rw [hm] at hf
    rw [show TSD.mergeTimeSeries x none existing inserted = _ from hf] at h
    cases h
  | ok m =>
    rw [hm] at hf
    obtain ⟨r', h1, h2⟩ := hf
    rw [h1] at h
    cases h
    exact ⟨m, h2, C02_sorted le li m hle hli hm⟩

/-- C03 for datasets: the result holds all the inserted records together, between existing
records; nothing else. -/
theorem C03_dataset_content (he : Series x sig size b existing le)
    (hi : Series x sig size b inserted li) (r : Dataset V)
    (h : TSD.mergeTimeSeries x none existing inserted = .ok r) :
    ∃ before after, Series x sig size b r (before ++ li ++ after) ∧ before.Sublist le ∧
      after.Sublist le := by
  have hf := follows_merge he hi none
  cases hm : TS.mergeTimeSeries le li none with
  | error e =>
    rw [hm] at hf
    rw [show TSD.mergeTimeSeries x none existing inserted = _ from hf] at h
    cases h
  | ok m =>
    rw [hm] at hf
    obtain ⟨r', h1, h2⟩ := hf
    rw [h1] at h
    cases h
    obtain ⟨before, after, rfl, h3, h4⟩ := C03_content le li m hm
    exact ⟨before, after, h2, h3, h4⟩

/-- C04 for datasets: inserting the same dataset again gives the same records.  Missing for C04:
an existing record exactly one tick after the inserted data. -/
theorem C04_dataset_partial (he : Series x sig size b existing le)
    (hi : Series x sig size b inserted li) (hle : StrictSorted le) (hli : StrictSorted li)
    (hi' : Int) (hhi : IsMax hi' (li.map (·.1))) (hend : ∀ r ∈ le, r.1 ≠ hi' + 1)
    (r : Dataset V) (h : TSD.mergeTimeSeries x none existing inserted = .ok r) :
    ∃ m r', Series x sig size b r m ∧ TSD.mergeTimeSeries x none r inserted = .ok r' ∧
      Series x sig size b r' m := by
  have hf := follows_merge he hi none
  cases hm : TS.mergeTimeSeries le li none with
  | error e =>
    rw [hm] at hf
    rw [show TSD.mergeTimeSeries x none existing inserted = _ from hf] at h
    cases h
  | ok m =>
    rw [hm] at hf
    obtain ⟨r', h1, h2⟩ := hf
    rw [h1] at h
    cases h
    have := C04_partial le li m hle hli hi' hhi hend hm
    obtain ⟨r', h3, h4⟩ := (merge_ok h2 hi none m).1 this
    exact ⟨m, r', h2, h3, h4⟩

/-- C05 for datasets: with a tolerance, an existing record is kept if and only if the inserted
times do not cover it.  Missing for C05: an existing record exactly one tick after the end of a
piece. -/
theorem C05_dataset_partial (he : Series x sig size b existing le)
    (hi : Series x sig size b inserted li) (tol : Int) (hle : StrictSorted le)
    (hli : StrictSorted li) (hne : le ≠ []) (hine : li ≠ []) (htol : 0 ≤ tol)
    (hend : ∀ r ∈ le, ∀ a, PieceEnd tol (li.map (·.1)) a → r.1 ≠ a + 1) :
    ∃ r m, TSD.mergeTimeSeries x (some tol) existing inserted = .ok r ∧
      Series x sig size b r m ∧ StrictSorted m ∧
      ∀ rec, rec ∈ m ↔ rec ∈ li ∨ (rec ∈ le ∧ ¬ Covered tol (li.map (·.1)) rec.1) := by
  obtain ⟨m, h1, h2, h3⟩ := C05_partial le li tol hle hli hne hine htol hend
  obtain ⟨r, h4, h5⟩ := (merge_ok he hi (some tol) m).1 h1
  exact ⟨r, m, h4, h5, h2, h3⟩

/-- C05 for datasets: a negative tolerance is refused. -/
theorem C05_dataset_negative_tolerance (he : Series x sig size b existing le)
    (hi : Series x sig size b inserted li) (tol : Int) (htol : tol < 0) (hne : le ≠ []) :
    TSD.mergeTimeSeries x (some tol) existing inserted = .error .valueError :=
  (merge_error he hi _ _).2 (C05_negative_tolerance le li tol htol hne)

/-- C01: an axis with a value that is not a date (a missing value of the axis, or an axis of another
type) is refused: nothing is merged. -/
theorem C01_dataset_not_dates (x : Axis V) (tol : Option Int) (existing inserted : Dataset V)
    (v : Var V) (hv : Ds.getVarE inserted.vars x.axis = .ok v) (y : V)
    (hy : y ∈ Pipe.column v.array) (hn : x.asTime y = none)
    (he : tol = none → ∃ l, TSD.times x existing = .ok l) :
    TSD.mergeTimeSeries x tol existing inserted = .error .typeError := by
  have ht : TSD.times x inserted = .error .typeError := by
    have key : ∀ l : List V, y ∈ l → mapPy (TSD.timeOf x) l = .error .typeError := by
      intro l
      induction l with
      | nil => intro h; cases h
      | cons a t ih =>
        intro h
        simp only [mapPy, bind, Except.bind]
        cases ha : x.asTime a with
        | none => simp [TSD.timeOf, ha]
        | some i =>
          have : TSD.timeOf x a = .ok i := by simp [TSD.timeOf, ha]
          rw [this]
          dsimp only
          rcases List.mem_cons.1 h with rfl | h
          · rw [hn] at ha; cases ha
          · rw [ih h]
    simp only [TSD.times, hv, bind, Except.bind, key _ hy]
  unfold TSD.mergeTimeSeries
  cases tol with
  | some t => simp only [ht, bind, Except.bind]
  | none =>
    obtain ⟨l, hl⟩ := he rfl
    simp only [TSD.mergeOne, hl, ht, bind, Except.bind]

/-- C30: `merge_time_series` is a callback that keeps the collection in step with its metadata
(`C30_insert`, `C30_history_partial`). -/
theorem C30_merge_time_series (x : Axis V) (tol : Option Int) :
    KeepsSchema (TSD.mergeTimeSeries x tol) := mergeTimeSeries_keeps x tol

/-! ### The insertion with `merge_time_series` -/

/-- The stored variables, opened. -/
theorem openGroup_series {vars : List (Var V)} (h : HoldsRecords x sig size vars le) {a : Dataset V}
    (ho : Upd.openGroup b none vars = .ok a) : Series x sig size b a le := by
  obtain ⟨m1, m2, _, _, _, m6⟩ := mk_spec _ _ _ _ _ _ ho
  have hv : a.vars = vars.map fun v => { v with delayed := b } := by
    rw [m2]
    have := foldl_setVar_id ((vars.filter fun _ => true).map fun v =>
      { v with delayed := b }) [] (by
        simp only [List.nil_append, List.map_map, Function.comp_def]
        rw [List.filter_eq_self.2 fun _ _ => rfl]
        exact h.names)
    rw [List.filter_eq_self.2 fun _ _ => rfl] at this ⊢
    simpa using this
  exact ⟨by rw [hv]; exact holds_delayed h b, m1, m6 _ rfl⟩

/-- C22 with `merge_time_series`: the partitions of an insertion.  Let each stored partition
hold records, `recs k`, and the dataset hold the records `l`.  After an insertion that returns,
the partition of each key of the dataset holds the records of the dataset with this key if it
did not exist, and else the merge of its records with them (C01, C05), for all the variables.
Missing: as for `C22_dataset_partial`. -/
theorem C22_merge_partial (w : Sch.World (List Int) V) (o : Sch.Obj V) (sc : Pipe.Scheme V)
    (hsplit : w.split = Pipe.splitDataset sc) (hsc : GoodScheme sc)
    (haxis : o.imm = true → o.axis = o.dim) (hdims : ∀ m ∈ o.metas, m.dims.Nodup)
    (faults : Sch.Faults (List Int)) (validate : Bool) (np : Option Int)
    (x : Axis V) (hx : x.dim = o.dim) (tol : Option Int) (ds ds' : Dataset V)
    (hi : Insertable o ds) (hok : ∀ v ∈ ds.vars, ArrOk v.array)
    (fs fs' : Sch.Files (List Int) V) (hs : Aligned o fs) (ks : List (List Int))
    (h : Sch.insert w o faults validate np (some (TSD.mergeTimeSeries x tol)) ds fs =
      (ds', fs', .ok ks))
    (hsort : ds'.delayed = true ∨ KeysMonotone sc ds'.vars)
    (recs : List Int → List (Int × Content V)) (l : List (Int × Content V))
    (hold : ∀ k vars, fs.parts k = some vars → HoldsRecords x sig size vars (recs k))
    (hnew : HoldsRecords x sig size (ds'.vars.filter fun v => decide (o.dim ∈ v.dims)) l) :
    (∀ k ∉ ks, fs'.parts k = fs.parts k) ∧
    ∀ k ∈ ks, ∃ lo hi vars m, RecordsWithKey sc ds'.vars k lo hi ∧ hi ≤ l.length ∧
      fs'.parts k = some vars ∧ HoldsRecords x sig size vars m ∧
      (fs.parts k = none → m = (l.take hi).drop lo) ∧
      (fs.parts k ≠ none → TS.mergeTimeSeries (recs k) ((l.take hi).drop lo) tol = .ok m) := by
  rcases insert_core hsplit hsc haxis hdims hi hok hs h hsort with ⟨_, e, he⟩ |
    ⟨zds, pieces, n, c1, c2, c3, c4, c5, c6, c7, c8, c9, c10, c11, c12, c13, c14, c15, c16⟩
  · cases he
  · obtain ⟨rfl, heff⟩ := c16 ks rfl
    obtain ⟨r1, r2⟩ := core_records c1 c2 c4 c9 c8 c10 c11 c12
    refine ⟨c13, ?_⟩
    intro k hk
    obtain ⟨p, hp, rfl⟩ := List.mem_map.1 hk
    rw [← c4] at hnew
    have hz : Series x sig size zds.delayed zds l := ⟨hnew, c5, rfl⟩
    have hlen : n = l.length := by
      have := series_dim hz
      rw [hx, c7] at this
      exact Option.some.inj this
    have hpb : p.2.1 ≤ p.2.2 ∧ p.2.2 ≤ l.length := by
      have : ∀ (l : List (Nat × Nat)) (a : Nat), Chain a n l → ∀ r ∈ l,
          r.1 ≤ r.2 ∧ r.2 ≤ n ∧ a ≤ n := by
        intro l
        induction l with
        | nil => simp
        | cons r l ih =>
          intro a ha r' hr'
          obtain ⟨h0, h1, h2⟩ := ha
          have hle : r.2 ≤ n := by
            cases l with
            | nil => exact Nat.le_of_eq h2
            | cons q t => exact (ih _ h2 q (by simp)).2.2
          rcases List.mem_cons.1 hr' with rfl | hr'
          · exact ⟨by omega, hle, by omega⟩
          · have := ih _ h2 r' hr'
            exact ⟨this.1, this.2.1, by omega⟩
      have := this _ 0 c10 p.2 (List.mem_map_of_mem hp)
      omega
    have hpiece : HoldsRecords x sig size (zds.vars.map (pieceVar o.dim p.2))
        ((l.take p.2.2).drop p.2.1) := by
      have := holds_piece hnew p.2.1 p.2.2 hpb.1 hpb.2
      rw [hx] at this
      exact this
    have he := heff p hp
    cases hold' : fs.parts p.1 with
    | none =>
      rw [hold'] at he
      exact ⟨p.2.1, p.2.2, _, _, r1 p hp, hpb.2, he, hpiece, fun _ => rfl,
        fun hc => absurd rfl hc⟩
    | some vars =>
      rw [hold'] at he
      obtain ⟨a, q, r, e1, e2, e3, e4, e5, e6⟩ := he
      have ha := openGroup_series (hold _ _ hold') e1
      have hq : Series x sig size zds.delayed q ((l.take p.2.2).drop p.2.1) :=
        ⟨by rw [e2]; exact hpiece, e3, e4⟩
      have hf := follows_merge ha hq tol
      cases hm : TS.mergeTimeSeries (recs p.1) ((l.take p.2.2).drop p.2.1) tol with
      | error e =>
        rw [hm] at hf
        rw [show TSD.mergeTimeSeries x tol a q = _ from hf] at e5
        cases e5
      | ok m =>
        rw [hm] at hf
        obtain ⟨r', f1, f2⟩ := hf
        rw [f1] at e5
        cases e5
        exact ⟨p.2.1, p.2.2, _, m, r1 p hp, hpb.2, e6, f2.toHoldsRecords,
          fun hc => absurd hc (by simp), fun _ => hm⟩

/-- C22 with `merge_time_series` without tolerance: a partition that exists holds, after the
insertion, its records before the inserted ones, the inserted records and its records after
them.  Missing: a record exactly one tick after the inserted ones (C01), and as for
`C22_dataset_partial`. -/
theorem C22_merge_records_partial (w : Sch.World (List Int) V) (o : Sch.Obj V)
    (sc : Pipe.Scheme V) (hsplit : w.split = Pipe.splitDataset sc) (hsc : GoodScheme sc)
    (haxis : o.imm = true → o.axis = o.dim) (hdims : ∀ m ∈ o.metas, m.dims.Nodup)
    (faults : Sch.Faults (List Int)) (validate : Bool) (np : Option Int)
    (x : Axis V) (hx : x.dim = o.dim) (ds ds' : Dataset V)
    (hi : Insertable o ds) (hok : ∀ v ∈ ds.vars, ArrOk v.array)
    (fs fs' : Sch.Files (List Int) V) (hs : Aligned o fs) (ks : List (List Int))
    (h : Sch.insert w o faults validate np (some (TSD.mergeTimeSeries x none)) ds fs =
      (ds', fs', .ok ks))
    (hsort : ds'.delayed = true ∨ KeysMonotone sc ds'.vars)
    (recs : List Int → List (Int × Content V)) (l : List (Int × Content V))
    (hold : ∀ k vars, fs.parts k = some vars → HoldsRecords x sig size vars (recs k))
    (hnew : HoldsRecords x sig size (ds'.vars.filter fun v => decide (o.dim ∈ v.dims)) l)
    (k : List Int) (hk : k ∈ ks) (hex : fs.parts k ≠ none) (hrec : Sorted (recs k))
    (hne : recs k ≠ []) :
    ∃ lo hi vars, RecordsWithKey sc ds'.vars k lo hi ∧ hi ≤ l.length ∧
      fs'.parts k = some vars ∧
      ∀ first last, IsMin first (((l.take hi).drop lo).map (·.1)) →
        IsMax last (((l.take hi).drop lo).map (·.1)) → (∀ r ∈ recs k, r.1 ≠ last + 1) →
        HoldsRecords x sig size vars (merged (recs k) ((l.take hi).drop lo) first last) := by
  obtain ⟨_, h2⟩ := C22_merge_partial w o sc hsplit hsc haxis hdims faults validate np x hx none
    ds ds' hi hok fs fs' hs ks h hsort recs l hold hnew
  obtain ⟨lo, hi', vars, m, g1, g2, g3, g4, _, g6⟩ := h2 k hk
  refine ⟨lo, hi', vars, g1, g2, g3, ?_⟩
  intro first last hf hl hc
  have := (C01_partial (recs k) _ first last hrec hne hf hl).2 (.inl hc)
  rw [g6 hex] at this
  cases this
  exact g4

end Verif
