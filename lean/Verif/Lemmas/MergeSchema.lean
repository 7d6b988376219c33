import Verif.Model.MergeDataset
import Verif.Lemmas.SchemaInsert
import Verif.Lemmas.OverlapArray

/-! `merge_time_series` keeps the variables of the datasets. -/

namespace Verif

open Spec Nd Ds TSD

variable {V : Type}

/-- The same name, dimensions and rank. -/
def KeptVar (v w : Var V) : Prop :=
  w.name = v.name ∧ w.dims = v.dims ∧ w.array.shape.length = v.array.shape.length

theorem mapPy_kept {f : Var V → Py (Var V)} (l : List (Var V))
    (hf : ∀ v ∈ l, ∀ w, f v = .ok w → KeptVar v w) (r : List (Var V)) (h : mapPy f l = .ok r) :
    r.map (·.name) = l.map (·.name) ∧
    (∀ n, (getVar r n).map (·.dims) = (getVar l n).map (·.dims)) ∧
    ((∀ v ∈ l, v.array.shape.length = v.dims.length) →
      ∀ w ∈ r, w.array.shape.length = w.dims.length) := by
  induction l generalizing r with
  | nil => simp only [mapPy] at h; cases h; simp
  | cons v t ih =>
    simp only [mapPy, bind, Except.bind] at h
    split at h
    · cases h
    · next w hw =>
      split at h
      · cases h
      · next ws hws =>
        cases h
        obtain ⟨k1, k2, k3⟩ := hf v (by simp) w hw
        obtain ⟨i1, i2, i3⟩ := ih (fun x hx => hf x (List.mem_cons_of_mem _ hx)) ws hws
        refine ⟨by simp [k1, i1], fun n => ?_, fun hr x hx => ?_⟩
        · have := i2 n
          simp only [getVar, List.find?_cons, k1] at this ⊢
          by_cases hn : v.name = n
          · simp [hn, k2]
          · simp [hn, this]
        · rcases List.mem_cons.1 hx with rfl | hx
          · rw [k2, k3]
            exact hr v (by simp)
          · exact i3 (fun y hy => hr y (List.mem_cons_of_mem _ hy)) x hx

theorem derive_schema {dims : String → Option (List String)} {ds r : Dataset V}
    (h : HasSchema dims ds) {f : Var V → Py (Var V)} {vars : List (Var V)}
    (hf : ∀ v ∈ ds.vars, ∀ w, f v = .ok w → KeptVar v w) (hm : mapPy f ds.vars = .ok vars)
    (hd : derive ds vars (some ds.delayed) = .ok r) :
    HasSchema dims r ∧ r.delayed = ds.delayed := by
  obtain ⟨k1, k2, k3⟩ := mapPy_kept ds.vars hf vars hm
  obtain ⟨m1, m2, _, _, _, m6⟩ := mk_spec _ _ _ _ _ _ hd
  have hv : r.vars = vars := by
    rw [m2]
    have := foldl_setVar_id vars [] (by
      rw [List.nil_append, k1]
      exact h.consistent.names)
    simpa using this
  refine ⟨⟨m1, ?_, fun n => ?_⟩, m6 _ rfl⟩
  · rw [hv]
    exact k3 h.ranks
  · rw [hv, k2 n]
    exact h.schema n

theorem isel_schema {dims : String → Option (List String)} {ds r : Dataset V}
    (h : HasSchema dims ds) {d : String} {s : Slice} (hi : isel ds [(d, .slice s)] = .ok r) :
    HasSchema dims r ∧ r.delayed = ds.delayed := by
  unfold isel at hi
  split at hi
  · cases hi
  · simp only [bind, Except.bind] at hi
    split at hi
    · cases hi
    · next vars hvars =>
      refine derive_schema h ?_ hvars hi
      intro v hv w hw
      simp only [Var.isel, bind, Except.bind] at hw
      split at hw
      · cases hw
      · next a ha =>
        cases hw
        have hkey : v.dims.map (sliceOf [(d, .slice s)]) =
            (v.dims.map fun e => if e = d then s else Slice.all).map Ix.slice := by
          rw [List.map_map]
          apply List.map_congr_left
          intro e _
          simp only [sliceOf, List.lookup, Function.comp]
          by_cases he : e = d
          · subst he; simp
          · have : (e == d) = false := by simpa using he
            rw [this, if_neg he]
        rw [hkey] at ha
        obtain ⟨_, _, _, hl, _⟩ := getitem_slices _ _ _ _ ha
        exact ⟨rfl, rfl, hl⟩

theorem iselIndices_schema {dims : String → Option (List String)} {ds r : Dataset V}
    (h : HasSchema dims ds) {d : String} {pos : List Nat} (hi : iselIndices ds d pos = .ok r) :
    HasSchema dims r ∧ r.delayed = ds.delayed := by
  unfold iselIndices at hi
  split at hi
  · cases hi
  · simp only [bind, Except.bind] at hi
    split at hi
    · cases hi
    · next vars hvars =>
      refine derive_schema h ?_ hvars hi
      intro v hv w hw
      unfold takeVar at hw
      split at hw
      · cases hw; exact ⟨rfl, rfl, rfl⟩
      · split at hw
        · cases hw
        · simp only [bind, Except.bind] at hw
          split at hw
          · cases hw
          · cases hw
            exact ⟨rfl, rfl, by simp [takeAxis]⟩

theorem concat_schema {dims : String → Option (List String)} {ds r : Dataset V}
    (h : HasSchema dims ds) {others : List (Dataset V)} {d : String}
    (hi : concat ds others d = .ok r) : HasSchema dims r ∧ r.delayed = ds.delayed := by
  unfold concat at hi
  split at hi
  · cases hi
  · split at hi
    · cases hi
    · simp only [bind, Except.bind] at hi
      split at hi
      · cases hi
      · next vars hvars =>
        refine derive_schema h ?_ hvars hi
        intro v hv w hw
        split at hw
        · cases hw
        · next ws _ =>
          unfold concatVar at hw
          split at hw
          · cases hw
          · split at hw
            · cases hw
            · split at hw
              · cases hw; exact ⟨rfl, rfl, rfl⟩
              · next ax hax =>
                split at hw
                · next a ha =>
                  cases hw
                  simp only [concatenate] at ha
                  split at ha
                  · cases ha
                    exact ⟨rfl, rfl, by simp⟩
                  · cases ha
                · cases hw; exact ⟨rfl, rfl, rfl⟩
                · cases hw

theorem mergeOne_schema {x : Axis V} {dims : String → Option (List String)} {a b r : Dataset V}
    (ha : HasSchema dims a) (hb : HasSchema dims b) (h : TSD.mergeOne x a b = .ok r) :
    HasSchema dims r := by
  unfold TSD.mergeOne at h
  simp only [bind, Except.bind] at h
  repeat' split at h
  all_goals first
    | cases h; done
    | cases h; exact hb
    | exact (concat_schema hb h).1
    | exact (concat_schema ha h).1
    | skip
  all_goals
    first
    | (rename_i hk; exact (concat_schema (iselIndices_schema ha hk).1 h).1)
    | skip
  have hk := ‹iselSlice a x.dim 0 _ = .ok _›
  exact (concat_schema (isel_schema ha hk).1 h).1

theorem mergePieces_schema {x : Axis V} {dims : String → Option (List String)}
    {b : Dataset V} (hb : HasSchema dims b) (cuts : List (Nat × Nat)) {a r : Dataset V}
    (ha : HasSchema dims a) (h : TSD.mergePieces x b cuts a = .ok r) : HasSchema dims r := by
  induction cuts generalizing a with
  | nil => cases h; exact ha
  | cons c t ih =>
    simp only [TSD.mergePieces, bind, Except.bind] at h
    split at h
    · cases h
    · next p hp =>
      split at h
      · cases h
      · next a' ha' =>
        exact ih (mergeOne_schema ha (isel_schema hb hp).1 ha') h

/-- `merge_time_series` keeps the variables of the datasets. -/
theorem mergeTimeSeries_keeps (x : Axis V) (tol : Option Int) :
    KeepsSchema (TSD.mergeTimeSeries x tol) := by
  intro dims a b r ha hb _ h
  have hr : HasSchema dims r := by
    unfold TSD.mergeTimeSeries at h
    cases tol with
    | none => exact mergeOne_schema ha hb h
    | some tol =>
      simp only [bind, Except.bind] at h
      split at h
      · cases h
      · exact mergePieces_schema hb _ ha h
  exact ⟨hr.consistent.names, hr.schema, consistent_sizes hr.consistent hr.ranks⟩

end Verif
