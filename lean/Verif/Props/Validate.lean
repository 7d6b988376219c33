import Verif.Spec.Validate
import Verif.Lemmas.Lists

/-! C49: validation of partitions. -/

namespace Verif

open Spec Validate

theorem readAll_ok (l : List StoredArray) : readAll l = .ok () ↔ ∀ a ∈ l, a.read = none := by
  induction l with
  | nil => simp [readAll]
  | cons a t ih =>
    unfold readAll
    cases h : a.read with
    | none => simp [h, ih]
    | some e => simp [h]

theorem readAll_error (l : List StoredArray) (e : PyErr) (h : readAll l = .error e) :
    ∃ a ∈ l, a.read = some e := by
  induction l with
  | nil => simp [readAll] at h
  | cons a t ih =>
    unfold readAll at h
    cases h' : a.read with
    | none =>
      rw [h'] at h
      obtain ⟨b, hb, h⟩ := ih h
      exact ⟨b, by simp [hb], h⟩
    | some e' =>
      rw [h'] at h
      injection h with h
      exact ⟨a, by simp, by rw [h', h]⟩

theorem checkGroup_true (m : Meta) : checkGroup m = .ok true ↔ ArraysReadable m := by
  unfold checkGroup ArraysReadable
  cases m with
  | absent => simp [openConsolidated, bind, Except.bind, caught]
  | torn => simp [openConsolidated, bind, Except.bind, caught]
  | arrays l =>
    simp only [openConsolidated, bind, Except.bind]
    cases h : readAll l with
    | ok u => simp; exact (readAll_ok l).1 h
    | error e =>
      obtain ⟨a, ha, he⟩ := readAll_error l e h
      have hf : ¬ ∀ a ∈ l, a.read = none := fun hc => by rw [hc a ha] at he; cases he
      simp only [Meta.arrays.injEq, exists_eq_left', hf, iff_false]
      split <;> simp

theorem checkGroup_handled (m : Meta) (h : Handled m) : ∃ b, checkGroup m = .ok b := by
  unfold checkGroup
  cases m with
  | absent => exact absurd rfl h.1
  | torn => exact ⟨false, by simp [openConsolidated, bind, Except.bind, caught]⟩
  | arrays l =>
    simp only [openConsolidated, bind, Except.bind]
    cases hr : readAll l with
    | ok u => exact ⟨true, rfl⟩
    | error e =>
      obtain ⟨a, ha, he⟩ := readAll_error l e hr
      refine ⟨false, ?_⟩
      rcases h.2 l rfl a ha e he with rfl | rfl | rfl <;> rfl

/-- C49, full statement: the validation of any state returns exactly the partitions that
cannot be read with consistent dimensions, and `fix` removes those. -/
def C49_full : Prop :=
  ∀ (keys : List String) (store selected : List (List Char × Meta)) (fix : Bool),
    (∀ p ∈ selected, p ∈ store) → (store.map (·.1)).Nodup →
    (∀ p ∈ selected, ∃ k, Path.parse keys p.1 = .ok k) →
    ∃ l, (validate keys store selected fix).1 = .ok l ∧
      (∀ p ∈ selected, p.1 ∈ l ↔ ¬ Readable p.2) ∧
      (∀ p ∈ store, p ∈ (validate keys store selected fix).2 ↔ ¬ (fix = true ∧ p.1 ∈ l))

/-- A number that cannot be read raises `ValueError`. -/
theorem convert_error (l : List (String × List Char)) (e : PyErr) (h : Path.convert l = .error e) :
    e = .valueError := by
  induction l with
  | nil => cases h
  | cons a t ih =>
    obtain ⟨k, s⟩ := a
    simp only [Path.convert, bind, Except.bind] at h
    cases hp : Path.pyInt s with
    | error e' =>
      rw [hp] at h
      cases h
      simp only [Path.pyInt] at hp
      split at hp <;> cases hp <;> rfl
    | ok v =>
      rw [hp] at h
      cases hc : Path.convert t with
      | error e' => rw [hc] at h; cases h; exact ih hc
      | ok r => rw [hc] at h; cases h

theorem parse_error {keys : List String} {p : List Char} {e : PyErr}
    (h : Path.parse keys p = .error e) : e = .valueError := by
  simp only [Path.parse] at h
  split at h
  · cases h; rfl
  · exact convert_error _ _ h

/-- The partition is valid: its path can be parsed and its arrays can be read. -/
def Spec.Valid (keys : List String) (p : List Char × Meta) : Prop :=
  (∃ k, Path.parse keys p.1 = .ok k) ∧ ArraysReadable p.2

theorem collect_spec (keys : List String) (selected : List (List Char × Meta))
    (hh : ∀ p ∈ selected, (∃ k, Path.parse keys p.1 = .ok k) → Handled p.2) :
    ∃ l, collect keys selected = .ok l ∧
      ∀ q, q ∈ l ↔ ∃ p ∈ selected, p.1 = q ∧ ¬ Spec.Valid keys p := by
  induction selected with
  | nil => exact ⟨[], rfl, by simp⟩
  | cons p t ih =>
    obtain ⟨l, h1, h2⟩ := ih fun x hx => hh x (by simp [hx])
    obtain ⟨b, hc, hr⟩ : ∃ b, checkPartition keys p = .ok (p.1, b) ∧
        (Except.ok b = (.ok true : Py Bool) ↔ Spec.Valid keys p) := by
      cases hk : Path.parse keys p.1 with
      | error e =>
        refine ⟨false, by simp [checkPartition, hk, parse_error hk], by simp [Spec.Valid, hk]⟩
      | ok k =>
        obtain ⟨b, hb⟩ := checkGroup_handled p.2 (hh p (by simp) ⟨k, hk⟩)
        refine ⟨b, by simp [checkPartition, hk, hb, bind, Except.bind, pure, Except.pure], ?_⟩
        rw [← hb, checkGroup_true]
        exact ⟨fun h => ⟨⟨k, hk⟩, h⟩, fun h => h.2⟩
    simp only [collect, hc, h1, bind, Except.bind, pure, Except.pure]
    refine ⟨_, rfl, ?_⟩
    intro q
    cases b with
    | true =>
      have hr : Valid keys p := hr.1 rfl
      simp only [if_true, h2, List.mem_cons]
      constructor
      · rintro ⟨x, hx, h⟩; exact ⟨x, .inr hx, h⟩
      · rintro ⟨x, rfl | hx, h⟩
        · exact absurd hr h.2
        · exact ⟨x, hx, h⟩
    | false =>
      have hr : ¬ Valid keys p := fun hc => by simpa using hr.2 hc
      simp only [Bool.false_eq_true, if_false, List.mem_cons, h2]
      constructor
      · rintro (rfl | ⟨x, hx, h⟩)
        · exact ⟨p, .inl rfl, rfl, hr⟩
        · exact ⟨x, .inr hx, h⟩
      · rintro ⟨x, rfl | hx, h, h'⟩
        · exact .inl h.symm
        · exact .inr ⟨x, hx, h, h'⟩

/-- C49: if no partition lacks its metadata and reading raises only errors of the handled
classes, the validation returns exactly the partitions with a path that cannot be parsed, with a
torn metadata file or with an array that cannot be read; `fix` removes those, and nothing is removed otherwise.  The
order in which the checks complete does not matter.  Missing: partitions without metadata
(the call raises, see `C49_absent_metadata`), and inconsistent dimensions (not detected, see
`C49_dimensions_not_checked`). -/
theorem C49_validate_partial (keys : List String) (store selected : List (List Char × Meta))
    (fix : Bool) (hsub : ∀ p ∈ selected, p ∈ store) (hnd : (store.map (·.1)).Nodup)
    (hh : ∀ p ∈ selected, (∃ k, Path.parse keys p.1 = .ok k) → Handled p.2) :
    ∃ l, (validate keys store selected fix).1 = .ok l ∧
      (∀ p ∈ selected, p.1 ∈ l ↔ ¬ Valid keys p) ∧ (∀ q ∈ l, ∃ p ∈ selected, p.1 = q) ∧
      (validate keys store selected fix).2.Sublist store ∧
      (∀ p ∈ store, p ∈ (validate keys store selected fix).2 ↔
        ¬ (fix = true ∧ p ∈ selected ∧ ¬ Valid keys p)) := by
  have hinj : ∀ p ∈ store, ∀ q ∈ store, p.1 = q.1 → p = q :=
    fun p hp q hq h => eq_of_nodup_map hnd hp hq h
  obtain ⟨l, h1, h2⟩ := collect_spec keys selected hh
  have hl : ∀ p ∈ store, p.1 ∈ l ↔ p ∈ selected ∧ ¬ Valid keys p := by
    intro p hp
    rw [h2]
    constructor
    · rintro ⟨x, hx, hxp, hr⟩
      have := hinj x (hsub x hx) p hp hxp
      subst this
      exact ⟨hx, hr⟩
    · rintro ⟨hx, hr⟩; exact ⟨p, hx, rfl, hr⟩
  refine ⟨l, by simp [validate, h1], ?_, ?_, ?_, ?_⟩
  · intro p hp; rw [hl p (hsub p hp)]; simp [hp]
  · intro q hq
    obtain ⟨p, hp, h, _⟩ := (h2 q).1 hq
    exact ⟨p, hp, h⟩
  · simp only [validate, h1]
    split
    · exact List.filter_sublist
    · exact List.Sublist.refl _
  · intro p hp
    simp only [validate, h1]
    rw [← hl p hp]
    cases fix <;> simp [hp]

/-- The hypotheses hold for a collection with a readable partition, a torn one, and a directory
whose name cannot be parsed, without metadata. -/
example : ∀ p ∈ [("x=1".toList, Meta.torn), ("x=2".toList, .arrays [⟨"v", [("n", 2)], none⟩]),
    ("x=?".toList, .absent)], (∃ k, Path.parse ["x"] p.1 = .ok k) → Handled p.2 := by
  intro p hp hk
  simp only [List.mem_cons, List.not_mem_nil, or_false] at hp
  rcases hp with rfl | rfl | rfl
  · simp [Handled]
  · simp [Handled]
  · obtain ⟨k, hk⟩ := hk
    exact absurd hk (by
      rw [show Path.parse ["x"] "x=?".toList = .error .valueError by decide +kernel]
      exact nofun)

/-- A partition without consolidated metadata, as left by a killed creation, makes the whole
validation raise `KeyError`, whatever the other partitions, and nothing is removed. -/
theorem C49_absent_metadata (keys : List String) (store selected : List (List Char × Meta))
    (fix : Bool) (hparse : ∀ p ∈ selected, ∃ k, Path.parse keys p.1 = .ok k)
    (hh : ∀ p ∈ selected, Handled p.2 ∨ p.2 = .absent)
    (habs : ∃ p ∈ selected, p.2 = .absent) :
    validate keys store selected fix = (.error .keyError, store) := by
  have : collect keys selected = .error .keyError := by
    induction selected with
    | nil => obtain ⟨p, hp, _⟩ := habs; simp at hp
    | cons p t ih =>
      obtain ⟨k, hk⟩ := hparse p (by simp)
      by_cases hp : p.2 = .absent
      · have : checkPartition keys p = .error .keyError := by
          simp [checkPartition, hk, hp, checkGroup, openConsolidated, caught, bind, Except.bind]
        simp [collect, this, bind, Except.bind]
      · obtain ⟨b, hb⟩ := checkGroup_handled p.2 ((hh p (by simp)).resolve_right hp)
        have hc : checkPartition keys p = .ok (p.1, b) := by
          simp [checkPartition, hk, hb, bind, Except.bind, pure, Except.pure]
        have := ih (fun x hx => hparse x (by simp [hx])) (fun x hx => hh x (by simp [hx])) (by
          obtain ⟨x, hx, hx'⟩ := habs
          rcases List.mem_cons.1 hx with rfl | hx
          · exact absurd hx' hp
          · exact ⟨x, hx, hx'⟩)
        simp [collect, hc, this, bind, Except.bind]
  simp [validate, this]

/-- Inconsistent dimensions are not detected: a partition whose arrays can all be read is
valid whatever their sizes. -/
theorem C49_dimensions_not_checked (keys : List String) (p : List Char) (l : List StoredArray)
    (k : List (String × Int)) (hk : Path.parse keys p = .ok k) (h : ∀ a ∈ l, a.read = none)
    (store : List (List Char × Meta)) (fix : Bool) :
    (validate keys store [(p, .arrays l)] fix).1 = .ok [] := by
  have hb : checkGroup (.arrays l) = .ok true := (checkGroup_true _).2 ⟨l, rfl, h⟩
  have hc : checkPartition keys (p, .arrays l) = .ok (p, true) := by
    simp [checkPartition, hk, hb, bind, Except.bind, pure, Except.pure]
  simp [validate, collect, hc, bind, Except.bind, pure, Except.pure]

theorem C49_counterexample : ¬ C49_full := by
  intro h
  obtain ⟨l, h1, _⟩ := h ["x"] [("x=1".toList, .absent)] [("x=1".toList, .absent)] true
    (by simp) (by simp) (by
      intro p hp
      rw [List.mem_singleton] at hp
      subst hp
      exact ⟨[("x", 1)], by decide +kernel⟩)
  rw [C49_absent_metadata ["x"] _ _ true (by
      intro p hp
      rw [List.mem_singleton] at hp
      subst hp
      exact ⟨[("x", 1)], by decide +kernel⟩) (by simp) (by simp)] at h1
  cases h1

/-- The paths given to the check come from the sorted listing, which has already parsed them:
the branch for names that cannot be parsed is never taken (the listing itself raises). -/
theorem C49_listing_parses (keys : List String) (len : Nat) (path : List Char)
    (root : Listing.Node) (l : List (List Char))
    (h : Listing.sortedPartitions keys len path root = .ok l) :
    ∀ p ∈ Listing.listPartitions len path root, ∃ k, Path.parse keys p = .ok k := by
  have : ∀ ps r, Listing.keyed keys ps = .ok r → ∀ p ∈ ps, ∃ k, Path.parse keys p = .ok k := by
    intro ps
    induction ps with
    | nil => intro _ _ p hp; simp at hp
    | cons a t ih =>
      intro r hr p hp
      simp only [Listing.keyed, bind, Except.bind] at hr
      split at hr
      · cases hr
      · next k hk =>
        split at hr
        · cases hr
        · next r' hr' =>
          rcases List.mem_cons.1 hp with rfl | hp
          · exact ⟨k, hk⟩
          · exact ih r' hr' p hp
  simp only [Listing.sortedPartitions, bind, Except.bind] at h
  split at h
  · cases h
  · next r hr => exact this _ r hr

end Verif
