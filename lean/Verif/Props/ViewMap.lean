import Verif.Lemmas.ViewWrites
import Verif.Props.ViewUpdate

/-! C58: functions mapped over a view. -/

namespace Verif

open Spec Nd Ds Upd Vw

variable {D P V H K R : Type} [DecidableEq D] [DecidableEq P] [DecidableEq H]

theorem mapPy_raises {α β : Type} (f : α → Py β) (l : List α) (err : PyErr)
    (h : mapPy f l = .error err) : ∃ x ∈ l, f x = .error err := by
  induction l with
  | nil => cases h
  | cons a t ih =>
    simp only [mapPy, bind, Except.bind] at h
    split at h
    · next e he =>
      cases h
      exact ⟨a, List.mem_cons_self .., he⟩
    · split at h
      · next e he =>
        cases h
        obtain ⟨x, hx, h⟩ := ih he
        exact ⟨x, List.mem_cons_of_mem _ hx, h⟩
      · cases h

omit [DecidableEq D] [DecidableEq P] [DecidableEq H] in
/-- C58: `View.map` calls the function once for each selected partition, in order, with a
dataset that shows exactly the chosen variables of the view and of the reference, and gives
each result with the key of its partition; it only raises what the function or the partitioning
raised. -/
theorem C58_map (e : Env D V H) (delayed : Bool) (listing : List P) (filters : P → Bool)
    (sel : Option (List String)) (parse : P → Py K) (f : Callback V R) (st : State D P V H)
    (size : P → Nat) (other : String → Nat) (hmetas : st.metas ≠ [])
    (href : ∀ p ∈ listing, st.files e.refDir p ≠ none) (hg : GoodView e st size other)
    (hc : DimsCovered e st sel ∨ ViewOnly e st sel) :
    (∃ r, mapView e delayed listing filters sel parse f st = .ok r ∧
      r.length = (selected e listing filters st).length ∧
      ∀ (i : Nat) p, (selected e listing filters st)[i]? = some p → ∃ zds k v,
        Shows e st size sel [p] zds ∧ parse p = .ok k ∧ f zds none = .ok v ∧
        r[i]? = some (k, v)) ∨
    ∃ err p, mapView e delayed listing filters sel parse f st = .error err ∧
      p ∈ selected e listing filters st ∧ (parse p = .error err ∨
        ∃ zds, Shows e st size sel [p] zds ∧ f zds none = .error err) := by
  obtain ⟨dsl, d1, d2, d3⟩ := loadList_ok hg hc delayed listing filters href
  unfold mapView
  rw [if_neg hmetas, d1]
  simp only [bind, Except.bind]
  cases hr : mapPy (fun (x : Dataset V × P) => do
      let k ← parse x.2
      let r ← f x.1 none
      (.ok (k, r) : Py (K × R))) dsl with
  | error err =>
    right
    obtain ⟨x, hx, he⟩ := mapPy_raises _ _ _ hr
    refine ⟨err, x.2, hr, by rw [← d2]; exact List.mem_map_of_mem hx, ?_⟩
    simp only [bind, Except.bind] at he
    split at he
    · next h => cases he; exact .inl h
    · split at he
      · next h =>
        cases he
        exact .inr ⟨x.1, opened_alone hg (d3 x hx).1, h⟩
      · cases he
  | ok r =>
    left
    obtain ⟨s1, s2⟩ := mapPy_spec _ _ _ hr
    refine ⟨r, hr, by rw [s1, ← d2, List.length_map], fun i p hp => ?_⟩
    rw [← d2, List.getElem?_map] at hp
    cases hx : dsl[i]? with
    | none => rw [hx] at hp; cases hp
    | some x =>
      rw [hx] at hp
      cases hp
      obtain ⟨y, y1, y2⟩ := s2 i x hx
      simp only [bind, Except.bind] at y2
      split at y2
      · cases y2
      · next k hk =>
        split at y2
        · cases y2
        · next v hv =>
          cases y2
          exact ⟨x.1, k, v, opened_alone hg (d3 x (List.mem_of_getElem? hx)).1, hk, hv, y1⟩

omit [DecidableEq D] [DecidableEq P] [DecidableEq H] in
/-- C58: a view without variable of its own is refused. -/
theorem C58_empty (e : Env D V H) (delayed : Bool) (listing : List P) (filters : P → Bool)
    (sel : Option (List String)) (parse : P → Py K) (f : Callback V R) (st : State D P V H)
    (h : st.metas = []) : mapView e delayed listing filters sel parse f st = .error .valueError := by
  unfold mapView
  rw [if_pos h]

/-- C58, full statement about `View.map_overlap`: the same, with the `depth` partitions before
and after each one, and the place of the partition among the records. -/
def C58_overlap_full : Prop :=
  ∀ (D P V H K R : Type) [DecidableEq D] [DecidableEq P] [DecidableEq H] (e : Env D V H)
    (delayed : Bool) (depth : Nat) (listing : List P) (filters : P → Bool)
    (sel : Option (List String)) (parse : P → Py K) (f : Callback V R) (st : State D P V H)
    (size : P → Nat) (other : String → Nat), st.metas ≠ [] → listing.Nodup →
    (∀ p ∈ listing, st.files e.refDir p ≠ none) → GoodView e st size other →
    DimsCovered e st sel →
    (∃ r, mapViewOverlap e delayed depth listing filters sel parse f st = .ok r ∧
      r.length = (selected e listing filters st).length ∧
      ∀ (i : Nat) p, (selected e listing filters st)[i]? = some p → ∃ zds k v,
        Shows e st size sel (neighbours (selected e listing filters st) depth i) zds ∧
        parse p = .ok k ∧
        f zds (some (place size (selected e listing filters st) depth i p)) = .ok v ∧
        r[i]? = some (k, v)) ∨
    ∃ (err : PyErr) (i : Nat) (p : P), mapViewOverlap e delayed depth listing filters sel parse f st = .error err ∧
      (selected e listing filters st)[i]? = some p ∧ (parse p = .error err ∨
        ∃ zds, Shows e st size sel (neighbours (selected e listing filters st) depth i) zds ∧
          f zds (some (place size (selected e listing filters st) depth i p)) = .error err)

omit [DecidableEq D] [DecidableEq H] in
/-- C58: this holds for a positive depth and a selection that is not a single partition.
Missing: the other cases, where `map_overlap` raises (`C58_overlap_alone`). -/
theorem C58_overlap_partial (e : Env D V H) (delayed : Bool) (depth : Nat) (listing : List P)
    (filters : P → Bool) (sel : Option (List String)) (parse : P → Py K) (f : Callback V R)
    (st : State D P V H) (size : P → Nat) (other : String → Nat) (hmetas : st.metas ≠ [])
    (hl : listing.Nodup) (href : ∀ p ∈ listing, st.files e.refDir p ≠ none)
    (hg : GoodView e st size other) (hc : DimsCovered e st sel) (hd : 0 < depth)
    (hs : (selected e listing filters st).length ≠ 1) :
    (∃ r, mapViewOverlap e delayed depth listing filters sel parse f st = .ok r ∧
      r.length = (selected e listing filters st).length ∧
      ∀ (i : Nat) p, (selected e listing filters st)[i]? = some p → ∃ zds k v,
        Shows e st size sel (neighbours (selected e listing filters st) depth i) zds ∧
        parse p = .ok k ∧
        f zds (some (place size (selected e listing filters st) depth i p)) = .ok v ∧
        r[i]? = some (k, v)) ∨
    ∃ (err : PyErr) (i : Nat) (p : P), mapViewOverlap e delayed depth listing filters sel parse f st = .error err ∧
      (selected e listing filters st)[i]? = some p ∧ (parse p = .error err ∨
        ∃ zds, Shows e st size sel (neighbours (selected e listing filters st) depth i) zds ∧
          f zds (some (place size (selected e listing filters st) depth i p)) = .error err) := by
  obtain ⟨dsl, d1, d2, d3⟩ := loadList_ok hg (.inl hc) delayed listing filters href
  have hnd : (dsl.map (·.2)).Nodup := by
    rw [d2, ← partitions_selected e listing filters st href]
    exact nodup_partitions e listing hl filters st.files
  have hwin : ∀ i x, dsl[i]? = some x → ∃ zds,
      selectOverlap e depth dsl x.2 =
        .ok (zds, place size (selected e listing filters st) depth i x.2) ∧
      Shows e st size sel (neighbours (selected e listing filters st) depth i) zds := by
    intro i x hx
    have hp : (dsl.map (·.2))[i]? = some x.2 := by rw [List.getElem?_map, hx]; rfl
    have hi := (List.getElem?_eq_some_iff.1 hp).1
    obtain ⟨zds, z1, _, z2⟩ := selectOverlap_ok hg hnd (fun x hx => (d3 x hx).1)
      (fun x hx => (d3 x hx).2 hc) depth i x.2 hp (by
        rw [neighbours_length]
        rw [← d2] at hs
        omega)
    rw [d2] at z1 z2
    exact ⟨zds, z1, z2⟩
  unfold mapViewOverlap
  rw [if_neg (by omega), if_neg hmetas, d1]
  simp only [bind, Except.bind, Int.toNat_natCast]
  cases hr : mapPy (fun (x : Dataset V × P) => do
      let y ← selectOverlap e depth dsl x.2
      let k ← parse x.2
      let r ← f y.1 (some y.2)
      (.ok (k, r) : Py (K × R))) dsl with
  | error err =>
    right
    obtain ⟨x, hx, he⟩ := mapPy_raises _ _ _ hr
    obtain ⟨i, hi⟩ := List.getElem?_of_mem hx
    obtain ⟨zds, z1, z2⟩ := hwin i x hi
    refine ⟨err, i, x.2, hr, by rw [← d2, List.getElem?_map, hi]; rfl, ?_⟩
    simp only [bind, Except.bind, z1] at he
    split at he
    · next h => cases he; exact .inl h
    · split at he
      · next h =>
        cases he
        exact .inr ⟨zds, z2, h⟩
      · cases he
  | ok r =>
    left
    obtain ⟨s1, s2⟩ := mapPy_spec _ _ _ hr
    refine ⟨r, hr, by rw [s1, ← d2, List.length_map], fun i p hp => ?_⟩
    rw [← d2, List.getElem?_map] at hp
    cases hx : dsl[i]? with
    | none => rw [hx] at hp; cases hp
    | some x =>
      rw [hx] at hp
      cases hp
      obtain ⟨y, y1, y2⟩ := s2 i x hx
      obtain ⟨zds, z1, z2⟩ := hwin i x hx
      simp only [bind, Except.bind, z1] at y2
      split at y2
      · cases y2
      · next k hk =>
        split at y2
        · cases y2
        · next v hv =>
          cases y2
          exact ⟨zds, k, v, z2, hk, hv, y1⟩

omit [DecidableEq D] [DecidableEq H] in
/-- C58: `map_overlap` raises `ValueError` before any call of the function when a single
partition is selected, and whenever the depth is zero, because there is nothing to
concatenate. -/
theorem C58_overlap_alone (e : Env D V H) (delayed : Bool) (depth : Nat) (listing : List P)
    (filters : P → Bool) (sel : Option (List String)) (parse : P → Py K) (f : Callback V R)
    (st : State D P V H) (size : P → Nat) (other : String → Nat) (hmetas : st.metas ≠ [])
    (hl : listing.Nodup) (href : ∀ p ∈ listing, st.files e.refDir p ≠ none)
    (hg : GoodView e st size other) (hc : DimsCovered e st sel)
    (hne : selected e listing filters st ≠ [])
    (hs : depth = 0 ∨ (selected e listing filters st).length = 1) :
    mapViewOverlap e delayed depth listing filters sel parse f st = .error .valueError := by
  obtain ⟨dsl, d1, d2, d3⟩ := loadList_ok hg (.inl hc) delayed listing filters href
  have hnd : (dsl.map (·.2)).Nodup := by
    rw [d2, ← partitions_selected e listing filters st href]
    exact nodup_partitions e listing hl filters st.files
  unfold mapViewOverlap
  rw [if_neg (by omega), if_neg hmetas, d1]
  simp only [bind, Except.bind, Int.toNat_natCast]
  cases dsl with
  | nil => rw [← d2] at hne; simp at hne
  | cons x rest =>
    have := selectOverlap_alone e depth (x :: rest) hnd 0 x.2 rfl (by
      rw [neighbours_length]
      rw [← d2] at hs
      simp only [List.map_cons, List.length_cons, List.length_map] at hs ⊢
      omega)
    simp only [mapPy, this, bind, Except.bind]

/-- A function that returns the values of `x` and the place of the partition. -/
def readX : Callback Nat (List (Option Nat) × Option (Nat × Nat)) := fun zds ind => do
  let x ← arrayOf zds "x"
  match x.shape[0]? with
  | none => .error .indexError
  | some n => .ok ((List.range n).map fun i => x.get [i], ind)

/-- `map_overlap` on the selection of a single partition raises, though the function does
not. -/
theorem C58_overlap_counterexample : ¬ C58_overlap_full := by
  intro h
  have hraise : mapViewOverlap (smallEnv (· == ·)) true (1 : Nat) [false, true] id none
      (fun p => .ok p) (fun _ _ => .ok ()) twoView = .error .valueError := rfl
  rcases h Bool Bool Nat (List Nat) Bool Unit (smallEnv (· == ·)) true 1 [false, true] id none
    (fun p => .ok p) (fun _ _ => .ok ()) twoView viewSize (fun _ => 0) (by simp [twoView])
    (by decide) twoView_parts twoView_good twoView_covered with ⟨r, h1, _⟩ | ⟨err, i, p, _, _, h3⟩
  · rw [hraise] at h1; cases h1
  · rcases h3 with h3 | ⟨_, _, h3⟩ <;> cases h3

/-- The hypotheses of `C58_map` are met, and the function is called with the right values. -/
example : mapView (smallEnv (· == ·)) true [false, true] (fun _ => true) none (fun p => .ok p)
      readX twoView = .ok [(false, [some 10, some 20], none),
        (true, [some 30, some 40, some 50], none)] ∧
    ∃ zds k v, Shows (smallEnv (· == ·)) twoView viewSize none [true] zds ∧
      (.ok true : Py Bool) = .ok k ∧ readX zds none = .ok v := by
  refine ⟨rfl, ?_⟩
  rcases C58_map (smallEnv (· == ·)) true [false, true] (fun _ => true) none
    (fun p => (.ok p : Py Bool)) readX twoView viewSize (fun _ => 0) (by simp [twoView])
    twoView_parts twoView_good (.inl twoView_covered) with ⟨r, _, _, h⟩ | ⟨err, p, h, _⟩
  · obtain ⟨zds, k, v, h1, h2, h3, _⟩ := h 1 true (by rw [twoView_selected]; rfl)
    exact ⟨zds, k, v, h1, h2, h3⟩
  · have : (mapView (smallEnv (· == ·)) true [false, true] (fun _ => true) none
      (fun p => (.ok p : Py Bool)) readX twoView) = .ok [(false, [some 10, some 20], none),
        (true, [some 30, some 40, some 50], none)] := rfl
    rw [this] at h
    cases h

/-- The hypotheses of `C58_overlap_partial` are met. -/
example : mapViewOverlap (smallEnv (· == ·)) true (1 : Nat) [false, true] (fun _ => true) none
      (fun p => .ok p) readX twoView =
        .ok [(false, [some 10, some 20, some 30, some 40, some 50], some (0, 2)),
          (true, [some 10, some 20, some 30, some 40, some 50], some (2, 5))] ∧
    (selected (smallEnv (· == ·)) [false, true] (fun _ => true) twoView).length ≠ 1 := by
  refine ⟨rfl, ?_⟩
  rw [twoView_selected]
  decide

/-- The hypotheses of `C58_overlap_alone` are met. -/
example : mapViewOverlap (smallEnv (· == ·)) false (0 : Nat) [false, true] (fun _ => true) none
    (fun p => .ok p) readX twoView = .error .valueError :=
  C58_overlap_alone _ _ _ _ _ _ _ _ _ viewSize (fun _ => 0) (by simp [twoView]) (by decide)
    twoView_parts twoView_good twoView_covered (by rw [twoView_selected]; decide) (.inl rfl)

end Verif
