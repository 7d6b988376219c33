import Verif.Props.IndexLoad

/-! C66 on a collection of two partitions. -/

namespace Verif

namespace IxCase

open Spec Nd Ds Upd Ix

/-- Two cycles. -/
def parts : Store Row Nat := fun p =>
  if p = [("cycle", 1)] then some [dvar "x" [5, 6, 7]]
  else if p = [("cycle", 2)] then some [dvar "x" [8, 9]]
  else none

theorem parts_cases (p : Row) (vars : List (Var Nat)) (h : parts p = some vars) :
    (p = [("cycle", 1)] ∧ vars = [dvar "x" [5, 6, 7]]) ∨
      (p = [("cycle", 2)] ∧ vars = [dvar "x" [8, 9]]) := by
  unfold parts at h
  split at h
  · next hp => cases h; exact .inl ⟨hp, rfl⟩
  · split at h
    · next hq => cases h; exact .inr ⟨hq, rfl⟩
    · cases h

/-- The values of the records. -/
def values (p : Row) : List Nat := if p = [("cycle", 1)] then [5, 6, 7] else [8, 9]

def cfg : Cfg Row Nat :=
  { delayed := false, imm := none, sel := none, depth := 0, dim := "d", trim := true,
    parts := [[("cycle", 1)], [("cycle", 2)]] }

/-- One row for each record, with its value. -/
def rowsFor (xs : List Nat) : List (List Int) :=
  xs.zipIdx.map fun x => [(x.2 : Int), x.2 + 1, x.1]

/-- The function that indexes a dataset by the values of its variable. -/
def func : Callback Nat Data := fun zds _ => do
  let a ← arrayOf zds "x"
  match a.shape with
  | [n] => .ok ⟨["start", "stop", "pass"], rowsFor ((List.range n).filterMap fun j => a.get [j])⟩
  | _ => .error .valueError

def attr (p : Row) (j : Nat) : Values := fun n =>
  if n = "cycle" then p.lookup n else if n = "pass" then (values p)[j]?.map Int.ofNat else none

theorem rowsFor_describes (p : Row) (k : Int) (hp : p = [("cycle", k)]) :
    RowsDescribe ["pass", "cycle"] (attr p) (values p).length
      ((rowsFor (values p)).map (dataValues p ["start", "stop", "pass"])) := by
  have hmem : ∀ f ∈ (rowsFor (values p)).map (dataValues p ["start", "stop", "pass"]),
      ∃ (j v : Nat), (values p)[j]? = some v ∧ f "start" = some (j : Int) ∧
        f "stop" = some ((j : Int) + 1) ∧ f "pass" = some (v : Int) ∧ f "cycle" = some k := by
    intro f hf
    obtain ⟨r, hr, rfl⟩ := List.mem_map.1 hf
    obtain ⟨⟨v, j⟩, hx, rfl⟩ := List.mem_map.1 hr
    refine ⟨j, v, List.mem_zipIdx_iff_getElem?.1 hx, ?_⟩
    subst hp
    exact ⟨rfl, rfl, rfl, rfl⟩
  refine ⟨?_, ?_, ?_, ?_⟩
  · intro f hf
    obtain ⟨j, v, h1, h2, h3, _⟩ := hmem f hf
    have := (List.getElem?_eq_some_iff.1 h1).1
    exact ⟨_, _, h2, h3, by omega, by omega, by omega⟩
  · intro f hf i hi c hc
    obtain ⟨j, v, h1, h2, h3, h4, h5⟩ := hmem f hf
    obtain ⟨a, b, e1, e2, e3, e4⟩ := hi
    rw [h2] at e1
    rw [h3] at e2
    cases e1
    cases e2
    have : i = j := by omega
    subst this
    simp only [List.mem_cons, List.not_mem_nil, or_false] at hc
    rcases hc with rfl | rfl
    · rw [h4]
      simp [attr, h1]
    · rw [h5]
      subst hp
      rfl
  · intro j hj
    refine ⟨dataValues p ["start", "stop", "pass"] [(j : Int), j + 1, ((values p)[j] : Nat)],
      List.mem_map.2 ⟨_, List.mem_map.2 ⟨((values p)[j], j), ?_, rfl⟩, rfl⟩, j, j + 1, ?_⟩
    · exact List.mem_zipIdx_iff_getElem?.2 (List.getElem?_eq_getElem hj)
    · subst hp
      exact ⟨rfl, rfl, by omega, by omega⟩
  · intro f hf g hg a b a' b' e1 e2 e3 e4 hlt
    obtain ⟨j, v, _, h2, h3, _⟩ := hmem f hf
    obtain ⟨j', v', _, h2', h3', _⟩ := hmem g hg
    rw [h2] at e1
    rw [h3] at e2
    rw [h2'] at e3
    rw [h3'] at e4
    cases e1
    cases e2
    cases e3
    cases e4
    omega

theorem indexes : Indexes func cfg parts ["start", "stop", "pass"] ["pass", "cycle"]
    (fun p => (values p).length) attr := by
  refine ⟨?_⟩
  intro p hp
  simp only [cfg, List.mem_cons, List.not_mem_nil, or_false] at hp
  rcases hp with rfl | rfl
  · exact ⟨_, _, rfl, rfl, rfl, by decide, rowsFor_describes _ 1 rfl⟩
  · exact ⟨_, _, rfl, rfl, rfl, by decide, rowsFor_describes _ 2 rfl⟩

theorem uniform : Uniform "d" (fun p => (values p).length) (fun _ => 0) parts := by
  have hd : ∀ p vs, parts p = some vs → vs = [dvar "x" (values p)] := by
    intro p vs h
    rcases parts_cases p vs h with ⟨rfl, rfl⟩ | ⟨rfl, rfl⟩ <;> rfl
  refine ⟨⟨?_, ?_⟩, ?_, ?_⟩
  · intro p vs hp
    rw [hd p vs hp]
    refine ⟨by simp, ?_⟩
    intro v hv
    simp only [List.mem_singleton] at hv
    subst hv
    exact ⟨vec_arrOk _, by simp [dvar]⟩
  · intro p q vs ws hp hq v hv w hw _
    rw [hd p vs hp, List.mem_singleton] at hv
    rw [hd q ws hq, List.mem_singleton] at hw
    subst hv
    subst hw
    simp [dvar]
  · intro p q vs ws hp hq v hv
    rw [hd p vs hp, List.mem_singleton] at hv
    rw [hd q ws hq]
    subst hv
    exact ⟨_, List.mem_singleton.2 rfl, rfl⟩
  · intro p vs hp v hv
    rw [hd p vs hp, List.mem_singleton] at hv
    subst hv
    simp [dvar, vec]

theorem axis (p : Row) (vars : List (Var Nat)) (h : parts p = some vars) :
    ∃ v ∈ vars, Chosen none v.name ∧ "d" ∈ v.dims := by
  rcases parts_cases p vars h with ⟨_, rfl⟩ | ⟨_, rfl⟩ <;>
  exact ⟨_, List.mem_singleton.2 rfl, (fun l hl => by cases hl), by decide⟩

def opts : Ld.Opts Nat := { dim := "d", delayed := false, sel := none, imm := none }

/-- A new index. -/
def newIndex : State where
  keys := ["cycle"]
  types := ["start", "stop", "pass", "cycle"]
  file := none
  table := none

/-- An index with the rows of a partition that was dropped since. -/
def oldIndex : State where
  keys := ["cycle"]
  types := ["start", "stop", "pass", "cycle"]
  file := some { names := ["start", "stop", "pass", "cycle"]
                 rows := [[("start", 0), ("stop", 1), ("pass", 5), ("cycle", 1)],
                          [("start", 0), ("stop", 4), ("pass", 6), ("cycle", 3)]] }
  table := none

theorem newIndex_good : GoodIndex newIndex ["start", "stop", "pass"] :=
  ⟨by decide, by decide, by decide, fun t ht => by cases ht⟩

theorem oldIndex_good : GoodIndex oldIndex ["start", "stop", "pass"] := by
  refine ⟨by decide, by decide, by decide, ?_⟩
  intro t ht
  cases ht
  exact ⟨by decide, by decide⟩

theorem listing (p : Row) : p ∈ cfg.parts ↔ parts p ≠ none := by
  simp only [cfg, List.mem_cons, List.not_mem_nil, or_false, parts]
  split
  · next h => simp [h]
  · next h =>
    split
    · next h' => simp [h']
    · next h' => simp [h, h']

theorem keys_of (p : Row) (h : parts p ≠ none) : p.map (·.1) = ["cycle"] := by
  have := (listing p).2 h
  simp only [cfg, List.mem_cons, List.not_mem_nil, or_false] at this
  rcases this with rfl | rfl <;> rfl

theorem positive (p : Row) : 0 < (values p).length := by
  unfold values
  split <;> decide

/-- The hypotheses of `C66_indexed_partial` are met: the records with the values 6, 7 and 9. -/
example : ∃ st' segs zds, updateAll newIndex cfg func parts = (st', .ok ()) ∧
    queryLoad opts st' [("pass", [9, 6, 7])] (some "and") none parts (fun _ => true) =
      .ok (some zds) ∧
    Retrieves (fun p j => parts p ≠ none ∧ true = true ∧ j < (values p).length ∧
      Meets "and" [("pass", [9, 6, 7])] (attr p j)) segs ∧
    HoldsSegments "d" none parts segs zds := by
  obtain ⟨st', h1, h2⟩ := C66_indexed_partial opts newIndex ["start", "stop", "pass"]
    ["pass", "cycle"] cfg func parts (fun p => (values p).length) (fun _ => 0) attr newIndex_good
    (by decide) (by decide) listing keys_of (fun p _ => positive p)
    ⟨[("cycle", 1)], by decide⟩ indexes uniform axis (fun iv h => by cases h) (fun r hr => by cases hr)
  obtain ⟨segs, zds, g1, g2, g3, _⟩ := (h2 [("pass", [9, 6, 7])] "and" (fun _ => true) (by decide)
    (by decide)).1 ⟨[("cycle", 1)], 1, by decide, rfl, by decide, .inr (.inl ⟨rfl, by decide⟩)⟩
  exact ⟨st', segs, zds, h1, g1, g2, g3⟩

/-- The same, computed. -/
example : (do
    let r ← queryLoad opts (updateAll newIndex cfg func parts).1 [("pass", [9, 6, 7])] (some "and")
      none parts (fun _ => true)
    match r with
    | some zds => do
      let a ← arrayOf zds "x"
      .ok (a.shape, (List.range 4).map fun j => a.get [j])
    | none => .error .valueError : Py (List Nat × List (Option Nat))) =
    .ok ([3], [some 6, some 7, some 9, none]) := by
  decide +kernel

end IxCase

open IxCase Spec Ix

/-- C66 is violated: the rows of a partition that was dropped stay in the index whatever the
updates, and the load of what a query selects raises. -/
theorem C66_counterexample : ¬ C66_full := by
  intro h
  obtain ⟨st', h1, h2⟩ := h Nat opts oldIndex ["start", "stop", "pass"] ["pass", "cycle"] cfg func
    parts (fun p => (values p).length) (fun _ => 0) attr oldIndex_good (by decide) (by decide)
    listing keys_of (fun p _ => positive p) ⟨[("cycle", 1)], by decide⟩ indexes uniform axis
    (fun iv h => by cases h)
  obtain ⟨segs, zds, g, _⟩ := h2 [("pass", [6])] "and" (fun _ => true) (by decide) (by decide)
    ⟨[("cycle", 1)], 1, by decide, rfl, by decide, .inr (.inl ⟨rfl, by decide⟩)⟩
  have hst : st' = (updateAll oldIndex cfg func parts).1 := by rw [h1]
  rw [hst] at g
  have he : queryLoad opts (updateAll oldIndex cfg func parts).1 [("pass", [6])] (some "and") none
      parts (fun _ => true) = .error .keyError := rfl
  rw [he] at g
  cases g

/-- The hypotheses of `C66_dropped` are met by the row of the partition that was dropped. -/
example : ∃ e, queryLoad opts oldIndex [("pass", [6])] (some "and") none parts (fun _ => true) =
    .error e := by
  have hfile : ∀ r, Matched { names := ["start", "stop", "pass", "cycle"]
                              rows := [[("start", 0), ("stop", 1), ("pass", 5), ("cycle", 1)],
                                [("start", 0), ("stop", 4), ("pass", 6), ("cycle", 3)]] } none "and"
      [("pass", [6])] r → r.lookup "start" = some 0 := by
    rintro r ⟨i, hi, _⟩
    have := List.mem_of_getElem? hi
    simp only [List.mem_cons, List.not_mem_nil, or_false] at this
    rcases this with rfl | rfl <;> rfl
  refine C66_dropped opts oldIndex _ [("pass", [6])] "and" (by decide) none parts (fun _ => true)
    ⟨by decide, rfl, by decide, by decide, by decide, (fun m hm => by cases hm)⟩ ?_
    [("start", 0), ("stop", 4), ("pass", 6), ("cycle", 3)]
    ⟨1, rfl, (fun m hm => by cases hm), .inr (.inl ⟨rfl, by decide⟩)⟩
    ⟨0, 0, 4, rfl, rfl, by decide, by decide⟩ [("cycle", 3)] rfl (by decide) (by decide) rfl
  intro r r' a b a' b' hr hr' _ h1 _ h2 _ hlt
  rw [hfile r hr] at h1
  rw [hfile r' hr'] at h2
  cases h1
  cases h2
  omega

end Verif
