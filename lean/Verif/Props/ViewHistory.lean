import Verif.Spec.ViewHistory
import Verif.Props.ViewUpdateLoad
import Verif.Props.UpdateHistory

/-! C85 for histories: a load of a view after any number of updates. -/

namespace Verif

open Spec Nd Ds Upd Vw

variable {D P V H : Type} [DecidableEq D] [DecidableEq P]

/-- The updates of the view, one after the other, all succeed. -/
def AllViewUpdated (e : Env D V H) (listing : List P) :
    List (ViewChange P V) → State D P V H → State D P V H → Prop
  | [], st, st' => st' = st
  | u :: t, st, st' => ∃ s, Vw.update e u.how listing u.filters u.sel u.f st = (s, .ok ()) ∧
      AllViewUpdated e listing t s st'

/-- The updates of `C85_read_partial`. -/
structure ViewChangeOk (e : Env D V H) (st : State D P V H) (u : ViewChange P V) : Prop where
  covered : DimsCovered e st u.sel ∨ ViewOnly e st u.sel ∧ u.how.depth = 0
  arrays : MapsArrays u.f
  keys : Keys u.f
  mode : u.how.delayed = false ∨ u.how.depth = 0 ∧
    (u.how.isLazy = false ∨ ∀ zds ind d, u.f zds ind = .ok d → d.length ≤ 1)

omit [DecidableEq D] [DecidableEq P] in
theorem covered_depth {e : Env D V H} {st st' : State D P V H} {sel : Option (List String)}
    {depth : Int} (hm : st'.metas = st.metas)
    (hr : ∀ p, st'.files e.refDir p = st.files e.refDir p)
    (hs : ∀ p, ∃ names, SamePart names (st.files e.base p) (st'.files e.base p))
    (hc : DimsCovered e st sel ∨ ViewOnly e st sel ∧ depth = 0) :
    DimsCovered e st' sel ∨ ViewOnly e st' sel ∧ depth = 0 := by
  rcases hc with hc | ⟨hc, h0⟩
  · rcases covered_same hm hr hs (.inl hc) with h | h
    · exact .inl h
    · exact .inl (by
        intro p r b hpr hb
        rw [hr p] at hpr
        obtain ⟨names, hp⟩ := hs p
        rw [hb] at hp
        obtain ⟨a, hpa, h2⟩ := samePart_some hp
        obtain ⟨c1, c2⟩ := hc p r a hpr hpa
        refine ⟨c1, fun w hw hch hme d hdw => ?_⟩
        obtain ⟨v, hv, hvw⟩ := sameVars_origin h2 w hw
        rw [hm] at hme
        exact c2 v hv (by rw [hvw.1]; exact hch) (by rw [hvw.1]; exact hme) d
          (by rw [hvw.2.2.1]; exact hdw))
  · refine .inr ⟨?_, h0⟩
    unfold ViewOnly
    rw [hm]
    exact hc

theorem view_updates_keep (e : Env D V H) (hd : e.base ≠ e.refDir) (listing : List P)
    (hl : listing.Nodup) (size : P → Nat) (other : String → Nat) (us : List (ViewChange P V)) :
    ∀ st st' : State D P V H, (∀ p ∈ listing, st.files e.refDir p ≠ none) →
    GoodView e st size other → (∀ u ∈ us, ViewChangeOk e st u) → AllViewUpdated e listing us st st' →
    ViewMadeInTurn e size listing us st st' ∧ GoodView e st' size other ∧
    st'.metas = st.metas ∧ (∀ p, st'.files e.refDir p = st.files e.refDir p) ∧
    (∀ p, ∃ names, SamePart names (st.files e.base p) (st'.files e.base p)) := by
  induction us with
  | nil =>
    intro st st' href hg _ h
    cases h
    exact ⟨rfl, hg, rfl, fun _ => rfl, fun _ => ⟨[], samePart_refl _ _⟩⟩
  | cons u t ih =>
    intro st st' href hg hok h
    obtain ⟨s, h1, h2⟩ := h
    have hu := hok u (by simp)
    obtain ⟨k1, k2, k3, k4⟩ := viewStore_updated hd h1
    have hg' := goodView_updated e u.how listing u.filters u.sel u.f st s size other hd hl href hg
      hu.covered hu.arrays hu.keys hu.mode h1
    obtain ⟨m1, m2, m3, m4, m5⟩ := ih s st' (fun p hp => by rw [k2 p]; exact href p hp) hg'
      (fun v hv => by
        have := hok v (by simp [hv])
        exact ⟨covered_depth k1 k2 k3 this.covered, this.arrays, this.keys, this.mode⟩) h2
    refine ⟨⟨s, ⟨k1, k2, ?_, ?_⟩, m1⟩, m2, m3.trans k1, fun p => (m4 p).trans (k2 p), ?_⟩
    · intro p hp n
      unfold viewValues
      rw [k4 p (by rw [partitions_selected e listing u.filters st href]; exact hp)]
    · intro i p hp
      obtain ⟨zds, d, v1, v2, v3, v4⟩ := update_values e u.how listing u.filters u.sel u.f st s
        size other hl href hg hu.covered hu.arrays hu.keys hu.mode h1 i p hp
      refine ⟨zds, d, v1, v2, fun x hx => ?_, v4⟩
      obtain ⟨a, a1, _, a2⟩ := v3 x hx
      exact ⟨a, a1, a2⟩
    · intro p
      obtain ⟨n1, p1⟩ := k3 p
      obtain ⟨n2, p2⟩ := m5 p
      refine ⟨n1 ++ n2, ?_⟩
      generalize st.files e.base p = x at p1
      generalize s.files e.base p = y at p1 p2
      generalize st'.files e.base p = z at p2
      cases p1 with
      | absent => cases p2; exact .absent
      | present a b c1 c2 =>
        cases p2 with
        | present b c d1 d2 =>
          exact .present _ _ (d1.trans c1) (sameVars_trans
            (sameVars_mono (by simp +contextual) c2) (sameVars_mono (by simp +contextual) d2))

/-- C85 for any number of updates: the load succeeds and shows the content made from the first
one by the changes in turn, each callback being given what the view showed after the updates
before it.  Missing: the modes excluded from `C85_read_partial`. -/
theorem C85_history_partial [DecidableEq H] (e : Env D V H) (le : P → P → Bool)
    (listing : List P) (filters : P → Bool) (sel : Option (List String)) (delayed : Bool)
    (us : List (ViewChange P V)) (st st' : State D P V H) (size : P → Nat) (other : String → Nat)
    (hd : e.base ≠ e.refDir) (hl : listing.Nodup)
    (href : ∀ p ∈ listing, st.files e.refDir p ≠ none) (hg : GoodView e st size other)
    (hmne : st.metas ≠ []) (hok : ∀ u ∈ us, ViewChangeOk e st u)
    (hc : DimsCovered e st sel ∨ ViewOnly e st sel)
    (hsel : ∃ p ∈ listing, filters p = true ∧ viewStore e st p ≠ none)
    (h : AllViewUpdated e listing us st st') :
    ∃ zds, ViewMadeInTurn e size listing us st st' ∧
      load e le listing delayed filters none sel st' = .ok (some zds) ∧
      ShowsContent e.dim size sel (viewStore e st') (selected e listing filters st) zds := by
  obtain ⟨m1, m2, m3, m4, m5⟩ := view_updates_keep e hd listing hl size other us st st' href hg
    hok h
  have hsome : ∀ p, (viewStore e st' p).isSome = (viewStore e st p).isSome := by
    intro p
    unfold viewStore
    rw [m4 p]
    obtain ⟨names, hp⟩ := m5 p
    generalize st.files e.base p = a at hp
    generalize st'.files e.base p = b at hp
    cases st.files e.refDir p with
    | none => rfl
    | some r => cases hp <;> rfl
  rcases C40_filters_partial e le listing delayed filters sel st' size other
    (by rw [m3]; exact hmne) (fun p hp => by rw [m4 p]; exact href p hp) m2
    (covered_same m3 m4 m5 hc) with ⟨_, ps, zds, h1, hps, hwin, _⟩ | ⟨hnone, _⟩
  · have hps' : ps = selected e listing filters st := by
      rw [hps]
      unfold selected
      simp only [hsome]
    subst hps'
    refine ⟨zds, m1, h1, ?_⟩
    intro k q ws hkq hws w hwm hch
    obtain ⟨v', hv', hn⟩ := hwin.present q (List.mem_of_getElem? hkq) ws hws w hwm hch
    obtain ⟨e1, e2, e3⟩ := hwin.values v' hv' k q ws w hkq hws hwm hn.symm
    exact ⟨v', hv', hn, e1, e2, e3⟩
  · obtain ⟨p, hp1, hp2, hp3⟩ := hsel
    have := hsome p
    rw [hnone p hp1 hp2] at this
    cases hx : viewStore e st p with
    | none => exact absurd hx hp3
    | some vs => rw [hx] at this; cases this

theorem mapVar_maps (name : String) (g : V → V) : MapsArrays (mapVar name g) := by
  intro zds ind d hz h x hx
  obtain ⟨a, ha, rfl⟩ := mapVar_spec h
  simp only [List.mem_singleton] at hx
  subst hx
  obtain ⟨w, hw, _, rfl⟩ := UpdateLoadCase.arrayOf_mem ha
  exact mapArr_ok g _ (hz w hw)

namespace ViewHistoryCase

def succeeded {A : Type} (x : A × Py Unit) : Bool :=
  match x.2 with
  | .ok _ => true
  | .error _ => false

theorem succeeded_eq {A : Type} (x : A × Py Unit) (h : succeeded x = true) : x = (x.1, .ok ()) := by
  obtain ⟨a, r⟩ := x
  cases r with
  | ok _ => rfl
  | error _ => cases h

/-- One is added to all the values. -/
def change1 : ViewChange Bool Nat :=
  { how := lazyMode, filters := fun _ => true, sel := none, f := mapVar "x" (· + 1) }

/-- All the values are doubled, with an overlap. -/
def change2 : ViewChange Bool Nat :=
  { how := { overlapMode false with workers := 2 }, filters := fun _ => true, sel := none,
    f := mapVar "x" (2 * ·) }

def run (u : ViewChange Bool Nat) (st : State Bool Bool Nat (List Nat)) :
    State Bool Bool Nat (List Nat) × Py Unit :=
  Vw.update (smallEnv (· == ·)) u.how [false, true] u.filters u.sel u.f st

theorem run1 : succeeded (run change1 twoView) = true := by decide +kernel

theorem run2 : succeeded (run change2 (run change1 twoView).1) = true := by decide +kernel

def last : State Bool Bool Nat (List Nat) := (run change2 (run change1 twoView).1).1

theorem last_values : (viewValues (smallEnv (· == ·)) last true "x").map
    (fun a => [a.get [0], a.get [1], a.get [2]]) = some [some 62, some 82, some 102] := by
  decide +kernel

theorem last_updated :
    AllViewUpdated (smallEnv (· == ·)) [false, true] [change1, change2] twoView last :=
  ⟨_, succeeded_eq _ run1, _, succeeded_eq _ run2, rfl⟩

/-- The hypotheses of `C85_history_partial` are met, and the values are those of both changes. -/
example : ∃ zds,
    ViewMadeInTurn (smallEnv (· == ·)) viewSize [false, true] [change1, change2] twoView last ∧
    load (smallEnv (· == ·)) (fun _ _ => true) [false, true] true (fun _ => true) none none last =
      .ok (some zds) ∧
    ShowsContent "time" viewSize none (viewStore (smallEnv (· == ·)) last) [false, true] zds := by
  have := C85_history_partial (smallEnv (· == ·)) (fun _ _ => true) [false, true] (fun _ => true)
    none true [change1, change2] twoView last viewSize (fun _ => 0) (by decide) (by decide)
    twoView_parts twoView_good (by simp [twoView]) (by
      intro u hu
      simp only [List.mem_cons, List.not_mem_nil, or_false] at hu
      rcases hu with rfl | rfl
      · exact ⟨.inl twoView_covered, mapVar_maps _ _, fun zds ind d hd => by
          obtain ⟨_, _, rfl⟩ := mapVar_spec (ind := ind) hd; simp, .inr ⟨rfl, .inr fun zds ind d hd => by
          obtain ⟨_, _, rfl⟩ := mapVar_spec (ind := ind) hd; simp⟩⟩
      · exact ⟨.inl twoView_covered, mapVar_maps _ _, fun zds ind d hd => by
          obtain ⟨_, _, rfl⟩ := mapVar_spec (ind := ind) hd; simp, .inl rfl⟩)
    (.inl twoView_covered) ⟨true, by simp, rfl, by rw [twoView_store]; simp⟩ last_updated
  rw [twoView_selected] at this
  exact this

/-- A history of a view may have updates with callbacks that compute from what they are given. -/
example (how : How) : Reach (smallEnv natEq) true (Vw.update (smallEnv natEq) how [()]
    (fun _ => true) none (mapVar "x" (· + 1)) natView).1 := by
  refine .update natView how [()] (fun _ => true) none _ natView_reach (by simp)
    (.inr ⟨mapVar_maps _ _, ?_⟩)
  intro p r hr v hv
  have hr' : natView.files (smallEnv natEq).refDir p = some (onlyTime [0, 1]) := rfl
  rw [hr'] at hr
  cases hr
  simp only [onlyTime, List.mem_singleton] at hv
  subst hv
  exact vec_arrOk _

end ViewHistoryCase

end Verif
