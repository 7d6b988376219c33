import Verif.Props.Update
import Verif.Props.Batches
import Verif.Lemmas.View

/-! C31: when an update of a collection succeeds, and when it refuses to start. -/

namespace Verif

open Spec Nd Ds Upd

variable {P V : Type} [DecidableEq P]

/-- The shape of a stored variable. -/
def storedShape (st : Store P V) (p : P) (n : String) : Option (List Nat) :=
  (st p).bind fun vars => (getVar vars n).map (·.array.shape)

omit [DecidableEq P] in
theorem storedShape_of {st : Store P V} {p : P} {n : String} {a : Arr V}
    (h : stored st p n = some a) : storedShape st p n = some a.shape := by
  unfold stored at h
  unfold storedShape
  cases hp : st p with
  | none => rw [hp] at h; cases h
  | some vars =>
    rw [hp] at h
    simp only [Option.map_eq_some_iff] at h
    obtain ⟨v, h1, rfl⟩ := h
    simp only [Option.bind_some, getVar, h1, Option.map_some]

theorem writeItem_accepts {st : Store P V} {p : P} {n : String} {a : Arr V}
    (h : storedShape st p n = some a.shape) :
    ∃ st', writeItem st p (n, .ok a) = .ok st' ∧
      ∀ q m, storedShape st' q m = storedShape st q m := by
  unfold storedShape at h
  cases hp : st p with
  | none => rw [hp] at h; cases h
  | some vars =>
    rw [hp] at h
    simp only [Option.bind_some] at h
    cases hv : getVar vars n with
    | none => rw [hv] at h; cases h
    | some v =>
      rw [hv] at h
      simp only [Option.map_some, Option.some.injEq] at h
      have hvn := (getVar_some _ _ _ hv).2
      refine ⟨setPart st p (setVar vars { v with array := a }),
        by simp [writeItem, bind, Except.bind, hp, writeVar, hv, h], ?_⟩
      intro q m
      unfold storedShape
      simp only [setPart]
      split
      · next hq =>
        subst hq
        simp only [hp, Option.bind_some, Vw.getVar_setVar]
        split
        · next hm =>
          rw [hvn] at hm
          rw [← hm, hv]
          simp [h]
        · rfl
      · rfl

theorem writeAll_accepts {p : P} (l : Dict V) {st : Store P V}
    (h : ∀ x ∈ l, storedShape st p x.1 = some x.2.shape) :
    ∃ st', writeAll st p (l.map fun x => (x.1, .ok x.2)) = (st', .ok ()) ∧
      ∀ q m, storedShape st' q m = storedShape st q m := by
  induction l generalizing st with
  | nil => exact ⟨st, rfl, fun _ _ => rfl⟩
  | cons x t ih =>
    obtain ⟨st1, w1, w2⟩ := writeItem_accepts (h x (List.mem_cons_self ..))
    obtain ⟨st2, i1, i2⟩ := ih (st := st1) fun y hy => by
      rw [w2]; exact h y (List.mem_cons_of_mem _ hy)
    exact ⟨st2, by simp only [List.map_cons, writeAll, w1, i1],
      fun q m => (i2 q m).trans (w2 q m)⟩

/-- C31: when an update without overlap succeeds: the callback accepts each selected partition
and returns arrays with the shapes stored in this partition, and either the names of the
variables are given, or the callback accepts the first partition without the immutable variables
and returns variables of the collection. -/
theorem C31_accepted (c : Cfg P V) (f : Callback V (Dict V)) (isLazy : Bool)
    (known vars : List String) (workers : Int) (st : Store P V)
    (hnd : c.parts.Nodup) (hne : c.parts ≠ []) (hw : 0 < workers)
    (hlazy : isLazy = false ∨ ∀ zds ind d, f zds ind = .ok d → d.length ≤ 1)
    (hvars : vars ≠ [] ∨ ∀ p, c.parts.head? = some p → ∃ zds n d,
      openPart c.delayed c.sel st p = .ok zds ∧ zds.dims.lookup c.dim = some n ∧
      f zds (some (0, n)) = .ok d ∧ ∀ x ∈ d, x.1 ∈ known)
    (hf : ∀ p ∈ c.parts, ∃ zds d, loadDataset c st p = .ok zds ∧ f zds none = .ok d ∧
      ∀ x ∈ d, ∃ a, stored st p x.1 = some a ∧ x.2.shape = a.shape) :
    ∃ st', update c 0 f isLazy known vars workers st = (st', .ok ()) := by
  have hparts : ∀ (ps : List P), ps.Nodup → (∀ p ∈ ps, p ∈ c.parts) → ∀ s : Store P V,
      (∀ q m, storedShape s q m = storedShape st q m) → (∀ p ∈ ps, s p = st p) →
      ∃ st', updateParts { c with depth := 0 } f false s ps = (st', .ok ()) := by
    intro ps
    induction ps with
    | nil => intro _ _ s _ _; exact ⟨s, rfl⟩
    | cons p t ih =>
      intro hn hm s hs hun
      rw [List.nodup_cons] at hn
      obtain ⟨zds, d, h1, h2, h3⟩ := hf p (hm p (List.mem_cons_self ..))
      have hitems : items { c with depth := 0 } f s p = .ok (d.map fun x => (x.1, .ok x.2)) := by
        rw [items_local { c with depth := 0 } rfl f p (hun p (List.mem_cons_self ..))]
        have h1' : loadDataset { c with depth := 0 } st p = .ok zds := h1
        simp only [items, if_true, bind, Except.bind, h1', h2]
      obtain ⟨s1, w1, w2⟩ := writeAll_accepts (p := p) d (st := s) fun x hx => by
        obtain ⟨a, a1, a2⟩ := h3 x hx
        rw [hs, storedShape_of a1, a2]
      have hone : updatePart { c with depth := 0 } f false s p = (s1, .ok ()) := by
        simp only [updatePart, hitems, Bool.false_eq_true, if_false, w1]
      have hother := updatePart_other hone
      obtain ⟨s2, i1⟩ := ih hn.2 (fun q hq => hm q (List.mem_cons_of_mem _ hq)) s1
        (fun q m => (w2 q m).trans (hs q m)) fun q hq => by
          rw [hother q (by rintro rfl; exact hn.1 hq), hun q (List.mem_cons_of_mem _ hq)]
      exact ⟨s2, by simp only [updateParts, hone, i1]⟩
  obtain ⟨st', hst⟩ := hparts c.parts hnd (fun _ h => h) st (fun _ _ => rfl) fun _ _ => rfl
  have hst' : updateParts { c with depth := 0 } f isLazy st c.parts = (st', .ok ()) := by
    rcases hlazy with hl | hl
    · rw [hl]; exact hst
    · cases isLazy with
      | false => exact hst
      | true => rw [updateParts_single hl]; exact hst
  have hnames : ∃ names, (if vars = [] then infer c f known st else .ok vars) = .ok names := by
    split
    · next hv =>
      rcases hvars with hvars | hvars
      · exact absurd hv hvars
      · unfold infer
        cases hp : c.parts with
        | nil => exact ⟨_, rfl⟩
        | cons p t =>
          obtain ⟨zds, n, d, h1, h2, h3, h4⟩ := hvars p (by rw [hp]; rfl)
          simp only [bind, Except.bind, h1, h2, h3]
          rw [if_neg (by rintro ⟨x, hx, hn⟩; exact hn (h4 x hx))]
          exact ⟨_, rfl⟩
    · exact ⟨_, rfl⟩
  obtain ⟨names, hnames⟩ := hnames
  obtain ⟨bs, b1, b2, _⟩ := C19_split_sequence c.parts (some workers) hne (by simp [hw])
  unfold update
  rw [hnames]
  cases names with
  | nil => exact ⟨st, rfl⟩
  | cons v vs =>
    simp only [Int.lt_irrefl, if_false, ne_eq, not_true_eq_false, b1, b2]
    exact ⟨st', hst'⟩

/-- C31: without names of variables, an update that selects no partition does nothing. -/
theorem C31_nothing_selected (c : Cfg P V) (depth : Int) (f : Callback V (Dict V)) (isLazy : Bool)
    (known : List String) (workers : Int) (st : Store P V) (hp : c.parts = []) :
    update c depth f isLazy known [] workers st = (st, .ok ()) := by
  simp [update, infer, hp]

/-- C31: without names of variables, an update writes nothing and raises when the callback raises,
or returns a variable that the collection does not have, for the first selected partition. -/
theorem C31_refused (c : Cfg P V) (depth : Int) (f : Callback V (Dict V)) (isLazy : Bool)
    (known : List String) (workers : Int) (st : Store P V) (hp : c.parts ≠ [])
    (hf : ∀ zds n d, f zds (some (0, n)) = .ok d → ∃ x ∈ d, x.1 ∉ known) :
    ∃ err, update c depth f isLazy known [] workers st = (st, .error err) := by
  have : ∃ err, infer c f known st = .error err := by
    unfold infer
    split
    · next h => exact absurd h hp
    · simp only [bind, Except.bind]
      split
      · exact ⟨_, rfl⟩
      · split
        · exact ⟨_, rfl⟩
        · split
          · exact ⟨_, rfl⟩
          · next d hd =>
            rw [if_pos (hf _ _ d hd)]
            exact ⟨_, rfl⟩
  obtain ⟨err, h⟩ := this
  exact ⟨err, by simp [update, h]⟩

namespace UpdateAcceptedCase

/-- Two partitions. -/
def two : Store String Nat :=
  storeOf [("p", [dvar "x" [1], dvar "y" [2]]), ("q", [dvar "x" [3, 4], dvar "y" [5, 6]])]

/-- The hypotheses of `C31_accepted` are met, without names of variables and with one dask
array. -/
example : ∃ st', update (plain 0 ["p", "q"]) 0 copyXY true ["x", "y"] [] 3 two =
    (st', .ok ()) := by
  refine C31_accepted _ _ _ _ _ _ _ (by decide) (by simp [plain]) (by decide)
    (.inr fun zds ind d h => ?_) (.inr fun p hp => ?_) fun p hp => ?_
  · obtain ⟨a, rfl⟩ := copyXY_spec zds ind d h
    simp
  · cases hp
    refine ⟨_, 1, [("y", vec [1])], rfl, rfl, rfl, ?_⟩
    simp
  · have hp : p = "p" ∨ p = "q" := by simpa [plain] using hp
    rcases hp with rfl | rfl
    · refine ⟨_, [("y", vec [1])], rfl, rfl, fun x hx => ?_⟩
      rw [List.mem_singleton.1 hx]
      exact ⟨vec [2], rfl, rfl⟩
    · refine ⟨_, [("y", vec [3, 4])], rfl, rfl, fun x hx => ?_⟩
      rw [List.mem_singleton.1 hx]
      exact ⟨vec [5, 6], rfl, rfl⟩

/-- The hypotheses of `C31_refused` are met by a callback that returns an unknown variable. -/
example : ∃ err, update (plain 0 ["p", "q"]) 0 copyXY true ["x"] [] 3 two = (two, .error err) :=
  C31_refused _ _ _ _ _ _ _ (by simp [plain]) fun zds n d h => by
    obtain ⟨a, rfl⟩ := copyXY_spec zds _ d h
    exact ⟨("y", a), by simp, by simp⟩

end UpdateAcceptedCase

end Verif
