import Verif.Spec.UpdateLoad
import Verif.Props.Overlap
import Verif.Props.Load

/-! Lemmas about a load after an update. -/

namespace Verif

open Spec Nd Ds Upd

variable {P V : Type} [DecidableEq P]

/-- What a partition holds after a successful update without overlap. -/
theorem update_written {c : Cfg P V} {f : Callback V (Dict V)} {isLazy : Bool}
    {known vars : List String} {workers : Int} {st st' : Store P V}
    (hnd : c.parts.Nodup) (hk : Keys f)
    (hlazy : isLazy = false ∨ ∀ zds ind d, f zds ind = .ok d → d.length ≤ 1)
    (hret : vars ≠ [] ∨ ∀ zds ind d, f zds ind = .ok d → d ≠ [])
    (h : update c 0 f isLazy known vars workers st = (st', .ok ())) (p : P) (hp : p ∈ c.parts) :
    ∃ zds d, loadDataset c st p = .ok zds ∧ f zds none = .ok d ∧
      (∀ x ∈ d, stored st' p x.1 = some x.2) ∧
      match st p, st' p with
      | none, none => True
      | some vs, some ws => SameVars (d.map (·.1)) vs ws
      | _, _ => False := by
  rcases update_cases c 0 f isLazy known vars workers st with
    ⟨e, h'⟩ | ⟨h1, h2, h'⟩ | ⟨_, c', h1, h2, h3, h4, _, _, h5, h'⟩
  · rw [h] at h'; cases h'
  · exfalso
    rcases hret with hret | hret
    · exact hret h1
    · unfold infer at h2
      split at h2
      · next hparts => rw [hparts] at hp; simp at hp
      · simp only [bind, Except.bind] at h2
        split at h2
        · cases h2
        · split at h2
          · cases h2
          · split at h2
            · cases h2
            · next d hd =>
              split at h2
              · cases h2
              · simp only [Except.ok.injEq, List.map_eq_nil_iff] at h2
                exact hret _ _ _ hd h2
  · rw [h] at h'
    have heager : updateParts c' f false st c.parts = (st', .ok ()) := by
      rcases hlazy with hl | hl
      · rw [← hl]; exact h'.symm
      · cases isLazy with
        | false => exact h'.symm
        | true => rw [← updateParts_single hl]; exact h'.symm
    have hd0 : c'.depth = 0 := by rw [h1]; rfl
    have hafter : ∀ (ps : List P) (s : Store P V), ps.Nodup → (∀ q ∈ ps, s q = st q) →
        updateParts c' f false s ps = (st', .ok ()) →
        ∀ q ∈ ps, st' q = (after c' f st q).1 ∧ (after c' f st q).2 = .ok () := by
      intro ps
      induction ps with
      | nil => simp
      | cons a t ih =>
        intro s hnd hs hu
        rw [List.nodup_cons] at hnd
        simp only [updateParts] at hu
        split at hu
        · cases hu
        · next st1 hp1 =>
          have hother := updatePart_other hp1
          obtain ⟨u1, u2⟩ := updatePart_after c' f s a
          have hsa := hs a (by simp)
          have heq : after c' f s a = after c' f st a := by
            unfold after
            rw [items_local c' hd0 f a hsa, hsa]
            cases items c' f st a with
            | error e => rfl
            | ok l => simp only [Prod.mk.injEq]; exact writeAll_local hsa
          rw [hp1, heq] at u1 u2
          have hih := ih st1 hnd.2 (fun q hq => by
            rw [hother q (by rintro rfl; exact hnd.1 hq), hs q (by simp [hq])]) hu
          intro q hq
          rcases List.mem_cons.1 hq with rfl | hq
          · exact ⟨(updateParts_other hu q hnd.1).trans u1, u2.symm⟩
          · exact hih q hq
    obtain ⟨a1, a2⟩ := hafter c.parts st hnd (fun _ _ => rfl) heager p hp
    obtain ⟨l, hl, hval⟩ := after_ok a2 hk
    have hval := hval st' a1
    have hframe : SameStore (l.map (·.1)) st (writeAll st p l).1 :=
      (writeAll_spec (st := st) (p := p) (l := l) rfl).2.1
    have hfp := hframe p
    have hst' : st' p = (writeAll st p l).1 p := by
      rw [a1]
      unfold after
      rw [hl]
    rw [← hst'] at hfp
    simp only [items, hd0, if_true, bind, Except.bind] at hl
    split at hl
    · cases hl
    · next zds hz =>
      split at hl
      · cases hl
      · next d hd =>
        cases hl
        have hz' : loadDataset c st p = .ok zds := by
          rw [← hz]
          simp only [loadDataset, h3, h4, h5 rfl]
        refine ⟨zds, d, hz', hd, ?_, ?_⟩
        · intro x hx
          obtain ⟨a, e1, e2⟩ := hval (x.1, .ok x.2) (List.mem_map.2 ⟨x, hx, rfl⟩)
          simp only at e1 e2
          cases e1
          exact e2
        · have hm : (List.map (fun x => x.1) (List.map (fun x : String × Arr V =>
              (x.1, (.ok x.2 : Py (Arr V)))) d)) = d.map (·.1) := by
            rw [List.map_map]; rfl
          rw [hm] at hfp
          exact hfp

theorem update_elsewhere {c : Cfg P V} {depth : Int} {f : Callback V (Dict V)} {isLazy : Bool}
    {known vars : List String} {workers : Int} {st st' : Store P V} {r : Py Unit}
    (h : update c depth f isLazy known vars workers st = (st', r)) (q : P) (hq : q ∉ c.parts) :
    st' q = st q := by
  rcases update_cases c depth f isLazy known vars workers st with
    ⟨e, h'⟩ | ⟨_, _, h'⟩ | ⟨_, c', _, _, _, _, _, _, _, h'⟩
  · rw [h] at h'; cases h'; rfl
  · rw [h] at h'; cases h'; rfl
  · rw [h] at h'
    exact updateParts_other h'.symm q hq

omit [DecidableEq P] in
theorem sameVars_origin {names : List String} {a b : List (Var V)} (h : SameVars names a b) :
    ∀ w ∈ b, ∃ v ∈ a, SameVar names v w := by
  induction a generalizing b with
  | nil => cases b with
    | nil => nofun
    | cons _ _ => exact h.elim
  | cons x t ih =>
    cases b with
    | nil => exact h.elim
    | cons y u =>
      obtain ⟨h1, h⟩ := h
      intro w hw
      rcases List.mem_cons.1 hw with rfl | hw
      · exact ⟨x, by simp, h1⟩
      · obtain ⟨v, hv, hs⟩ := ih h w hw
        exact ⟨v, by simp [hv], hs⟩

omit [DecidableEq P] in
theorem sameVars_image {names : List String} {a b : List (Var V)} (h : SameVars names a b) :
    ∀ v ∈ a, ∃ w ∈ b, SameVar names v w := by
  induction a generalizing b with
  | nil => nofun
  | cons x t ih =>
    cases b with
    | nil => exact h.elim
    | cons y u =>
      obtain ⟨h1, h⟩ := h
      intro w hw
      rcases List.mem_cons.1 hw with rfl | hw
      · exact ⟨y, by simp, h1⟩
      · obtain ⟨v, hv, hs⟩ := ih h w hw
        exact ⟨v, by simp [hv], hs⟩

omit [DecidableEq P] in
theorem sameVars_names {names : List String} {a b : List (Var V)} (h : SameVars names a b) :
    b.map (·.name) = a.map (·.name) := by
  induction a generalizing b with
  | nil => cases b with
    | nil => rfl
    | cons _ _ => exact h.elim
  | cons x t ih =>
    cases b with
    | nil => exact h.elim
    | cons y u =>
      obtain ⟨h1, h⟩ := h
      simp only [List.map_cons, ih h, h1.1]

omit [DecidableEq P] in
/-- The same partitions, with the same variables of the same shapes, and well formed arrays. -/
theorem uniform_same {dim : String} {size : P → Nat} {other : String → Nat} {st st' : Store P V}
    (hu : Uniform dim size other st)
    (h : ∀ p, ∃ names, match st p, st' p with
      | none, none => True
      | some vs, some ws => SameVars names vs ws
      | _, _ => False)
    (ha : ∀ p ws, st' p = some ws → ∀ w ∈ ws, ArrOk w.array) : Uniform dim size other st' := by
  have hb : ∀ p ws, st' p = some ws → ∃ vs, st p = some vs ∧ ∃ names, SameVars names vs ws := by
    intro p ws hw
    obtain ⟨names, hp⟩ := h p
    rw [hw] at hp
    cases hs : st p with
    | none => rw [hs] at hp; exact hp.elim
    | some vs => rw [hs] at hp; exact ⟨vs, rfl, names, hp⟩
  refine ⟨⟨fun p ws hw => ?_, fun p q ws xs hw hx w hwm x hxm hn => ?_⟩,
    fun p q ws xs hw hx w hwm => ?_, fun p ws hw w hwm => ?_⟩
  · obtain ⟨vs, hvs, _, hsv⟩ := hb p ws hw
    refine ⟨by rw [sameVars_names hsv]; exact (hu.good.1 p vs hvs).1, fun w hwm =>
      ⟨ha p ws hw w hwm, ?_⟩⟩
    obtain ⟨v, hv, hs⟩ := sameVars_origin hsv w hwm
    rw [← hs.2.2.1]
    exact ((hu.good.1 p vs hvs).2 v hv).2
  · obtain ⟨vs, hvs, _, hsv⟩ := hb p ws hw
    obtain ⟨ys, hys, _, hsy⟩ := hb q xs hx
    obtain ⟨v, hv, hs⟩ := sameVars_origin hsv w hwm
    obtain ⟨y, hy, hs'⟩ := sameVars_origin hsy x hxm
    rw [← hs.2.2.1, ← hs'.2.2.1]
    exact hu.good.2 p q vs ys hvs hys v hv y hy (by rw [hs.1, hs'.1, hn])
  · obtain ⟨vs, hvs, _, hsv⟩ := hb p ws hw
    obtain ⟨ys, hys, _, hsy⟩ := hb q xs hx
    obtain ⟨v, hv, hs⟩ := sameVars_origin hsv w hwm
    obtain ⟨y, hy, hyn⟩ := hu.names p q vs ys hvs hys v hv
    obtain ⟨x, hx, hs'⟩ := sameVars_image hsy y hy
    exact ⟨x, hx, by rw [← hs'.1, hyn, hs.1]⟩
  · obtain ⟨vs, hvs, _, hsv⟩ := hb p ws hw
    obtain ⟨v, hv, hs⟩ := sameVars_origin hsv w hwm
    rw [← hs.2.2.2.2.2.1, ← hs.2.2.1]
    exact hu.shapes p vs hvs v hv

omit [DecidableEq P] in
theorem stored_mem {st : Store P V} {p : P} {vars : List (Var V)} (hp : st p = some vars)
    (hn : (vars.map (·.name)).Nodup) {v : Var V} (hv : v ∈ vars) :
    stored st p v.name = some v.array := by
  unfold stored
  rw [hp]
  have := getVar_of_mem vars hn v hv
  unfold getVar at this
  simp only [this, Option.map_some]

end Verif
