import Verif.Spec.UpdateEnd
import Verif.Lemmas.UpdateLoad
import Verif.Lemmas.Schema
import Verif.Lemmas.ViewArrays

/-! Lemmas about a load after an update that may have failed. -/

namespace Verif

open Spec Nd Ds Upd

variable {P V : Type} [DecidableEq P]

/-- Each variable has the values it has in `st0` or values that `W` allows. -/
def Mixed (st0 : Store P V) (W : P → String → Arr V → Prop) (st : Store P V) : Prop :=
  ∀ p ws, st p = some ws → ∀ w ∈ ws,
    (∃ vs, st0 p = some vs ∧ ∃ v ∈ vs, v.name = w.name ∧ v.array = w.array) ∨
    W p w.name w.array

omit [DecidableEq P] in
theorem Mixed.start (st : Store P V) (W : P → String → Arr V → Prop) : Mixed st W st :=
  fun _ ws h w hw => .inl ⟨ws, h, w, hw, rfl, rfl⟩

theorem Mixed.item {st0 st st' : Store P V} {W : P → String → Arr V → Prop} {p : P}
    {x : String × Py (Arr V)} (h : Mixed st0 W st) (hx : ∀ a, x.2 = .ok a → W p x.1 a)
    (hw : writeItem st p x = .ok st') : Mixed st0 W st' := by
  unfold writeItem at hw
  simp only [bind, Except.bind] at hw
  split at hw
  · cases hw
  · next a ha =>
    split at hw
    · cases hw
    · next vars hvars =>
      split at hw
      · cases hw
      · next vars' hv =>
        cases hw
        intro q ws hq w hwm
        simp only [setPart] at hq
        split at hq
        · next hqp =>
          subst hqp
          cases hq
          unfold writeVar at hv
          split at hv
          · cases hv
          · next v hg =>
            split at hv
            · cases hv
            · cases hv
              rcases setVar_mem _ _ _ hwm with rfl | hm
              · right
                have hn := (getVar_some _ _ _ hg).2
                simp only [hn]
                exact hx a ha
              · exact h q _ hvars w hm
        · exact h q ws hq w hwm

theorem Mixed.all {st0 : Store P V} {W : P → String → Arr V → Prop} {p : P}
    (l : List (String × Py (Arr V))) (hl : ∀ x ∈ l, ∀ a, x.2 = .ok a → W p x.1 a)
    (st : Store P V) (h : Mixed st0 W st) : Mixed st0 W (writeAll st p l).1 := by
  induction l generalizing st with
  | nil => exact h
  | cons x t ih =>
    simp only [writeAll]
    split
    · exact h
    · next st' hw =>
      exact ih (fun y hy => hl y (List.mem_cons_of_mem _ hy)) st'
        (h.item (hl x (List.mem_cons_self ..)) hw)

theorem Mixed.lazy {st0 : Store P V} {W : P → String → Arr V → Prop} {p : P} {c : Cfg P V}
    {f : Callback V (Dict V)}
    (hprod : ∀ st l, Mixed st0 W st → items c f st p = .ok l →
      ∀ x ∈ l, ∀ a, x.2 = .ok a → W p x.1 a) (ks : List Nat)
    (st : Store P V) (h : Mixed st0 W st) : Mixed st0 W (writeLazy c f p st ks).1 := by
  induction ks generalizing st with
  | nil => exact h
  | cons k t ih =>
    simp only [writeLazy]
    split
    · exact h
    · next l hl =>
      split
      · exact h
      · next x hx =>
        split
        · exact h
        · next st' hw =>
          exact ih st' (h.item (hprod st l h hl x (List.mem_of_getElem? hx)) hw)

theorem Mixed.parts {st0 : Store P V} {W : P → String → Arr V → Prop} {c : Cfg P V}
    {f : Callback V (Dict V)} {isLazy : Bool} (ps : List P)
    (hprod : ∀ p ∈ ps, ∀ st l, Mixed st0 W st → items c f st p = .ok l →
      ∀ x ∈ l, ∀ a, x.2 = .ok a → W p x.1 a)
    (st : Store P V) (h : Mixed st0 W st) : Mixed st0 W (updateParts c f isLazy st ps).1 := by
  induction ps generalizing st with
  | nil => exact h
  | cons p t ih =>
    have hone : Mixed st0 W (updatePart c f isLazy st p).1 := by
      unfold updatePart
      split
      · exact h
      · next l hl =>
        have hp := hprod p (List.mem_cons_self ..)
        split
        · exact Mixed.lazy hp _ st h
        · exact Mixed.all l (hp st l h hl) st h
    simp only [updateParts]
    split
    · next st' e hp => rw [hp] at hone; exact hone
    · next st' hp =>
      rw [hp] at hone
      exact ih (fun q hq => hprod q (List.mem_cons_of_mem _ hq)) st' hone

/-- Without overlap and with the arrays themselves, each partition is processed as it was
stored before. -/
theorem Mixed.once {st0 : Store P V} {W : P → String → Arr V → Prop} {c : Cfg P V}
    {f : Callback V (Dict V)} (hd : c.depth = 0)
    (ps : List P) (hnd : ps.Nodup)
    (hprod : ∀ p ∈ ps, ∀ l, items c f st0 p = .ok l → ∀ x ∈ l, ∀ a, x.2 = .ok a → W p x.1 a)
    (st : Store P V) (hs : ∀ p ∈ ps, st p = st0 p) (h : Mixed st0 W st) :
    Mixed st0 W (updateParts c f false st ps).1 := by
  induction ps generalizing st with
  | nil => exact h
  | cons p t ih =>
    rw [List.nodup_cons] at hnd
    have hone : Mixed st0 W (updatePart c f false st p).1 := by
      unfold updatePart
      split
      · exact h
      · next l hl =>
        rw [items_local c hd f p (hs p (List.mem_cons_self ..))] at hl
        exact Mixed.all l (hprod p (List.mem_cons_self ..) l hl) st h
    simp only [updateParts]
    split
    · next st' e hp => rw [hp] at hone; exact hone
    · next st' hp =>
      have hother := updatePart_other hp
      rw [hp] at hone
      exact ih hnd.2 (fun q hq => hprod q (List.mem_cons_of_mem _ hq)) st'
        (fun q hq => by
          rw [hother q (by rintro rfl; exact hnd.1 hq), hs q (List.mem_cons_of_mem _ hq)]) hone

omit [DecidableEq P] in
theorem openPart_arrays {del : Bool} {sel : Option (List String)} {st : Store P V} {p : P}
    {zds : Dataset V} (hst : ∀ p ws, st p = some ws → ∀ w ∈ ws, ArrOk w.array)
    (h : openPart del sel st p = .ok zds) : Vw.ArraysOk zds := by
  unfold openPart at h
  split at h
  · cases h
  · next vars hv => exact Vw.openGroup_arrays (hst p vars hv) h

omit [DecidableEq P] in
theorem mergeInto_arrays {a b r : Dataset V} (ha : Vw.ArraysOk a) (hb : Vw.ArraysOk b)
    (h : mergeInto a b = .ok r) : Vw.ArraysOk r := by
  intro v hv
  rcases mergeInto_from h v hv with h1 | h1
  · exact ha v h1
  · exact hb v h1

omit [DecidableEq P] in
theorem loadDataset_arrays {c : Cfg P V} {st : Store P V} {p : P} {zds : Dataset V}
    (hst : ∀ p ws, st p = some ws → ∀ w ∈ ws, ArrOk w.array)
    (hia : ∀ iv, c.imm = some iv → ∀ w ∈ iv, ArrOk w.array)
    (h : loadDataset c st p = .ok zds) : Vw.ArraysOk zds := by
  simp only [loadDataset, bind, Except.bind] at h
  split at h
  · cases h
  · next z hz =>
    have hz := openPart_arrays hst hz
    split at h
    · cases h; exact hz
    · next iv hiv =>
      split at h
      · cases h
      · next o ho => exact mergeInto_arrays hz (Vw.openGroup_arrays (hia iv hiv) ho) h

theorem loadOverlap_arrays {c : Cfg P V} {st : Store P V} {p : P} {r : Dataset V × (Nat × Nat)}
    (hst : ∀ p ws, st p = some ws → ∀ w ∈ ws, ArrOk w.array)
    (h : loadOverlap c st p = .ok r) : Vw.ArraysOk r.1 ∧ r.2.1 ≤ r.2.2 := by
  obtain ⟨ps, groups, zds, _, h2, h3, h4, h5⟩ := loadOverlap_spec h
  have hg : ∀ g ∈ groups, Vw.ArraysOk g := by
    intro g hg
    obtain ⟨q, _, hq⟩ := mapPy_mem _ _ _ h2 g hg
    exact openPart_arrays hst hq
  have hz : Vw.ArraysOk zds := by
    unfold joinGroups at h4
    split at h4
    · cases h4
    · cases h4; exact hg _ (by simp)
    · exact Vw.concat_arrays (hg _ (by simp)) (fun o ho => hg o (List.mem_cons_of_mem _ ho)) h4
  refine ⟨?_, Vw.calcSlice_le _ _ _ _ _ _ (Nat.le_refl 0) h3⟩
  split at h5
  · rw [h5]; exact hz
  · obtain ⟨o, ho, hm⟩ := h5
    exact mergeInto_arrays hz (openPart_arrays hst ho) hm

/-- The arrays to write are well formed, and are those of variables that the callback returns. -/
theorem items_arrays {c : Cfg P V} {f : Callback V (Dict V)} {st : Store P V} {p : P}
    {l : List (String × Py (Arr V))} (hf : MapsArrays f)
    (hst : ∀ p ws, st p = some ws → ∀ w ∈ ws, ArrOk w.array)
    (hia : ∀ iv, c.imm = some iv → ∀ w ∈ iv, ArrOk w.array)
    (h : items c f st p = .ok l) : ∀ x ∈ l, ∀ a, x.2 = .ok a →
      ArrOk a ∧ ∃ zds ind d, f zds ind = .ok d ∧ x.1 ∈ d.map (·.1) := by
  unfold items at h
  split at h
  · simp only [bind, Except.bind] at h
    split at h
    · cases h
    · next zds hz =>
      split at h
      · cases h
      · next d hd =>
        cases h
        intro x hx a ha
        obtain ⟨y, hy, rfl⟩ := List.mem_map.1 hx
        cases ha
        exact ⟨hf zds none d (loadDataset_arrays hst hia hz) hd y hy, zds, none, d, hd,
          List.mem_map.2 ⟨y, hy, rfl⟩⟩
  · simp only [bind, Except.bind] at h
    split at h
    · cases h
    · next r hr =>
      obtain ⟨zds, ind⟩ := r
      simp only at h
      split at h
      · cases h
      · next d hd =>
        cases h
        obtain ⟨g1, g2⟩ := loadOverlap_arrays hst hr
        intro x hx a ha
        obtain ⟨y, hy, rfl⟩ := List.mem_map.1 hx
        have hok := hf zds (some ind) d g1 hd y hy
        refine ⟨?_, zds, some ind, d, hd, List.mem_map.2 ⟨y, hy, rfl⟩⟩
        simp only at ha
        split at ha
        · exact Vw.trim_arrOk hok g2 ha
        · cases ha; exact hok

end Verif
