import Verif.Spec.Schema
import Verif.Lemmas.UpdateRun
import Verif.Lemmas.Sort
import Verif.Props.Dataset

/-! Lemmas about the schema of a collection. -/

namespace Verif

open Spec Nd Ds Upd Sch

variable {P V : Type} [DecidableEq P]

/-- What the schema says of a variable. -/
def sig (v : Var V) : String × List String × List Nat := (v.name, v.dims, v.array.shape)

theorem Fits.congr {o : Obj V} {a b : List (Var V)} (h : a.map sig = b.map sig)
    (hf : Fits o a) : Fits o b := by
  have hn : a.map (·.name) = b.map (·.name) := by
    have := congrArg (List.map (·.1)) h
    simpa [List.map_map, Function.comp_def, sig] using this
  have hm : ∀ v ∈ b, ∃ w ∈ a, sig w = sig v := by
    intro v hv
    have : sig v ∈ a.map sig := h ▸ List.mem_map_of_mem hv
    obtain ⟨w, hw, he⟩ := List.mem_map.1 this
    exact ⟨w, hw, he⟩
  refine ⟨hn ▸ hf.nodup, fun n => by rw [← hn]; exact hf.names n, ?_, ?_⟩
  · intro v hv m hmm he
    obtain ⟨w, hw, e⟩ := hm v hv
    simp only [sig, Prod.mk.injEq] at e
    rw [← e.2.1]
    exact hf.dims w hw m hmm (he.trans e.1.symm)
  · obtain ⟨size, hs⟩ := hf.sizes
    refine ⟨size, fun v hv => ?_⟩
    obtain ⟨w, hw, e⟩ := hm v hv
    simp only [sig, Prod.mk.injEq] at e
    rw [← e.2.2, ← e.2.1]
    exact hs w hw

theorem sameVars_sig {names : List String} {a b : List (Var V)} (h : SameVars names a b) :
    a.map sig = b.map sig := by
  induction a generalizing b with
  | nil => cases b with
    | nil => rfl
    | cons _ _ => exact h.elim
  | cons x t ih =>
    cases b with
    | nil => exact h.elim
    | cons y u =>
      obtain ⟨⟨h1, _, h3, _, _, h6, _⟩, h⟩ := h
      simp only [List.map_cons, ih h, sig, h1, h3, h6]

theorem updateParts_sig {c : Cfg P V} {f : Callback V (Dict V)} {isLazy : Bool} {ps : List P}
    {st st' : Store P V} {r : Py Unit} (h : updateParts c f isLazy st ps = (st', r)) :
    ∃ names, SameStore names st st' := by
  have hlazy : ∀ (p : P) (ks : List Nat) (st st' : Store P V) (r : Py Unit),
      writeLazy c f p st ks = (st', r) → ∃ names, SameStore names st st' := by
    intro p ks
    induction ks with
    | nil => intro st st' r h; cases h; exact ⟨[], SameStore.refl _ _⟩
    | cons k t ih =>
      intro st st' r h
      simp only [writeLazy] at h
      split at h
      · cases h; exact ⟨[], SameStore.refl _ _⟩
      · split at h
        · cases h; exact ⟨[], SameStore.refl _ _⟩
        · next x _ =>
          split at h
          · cases h; exact ⟨[], SameStore.refl _ _⟩
          · next st1 hw =>
            obtain ⟨n1, h1⟩ := ih _ _ _ h
            refine ⟨x.1 :: n1, ?_⟩
            exact ((writeItem_spec hw).2.1.mono (by simp)).trans (h1.mono fun n hn => by
              simp [hn])
  have hone : ∀ (p : P) (st st' : Store P V) (r : Py Unit),
      updatePart c f isLazy st p = (st', r) → ∃ names, SameStore names st st' := by
    intro p st st' r h
    unfold updatePart at h
    split at h
    · cases h; exact ⟨[], SameStore.refl _ _⟩
    · split at h
      · exact hlazy _ _ _ _ _ h
      · exact ⟨_, (writeAll_spec h).2.1⟩
  induction ps generalizing st with
  | nil => cases h; exact ⟨[], SameStore.refl _ _⟩
  | cons p t ih =>
    simp only [updateParts] at h
    split at h
    · next st1 e hp => cases h; exact hone _ _ _ _ hp
    · next st1 hp =>
      obtain ⟨n1, h1⟩ := hone _ _ _ _ hp
      obtain ⟨n2, h2⟩ := ih h
      exact ⟨n1 ++ n2, (h1.mono fun n hn => by simp [hn]).trans (h2.mono fun n hn => by
        simp [hn])⟩

/-! ### One task for each partition -/

theorem runTasks_spec (f : P → Option (List (Var V)) → Option (List (Var V)) × Py Unit)
    (st : Store P V) (l : List P) (hn : l.Nodup) :
    (∀ p, (runTasks f st l).1 p = if p ∈ l then (f p (st p)).1 else st p) ∧
    ((runTasks f st l).2 = .ok () ↔ ∀ p ∈ l, (f p (st p)).2 = .ok ()) := by
  induction l generalizing st with
  | nil => simp [runTasks]
  | cons p t ih =>
    rw [List.nodup_cons] at hn
    obtain ⟨h1, h2⟩ := ih (fun q => if q = p then (f p (st p)).1 else st q) hn.2
    have hne : ∀ q ∈ t, q ≠ p := fun q hq e => hn.1 (e ▸ hq)
    constructor
    · intro q
      simp only [runTasks]
      rw [h1 q]
      by_cases hq : q ∈ t
      · simp [hq, hne q hq]
      · by_cases hqp : q = p
        · subst hqp; simp [hq]
        · simp [hq, hqp]
    · simp only [runTasks]
      have h3 : (∀ q ∈ t, (f q ((fun q => if q = p then (f p (st p)).1 else st q) q)).2
          = .ok ()) ↔ ∀ q ∈ t, (f q (st q)).2 = .ok () := by
        refine ⟨fun h q hq => ?_, fun h q hq => ?_⟩
        · have := h q hq
          simpa only [if_neg (hne q hq)] using this
        · simpa only [if_neg (hne q hq)] using h q hq
      cases hr : (f p (st p)).2 with
      | error e => simp [hr]
      | ok u =>
        simp only [h2, h3, List.forall_mem_cons, hr]
        simp

omit [DecidableEq P] in
theorem writeConfig_spec {w : World P V} {o : Obj V} {fs : Files P V} :
    (∀ m ∈ o.metas, w.serial m = true) →
      ∃ c, writeConfig w o fs = ({ fs with config := .ok c }, .ok ()) ∧ Describes c o := by
  intro h
  refine ⟨Config.mk o.axis o.keys o.dims
      (Sort.isort (fun a b => decide (a.name ≤ b.name)) o.metas), ?_,
    rfl, rfl, rfl, Sort.isort_perm _⟩
  unfold writeConfig
  rw [if_pos (List.all_eq_true.2 h)]

omit [DecidableEq P] in
theorem writeConfig_parts {w : World P V} {o : Obj V} {fs : Files P V} :
    (writeConfig w o fs).1.parts = fs.parts ∧ (writeConfig w o fs).1.imm = fs.imm := by
  unfold writeConfig
  split <;> exact ⟨rfl, rfl⟩

omit [DecidableEq P] in
theorem writeConfig_ok {w : World P V} {o : Obj V} {fs : Files P V}
    (h : (writeConfig w o fs).2 = .ok ()) :
    ∃ c, (writeConfig w o fs).1 = { fs with config := .ok c } ∧ Describes c o := by
  unfold writeConfig at h ⊢
  split at h
  · next hs => exact ⟨_, by rw [if_pos hs], rfl, rfl, rfl, Sort.isort_perm _⟩
  · cases h

omit [DecidableEq P] in
/-- A store with the partitions of another one. -/
theorem bounded_of_subset {st st' : Store P V} (h : Bounded st)
    (hs : ∀ p, st' p ≠ none → st p ≠ none) : Bounded st' := by
  obtain ⟨l, hl⟩ := h
  exact ⟨l, fun p hp => hl p (hs p hp)⟩

omit [DecidableEq P] in
theorem bag_spec {w : World P V} (hw : GoodWorld w) {st : Store P V} (hb : Bounded st)
    {l : List P}
    (h : bag w st = .ok l) : l = w.list st ∧ l.Nodup ∧ ∀ p, p ∈ l ↔ st p ≠ none := by
  have hl : l = w.list st := by
    unfold bag at h
    split at h
    · next hl =>
      rw [hl]
      cases he : w.emptyBag with
      | error e => rw [he] at h; cases h
      | ok u => rw [he] at h; cases h; rfl
    · next hl => rw [hl]; cases h; rfl
  subst hl
  exact ⟨rfl, hw st hb⟩

end Verif
