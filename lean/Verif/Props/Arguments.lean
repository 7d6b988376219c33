import Verif.Lemmas.Schema
import Verif.Model.Config

/-! C47: the arguments of the caller. -/

namespace Verif

open Nd Ds Upd Spec Sch

variable {P V : Type} [DecidableEq P]

/-- C47 as stated, for the arguments that the methods could change: the dataset given to
`insert` and the names given to `update`.  (`load` and the others only read theirs.) -/
def C47_full : Prop :=
  ∀ (P V : Type) [DecidableEq P] (w : World P V) (o : Obj V) (fs : Files P V),
    (∀ (faults : Faults P) (validate : Bool) (n : Option Int) (merge : Option (Merge V))
      (ds : Dataset V), (Sch.insert w o faults validate n merge ds fs).1 = ds) ∧
    (∀ (delayed : Bool) (sel : Option Names) (depth : Int) (filters : P → Bool)
      (f : Callback V (Dict V)) (isLazy : Bool) (vars : List String) (workers : Int),
      (Sch.update w o delayed sel depth filters f isLazy vars workers fs).1 = sel)

/-! ### insert -/

omit [DecidableEq P] in
theorem complete_spec (w : World P V) (ms : List (VarMeta V)) (ds : Dataset V)
    (hnd : (ms.map (·.name)).Nodup) (hnew : ∀ m ∈ ms, m.name ∉ ds.vars.map (·.name)) :
    ∃ extra, (complete w ds ms).1 = { ds with vars := ds.vars ++ extra } ∧
      (∃ k, extra.map (·.name) = (ms.take k).map (·.name)) ∧
      ((complete w ds ms).2 = .ok () → extra.map (·.name) = ms.map (·.name)) := by
  induction ms generalizing ds with
  | nil => exact ⟨[], by simp [complete], ⟨0, rfl⟩, fun _ => rfl⟩
  | cons m t ih =>
    rw [List.map_cons, List.nodup_cons] at hnd
    have hm := hnew m List.mem_cons_self
    have hone : (Ds.addVariable ds m w.noneValue none).1 = ds ∧
        (∃ e, (Ds.addVariable ds m w.noneValue none).2 = .error e) ∨
        ∃ v : Var V, v.name = m.name ∧
          Ds.addVariable ds m w.noneValue none = ({ ds with vars := ds.vars ++ [v] }, .ok ()) := by
      unfold Ds.addVariable
      split
      · exact .inl ⟨rfl, _, rfl⟩
      · simp only
        split
        · exact .inl ⟨rfl, _, rfl⟩
        · next a _ =>
          let v : Var V := { name := m.name, delayed := ds.delayed, dims := m.dims, array := a,
                             fill := m.fill, props := m.props }
          refine .inr ⟨v, rfl, ?_⟩
          rw [setVar_new _ _ hm]
    simp only [complete]
    rcases hone with ⟨h1, e, h2⟩ | ⟨v, hv, h⟩
    · split
      · next heq => rw [heq] at h2; cases h2
      · next ds' e' heq =>
        rw [heq] at h1
        refine ⟨[], ?_, ⟨0, rfl⟩, fun h => by cases h⟩
        simp only at h1
        rw [h1]
        simp
    · rw [h]
      simp only
      obtain ⟨extra, e1, ⟨k, e2⟩, e3⟩ := ih { ds with vars := ds.vars ++ [v] } hnd.2 (by
        intro x hx hc
        rw [List.map_append, List.mem_append] at hc
        rcases hc with hc | hc
        · exact hnew x (List.mem_cons_of_mem _ hx) hc
        · simp only [List.map_cons, List.map_nil, List.mem_singleton] at hc
          exact hnd.1 (List.mem_map.2 ⟨x, hx, by rw [hc, hv]⟩))
      refine ⟨v :: extra, ?_, ⟨k + 1, by simp [hv, e2]⟩, fun h => by simp [hv, e3 h]⟩
      rw [e1]
      simp

/-- C47: what `insert` does to the dataset of the caller, whatever happens: its dimensions,
attributes and chunks are kept, its variables as well, in the same order, and the variables of
the collection that it lacks are added at the end, all of them if something was written. -/
theorem C47_insert (w : World P V) (o : Obj V) (hm : (o.metas.map (·.name)).Nodup)
    (faults : Faults P) (validate : Bool) (n : Option Int) (merge : Option (Merge V))
    (ds : Dataset V) (fs : Files P V) :
    ∃ extra : List (Var V),
      (Sch.insert w o faults validate n merge ds fs).1 = { ds with vars := ds.vars ++ extra } ∧
      (∀ v ∈ extra, v.name ∉ ds.vars.map (·.name) ∧ v.name ∈ o.metas.map (·.name)) ∧
      ((Sch.insert w o faults validate n merge ds fs).2.1.parts ≠ fs.parts →
        ∀ m ∈ o.metas, m.name ∉ ds.vars.map (·.name) → m.name ∈ extra.map (·.name)) := by
  unfold Sch.insert
  cases hmis : missing o.metas ds with
  | error e => exact ⟨[], by simp, by simp, fun h => absurd rfl h⟩
  | ok ms =>
    unfold missing at hmis
    split at hmis
    · cases hmis
    · cases hmis
      obtain ⟨extra, e1, ⟨k, e2⟩, e3⟩ := complete_spec w
        (o.metas.filter fun m => decide (m.name ∉ ds.vars.map (·.name))) ds
        (hm.sublist (List.Sublist.map _ List.filter_sublist))
        (fun m hmem => by simpa using (List.mem_filter.1 hmem).2)
      have hin : ∀ v ∈ extra, v.name ∉ ds.vars.map (·.name) ∧ v.name ∈ o.metas.map (·.name) := by
        intro v hv
        have : v.name ∈ extra.map (·.name) := List.mem_map_of_mem hv
        rw [e2] at this
        obtain ⟨m, hmem, he⟩ := List.mem_map.1 this
        have := List.mem_filter.1 (List.mem_of_mem_take hmem)
        rw [← he]
        exact ⟨by simpa using this.2, List.mem_map_of_mem this.1⟩
      simp only
      split
      · next ds' e heq =>
        rw [heq] at e1
        exact ⟨extra, e1, hin, fun h => absurd rfl h⟩
      · next ds' heq =>
        rw [heq] at e1 e3
        have hall : ∀ m ∈ o.metas, m.name ∉ ds.vars.map (·.name) →
            m.name ∈ extra.map (·.name) := by
          intro m hmem hno
          rw [e3 rfl]
          exact List.mem_map_of_mem (List.mem_filter.2 ⟨hmem, by simpa using hno⟩)
        split
        · exact ⟨extra, e1, hin, fun h => absurd rfl h⟩
        · split
          · exact ⟨extra, e1, hin, fun h => absurd rfl h⟩
          · exact ⟨extra, e1, hin, fun _ => hall⟩

/-- C47: `insert` does not change a dataset that has all the variables of the collection.
Missing for C47: a dataset that lacks one is changed, see `C47_counterexample`. -/
theorem C47_insert_partial (w : World P V) (o : Obj V) (hm : (o.metas.map (·.name)).Nodup)
    (faults : Faults P) (validate : Bool) (n : Option Int) (merge : Option (Merge V))
    (ds : Dataset V) (fs : Files P V) (hall : ∀ m ∈ o.metas, m.name ∈ ds.vars.map (·.name)) :
    (Sch.insert w o faults validate n merge ds fs).1 = ds := by
  obtain ⟨extra, h1, h2, _⟩ := C47_insert w o hm faults validate n merge ds fs
  rw [h1]
  have : extra = [] := by
    cases extra with
    | nil => rfl
    | cons v t =>
      obtain ⟨h3, h4⟩ := h2 v List.mem_cons_self
      obtain ⟨m, hmem, he⟩ := List.mem_map.1 h4
      exact absurd (he ▸ hall m hmem) h3
  rw [this]
  simp

/-! ### update -/

/-- The names that `update` writes are already in the argument, or it does not touch it. -/
theorem update_names (w : World P V) (o : Obj V) (delayed : Bool) (sel : Option Names)
    (depth : Int) (filters : P → Bool) (f : Callback V (Dict V)) (isLazy : Bool)
    (vars : List String) (workers : Int) (fs : Files P V) :
    (Sch.update w o delayed sel depth filters f isLazy vars workers fs).1 = sel ∨
    (depth ≠ 0 ∧ ∃ l names, sel = some (.list l) ∧
      (if vars = [] then infer (cfgOf w o delayed (sel.map Names.all) filters fs) f
        (metaNames o.metas) fs.parts else .ok vars) = .ok names ∧
      (Sch.update w o delayed sel depth filters f isLazy vars workers fs).1 =
        some (.list (l ++ names.filter fun x => decide (x ∉ l)))) := by
  unfold Sch.update
  simp only
  cases hv : (if vars = [] then infer (cfgOf w o delayed (sel.map Names.all) filters fs) f
      (metaNames o.metas) fs.parts else .ok vars : Py (List String)) with
  | error e => exact .inl rfl
  | ok names =>
    cases names with
    | nil => exact .inl rfl
    | cons a t =>
      simp only
      unfold extendNames
      by_cases hd : depth = 0
      · simp only [if_pos hd]
        exact .inl trivial
      · simp only [if_neg hd]
        cases sel with
        | none => exact .inl rfl
        | some s =>
          cases s with
          | tuple l => exact .inl rfl
          | list l =>
            refine .inr ⟨hd, l, a :: t, rfl, ?_, rfl⟩
            rfl

/-- C47: `update` does not change the names given by the caller if there is no overlap, if
they are not a list, or if the names that are written are given and the list has them all.
Missing for C47: a list that lacks a name that is written, see `C47_counterexample`. -/
theorem C47_update_partial (w : World P V) (o : Obj V) (delayed : Bool) (sel : Option Names)
    (depth : Int) (filters : P → Bool) (f : Callback V (Dict V)) (isLazy : Bool)
    (vars : List String) (workers : Int) (fs : Files P V)
    (h : depth = 0 ∨ (∀ l, sel ≠ some (.list l)) ∨
      ∃ l, sel = some (.list l) ∧ vars ≠ [] ∧ ∀ x ∈ vars, x ∈ l) :
    (Sch.update w o delayed sel depth filters f isLazy vars workers fs).1 = sel := by
  rcases update_names w o delayed sel depth filters f isLazy vars workers fs with
    hs | ⟨hd, l, names, hl, hn, hr⟩
  · exact hs
  · rcases h with h | h | ⟨l', h1, h2, h3⟩
    · exact absurd h hd
    · exact absurd hl (h l)
    · rw [hl] at h1
      cases h1
      rw [if_neg h2] at hn
      cases hn
      rw [hr, hl, List.filter_eq_nil_iff.2, List.append_nil]
      intro x hx
      simpa using h3 x hx

/-- C47: what `update` does to a list: the names that are written and not in the list are
added at the end, even when the update fails afterwards. -/
theorem C47_update_extended (w : World P V) (o : Obj V) (delayed : Bool) (l : List String)
    (depth : Int) (hd : depth ≠ 0) (filters : P → Bool) (f : Callback V (Dict V))
    (isLazy : Bool) (vars : List String) (hv : vars ≠ []) (workers : Int) (fs : Files P V) :
    (Sch.update w o delayed (some (.list l)) depth filters f isLazy vars workers fs).1 =
      some (.list (l ++ vars.filter fun x => decide (x ∉ l))) := by
  cases vars with
  | nil => exact absurd rfl hv
  | cons a t =>
    unfold Sch.update
    simp only [if_neg hv, extendNames, if_neg hd]

/-- C47: with an overlap, names given as a tuple make `update` raise, and nothing is
written. -/
theorem C47_update_tuple (w : World P V) (o : Obj V) (delayed : Bool) (l : List String)
    (depth : Int) (hd : depth ≠ 0) (filters : P → Bool) (f : Callback V (Dict V))
    (isLazy : Bool) (vars : List String) (hv : vars ≠ []) (workers : Int) (fs : Files P V) :
    Sch.update w o delayed (some (.tuple l)) depth filters f isLazy vars workers fs =
      (some (.tuple l), fs, .error .typeError) := by
  cases vars with
  | nil => exact absurd rfl hv
  | cons a t =>
    unfold Sch.update
    simp only [if_neg hv, extendNames, if_neg hd]

/-- C47: without an overlap, names given as a tuple select what the same names given as a list
do: the files and the outcome are the same, and neither argument is changed. -/
theorem C47_update_tuple_selects (w : World P V) (o : Obj V) (delayed : Bool) (l : List String)
    (filters : P → Bool) (f : Callback V (Dict V)) (isLazy : Bool) (vars : List String)
    (workers : Int) (fs : Files P V) :
    (Sch.update w o delayed (some (.tuple l)) 0 filters f isLazy vars workers fs).2 =
        (Sch.update w o delayed (some (.list l)) 0 filters f isLazy vars workers fs).2 ∧
      (Sch.update w o delayed (some (.tuple l)) 0 filters f isLazy vars workers fs).1 =
        some (.tuple l) ∧
      (Sch.update w o delayed (some (.list l)) 0 filters f isLazy vars workers fs).1 =
        some (.list l) := by
  unfold Sch.update
  simp only [Option.map_some, Names.all, extendNames, if_true]
  cases (if vars = [] then infer (cfgOf w o delayed (some l) filters fs) f (metaNames o.metas)
    fs.parts else .ok vars) with
  | error e => exact ⟨rfl, rfl, rfl⟩
  | ok vs => cases vs <;> exact ⟨rfl, rfl, rfl⟩

/-! ### get_codecs -/

/-- C47: `get_codecs` removes `id` from the dictionary of the caller, and nothing else. -/
theorem C47_get_codecs (config : Config.Cfg) :
    (Config.getCodecs config).2 = config.filter fun kv => kv.1 ≠ "id" := by
  unfold Config.getCodecs
  dsimp only
  split <;> rfl

/-! ### The counterexample -/

namespace ArgCase

def metas : List (VarMeta Int) :=
  [⟨"time", ["time"], none, 0⟩, ⟨"v", ["time"], some 0, 0⟩]

def var (name : String) : Var Int :=
  { name := name, delayed := false, dims := ["time"], array := tabulate [2] fun _ => 7,
    fill := none, props := 0 }

def files : Files Nat Int :=
  { config := .ok (Config.mk "time" ["time"] ["time"] metas), parts := fun _ => none,
    imm := none }

def world : World Nat Int :=
  { undef := fun _ => 0, noneValue := .error .typeError, serial := fun _ => true,
    emptyBag := .error .typeError, list := fun st => [0, 1].filter fun p => (st p).isSome,
    split := fun _ => .ok [(0, (0, 2))], sameMeta := fun _ _ => true, broken := fun _ => false }

def obj : Obj Int :=
  { axis := "time", keys := ["time"], dims := ["time"], metas := metas, dim := "time",
    imm := false, readOnly := false }

def full : Dataset Int :=
  { dims := [("time", 2)], vars := [var "time", var "v"], attrs := [], chunks := [], limit := 1,
    delayed := false }

def short : Dataset Int := { full with vars := [var "time"] }

end ArgCase

open ArgCase

example : (Sch.insert world obj Faults.never true none none ArgCase.full files).1 =
    ArgCase.full :=
  C47_insert_partial world obj (by decide) _ _ _ _ _ _ (by decide)

/-- The insertion succeeds. -/
example : (Sch.insert world obj Faults.never true none none ArgCase.full files).2.2 =
    .ok [0] := by rfl

/-- C47 does not hold: the dataset of the caller gets the variables of the collection that it
lacks. -/
theorem C47_counterexample : ¬ C47_full := by
  intro h
  have := (h Nat Int world obj files).1 Faults.never false none none short
  have hv := congrArg (fun d => d.vars.length) this
  revert hv
  decide

/-- Nor for `update`: the list of names of the caller gets the names that are written. -/
theorem C47_counterexample_update : ∃ (w : World Nat Int) (o : Obj Int) (fs : Files Nat Int),
    (Sch.update w o false (some (.list ["time"])) 1 (fun _ => true) (fun _ _ => .ok []) false
      ["v"] 1 fs).1 = some (.list ["time", "v"]) :=
  ⟨world, obj, files, C47_update_extended world obj false ["time"] 1 (by decide) _ _ _ ["v"]
    (by simp) _ _⟩

end Verif
