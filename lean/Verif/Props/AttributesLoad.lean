import Verif.Lemmas.LoadNames
import Verif.Props.SchemaCases

/-! C65: `fill_attrs` in the loads of a collection in step with its metadata, and in those of an
object that another one made stale. -/

namespace Verif

open Spec Nd Ds Upd Sch

variable {P V : Type}

theorem finish_names {o : Ld.Opts V} {arrays : List (Dataset V)} {z : Dataset V}
    (h : Ld.finish o arrays = .ok z) (v : Var V) (hv : v ∈ z.vars) :
    (∃ g ∈ arrays, ∃ u ∈ g.vars, u.name = v.name) ∨
      ∃ iv, o.imm = some iv ∧ ∃ u ∈ iv, u.name = v.name := by
  simp only [Ld.finish, bind, Except.bind] at h
  split at h
  · cases h
  next z0 hz0 =>
  have key : ∀ v ∈ z0.vars, ∃ g ∈ arrays, ∃ u ∈ g.vars, u.name = v.name := by
    intro v hv
    obtain ⟨g, hg, u, hu, e, _⟩ := joinGroups_fill hz0 v hv
    exact ⟨g, List.mem_of_getElem? hg, u, hu, e⟩
  cases hi : o.imm with
  | none =>
    rw [hi] at h
    cases h
    exact .inl (key v hv)
  | some iv =>
    rw [hi] at h
    simp only at h
    split at h
    · cases h
    · next ids hids =>
      rcases mergeInto_from h v hv with h1 | h1
      · exact .inl (key v h1)
      · obtain ⟨w, hw, rfl⟩ := openGroup_vars hids v h1
        exact .inr ⟨iv, rfl, w, hw, rfl⟩

theorem openPart_names {del : Bool} {sel : Option (List String)} {st : Store P V} {p : P}
    {g : Dataset V} (h : openPart del sel st p = .ok g) (v : Var V) (hv : v ∈ g.vars) :
    ∃ vars, st p = some vars ∧ v.name ∈ vars.map (·.name) := by
  unfold openPart at h
  split at h
  · cases h
  · next vars hst =>
    obtain ⟨u, hu, rfl⟩ := openGroup_vars h v hv
    exact ⟨vars, hst, List.mem_map.2 ⟨u, hu, rfl⟩⟩

variable [DecidableEq P]

/-- The load before `fill_attrs` is called. -/
def bareLoad (w : World P V) (o : Obj V) (le : P → P → Bool) (delayed : Bool)
    (sel : Option (List String)) (filters : P → Bool)
    (indexer : Option (List (P × (Nat × Nat)))) (fs : Files P V) : Py (Option (Dataset V)) :=
  match indexer with
  | none => Ld.load (optsOf o delayed sel fs) fs.parts (w.list fs.parts) filters
  | some ix => Ld.loadIndexed (optsOf o delayed sel fs) le fs.parts filters ix

/-- C65: when the files are in step with the metadata, setting the attributes never makes a load
fail: it returns the same variables, whatever the selection, the filters and the indexer. -/
theorem C65_aligned_load (w : World P V) (o : Obj V) (fs : Files P V) (ha : Aligned o fs)
    (le : P → P → Bool) (delayed : Bool) (sel : Option (List String)) (filters : P → Bool)
    (indexer : Option (List (P × (Nat × Nat)))) :
    Sch.load w o le delayed sel filters indexer fs =
      bareLoad w o le delayed sel filters indexer fs := by
  have hpart : ∀ p vars, fs.parts p = some vars → ∀ n ∈ vars.map (·.name),
      n ∈ metaNames o.metas := by
    intro p vars hp n hn
    obtain ⟨m, hm, he, _⟩ := ((ha.parts p vars hp).names n).1 hn
    exact List.mem_map.2 ⟨m, hm, he⟩
  have himm : ∀ iv, (optsOf o delayed sel fs).imm = some iv → ∀ u ∈ iv,
      u.name ∈ metaNames o.metas := by
    intro iv h u hu
    simp only [optsOf] at h
    split at h
    · cases h
      split at hu
      · next l hl =>
        obtain ⟨m, hm, he, _⟩ := (ha.immNames l hl u.name).1 (List.mem_map_of_mem hu)
        exact List.mem_map.2 ⟨m, hm, he⟩
      · cases hu
    · cases h
  show filled (metaNames o.metas) (bareLoad w o le delayed sel filters indexer fs) = _
  apply filled_ok
  intro zds hz v hv
  cases indexer with
  | none =>
    simp only [bareLoad, Ld.load] at hz
    split at hz
    · cases hz
    simp only [bind, Except.bind] at hz
    split at hz
    · cases hz
    next arrays harr =>
    split at hz
    · cases hz
    next r hr =>
    cases hz
    rcases finish_names hr v hv with ⟨g, hg, u, hu, e⟩ | ⟨iv, hiv, u, hu, e⟩
    · obtain ⟨p, _, hp⟩ := mapPy_mem _ _ _ harr g hg
      obtain ⟨vars, hst, hn⟩ := openPart_names hp u hu
      exact e ▸ hpart p vars hst _ hn
    · exact e ▸ himm iv hiv u hu
  | some ix =>
    simp only [bareLoad, Ld.loadIndexed] at hz
    split at hz
    · cases hz
    simp only [bind, Except.bind] at hz
    split at hz
    · cases hz
    next arrays harr =>
    split at hz
    · cases hz
    next r hr =>
    cases hz
    rcases finish_names hr v hv with ⟨g, hg, u, hu, e⟩ | ⟨iv, hiv, u, hu, e⟩
    · obtain ⟨gs, hgs, hgm⟩ := List.mem_flatten.1 hg
      obtain ⟨x, _, hx⟩ := mapPy_mem _ _ _ harr gs hgs
      simp only [Ld.loadSlices, bind, Except.bind] at hx
      split at hx
      · cases hx
      next z0 hz0 =>
      obtain ⟨s, _, hs⟩ := mapPy_mem _ _ _ hx g hgm
      obtain ⟨y, hy, ey⟩ := isel_names hs u hu
      obtain ⟨vars, hst, hn⟩ := openPart_names hz0 y hy
      exact e ▸ ey ▸ hpart x.1 vars hst _ hn
    · exact e ▸ himm iv hiv u hu

example (sel : Option (List String)) :
    Sch.load SchemaCase.world SchemaCase.obj (fun a b => decide (a ≤ b)) false sel
      (fun _ => true) none SchemaCase.files =
    bareLoad SchemaCase.world SchemaCase.obj (fun a b => decide (a ≤ b)) false sel
      (fun _ => true) none SchemaCase.files :=
  C65_aligned_load _ _ _ SchemaCase.files_aligned _ _ _ _ _

/-- C65: an object whose metadata lack a variable of the partitions that it loads, because
another object added it since, raises KeyError although the partitions can be read. -/
theorem C65_stale (w : World P V) (o : Obj V) (fs : Files P V) (le : P → P → Bool)
    (delayed : Bool) (sel : Option (List String)) (filters : P → Bool)
    (indexer : Option (List (P × (Nat × Nat)))) (zds : Dataset V)
    (h : bareLoad w o le delayed sel filters indexer fs = .ok (some zds)) (v : Var V)
    (hv : v ∈ zds.vars) (hn : v.name ∉ metaNames o.metas) :
    Sch.load w o le delayed sel filters indexer fs = .error .keyError := by
  show filled (metaNames o.metas) (bareLoad w o le delayed sel filters indexer fs) = _
  rw [h]
  simp only [filled, fillAttrs, bind, Except.bind]
  rw [if_neg fun hc => hn (hc v hv)]

/-- An object, a second object that adds a variable, and a load of the first. -/
example : ∃ o' fs' zds,
    Sch.addVariable SchemaCase.world SchemaCase.obj Faults.never SchemaCase.fresh
      SchemaCase.files = (o', fs', .ok ()) ∧
    bareLoad SchemaCase.world SchemaCase.obj (fun a b => decide (a ≤ b)) false none
      (fun _ => true) none fs' = .ok (some zds) ∧
    (∃ v ∈ zds.vars, v.name ∉ metaNames SchemaCase.obj.metas) ∧
    Sch.load SchemaCase.world SchemaCase.obj (fun a b => decide (a ≤ b)) false none
      (fun _ => true) none fs' = .error .keyError :=
  ⟨_, _, _, rfl, rfl, ⟨_, List.mem_of_getElem? (i := 4) rfl, by decide⟩, rfl⟩

end Verif
