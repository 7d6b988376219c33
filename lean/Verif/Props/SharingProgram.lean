import Verif.Lemmas.SharingWorld
import Verif.Props.SharingCases

/-!
C77: a program on datasets behaves as if each dataset were a value, unless it changes an object
that two datasets hold.
-/

namespace Verif

open Nd Sh Spec

variable {V : Type}

/-- One call. -/
theorem C77_step {h : Heap V} {w : World V} (m : Made h) (dep : Depicts h w) {c : Call V}
    (hp : Private h c) :
    Depicts (step h c).1 (w.step c).1 ∧ (step h c).2 = (w.step c).2 := by
  have v := made_valid m
  have same : Depicts h w ∧ (Except.error PyErr.nameError : Py Res) = .error .nameError :=
    ⟨dep, rfl⟩
  -- the calls on a dataset that does not exist
  have absent : ∀ {n : Nat} {f g}, h.see n = none →
      Depicts (h.on n f).1 (w.on n g).1 ∧ (h.on n f).2 = (w.on n g).2 := by
    intro n f g e
    rw [on_none e, world_none ((dep.set n).symm.trans e)]
    exact same
  have oth : ∀ {c : Call V} {n : Nat}, ¬ Touches c → (∀ e, target c = some e → e = n) →
      ∀ e, e < h.sets.length → e ≠ n → (step h c).1.see e = h.see e := by
    intro c n ht htg e he hne
    exact C77_others m ht he fun h => hne (htg e h)
  have hold : ∀ {h1 : Heap V} {r : Ref} {a : Arr V} {l : List (Arr V)}, h1.bufs = h.bufs ++ l →
      h1.vars = h.vars → h1.dicts = h.dicts → h1.sets = h.sets → h1.hands = h.hands ++ [r] →
      h1.read r = some a →
      Depicts h1 (w.hold a).1 := by
    intro h1 r a l e1 e2 e3 e4 e5 e6
    have x : Ext h h1 := ⟨⟨l, e1⟩, ⟨[], by simp [e2]⟩, [], by simp [e3]⟩
    refine ⟨by rw [e4]; exact dep.sets, by simp [e5, World.hold, dep.hands], fun n => ?_, fun k => ?_⟩
    · refine Eq.trans ?_ (dep.set n)
      exact see_congr (by rw [e4]) (fun _ _ => by rw [e3]) (fun _ _ => by rw [e2])
        (fun b hb => x.buf (v.buf_lt hb))
    · simp only [e5, World.hold]
      by_cases hk : k < h.hands.length
      · rw [List.getElem?_append_left hk, hand_read v ⟨l, e1⟩, dep.hand,
          List.getElem?_append_left (by rw [← dep.hands]; exact hk)]
      · by_cases he : k = h.hands.length
        · subst he
          rw [List.getElem?_append_right (Nat.le_refl _), dep.hands,
            List.getElem?_append_right (Nat.le_refl _)]
          simp only [Nat.sub_self, List.getElem?_cons_zero, Option.bind_some, e6]
        · rw [List.getElem?_eq_none (by simp; omega), List.getElem?_eq_none (by
            simp [← dep.hands]; omega)]
          rfl
  cases c with
  | array a =>
    refine ⟨hold (l := [a]) (r := whole h.bufs.length a) rfl rfl rfl rfl rfl (read_new h a), ?_⟩
    simp only [step, World.step, World.hold, dep.hands]
  | write k idx x =>
    cases hk : h.hands[k]? with
    | none =>
      have ha : w.arrays[k]? = none := by rw [← dep.hand, hk]; rfl
      simp only [step, World.step, hk, ha]
      exact ⟨dep, by trivial⟩
    | some r =>
      have okr := v.hands k r hk
      have hb := List.getElem?_eq_getElem okr.1
      have ha : w.arrays[k]? = some (through r.view (h.bufs[r.buf]'okr.1)) := by
        rw [← dep.hand, hk, Option.bind_some, Heap.read, hb, Option.map_some]
      obtain ⟨p1, p2⟩ := hp r hk
      simp only [step, World.step, hk, ha, Heap.write,
        show (through r.view (h.bufs[r.buf]'okr.1)).shape = r.view.shape from rfl]
      by_cases hi : inBounds idx r.view.shape = true
      · obtain ⟨p, hg⟩ := okr.2.full idx hi
        rw [if_pos hi, if_pos hi, hg, hb]
        refine ⟨⟨dep.sets, by simp only [List.length_set, dep.hands], fun n => ?_, fun j => ?_⟩,
          by trivial⟩
        · refine Eq.trans ?_ (dep.set n)
          refine see_congr rfl (fun _ _ => rfl) (fun _ _ => rfl) fun i hi' => ?_
          have ne : r.buf ≠ i := fun e => p1 n (e ▸ hi')
          simp only [List.getElem?_set_ne ne]
        · simp only
          by_cases hj : j = k
          · subst hj
            have hlt : j < w.arrays.length := (List.getElem?_eq_some_iff.1 ha).1
            rw [hk, Option.bind_some, List.getElem?_set_self hlt]
            simp only [Heap.read, List.getElem?_set_self okr.1, Option.map_some]
            rw [store_through okr.2 hg]
          · rw [List.getElem?_set_ne (Ne.symm hj), ← dep.hand]
            cases hjj : h.hands[j]? with
            | none => rfl
            | some b =>
              simp only [Option.bind_some, Heap.read,
                List.getElem?_set_ne (Ne.symm (p2 j b hj hjj))]
      · rw [if_neg hi, if_neg hi]
        exact ⟨dep, by trivial⟩
  | dataset l attrs chunks limit delayed =>
    have hl := mapM_given dep l
    simp only [World.step]
    cases hm : l.mapM w.given with
    | none =>
      rw [hm] at hl
      simp only at hl
      simp only [step, hl]
      exact ⟨dep, by trivial⟩
    | some L =>
      rw [hm] at hl
      simp only at hl
      rw [hl.1]
      exact new_depicts m dep (c := .dataset l attrs chunks limit delayed) id rfl
        (dataset_appends ..) (C77_dataset m hl.2 ..)
  | values n name =>
    cases hs : h.see n with
    | none => exact absent hs
    | some s =>
      have hv := C77_values m hs name
      have hw := (dep.set n).symm.trans hs
      simp only [World.step, world_some hw]
      cases hx : Ds.getVar s.vars name with
      | none =>
        rw [hx] at hv
        simp only at hv
        rw [hv]
        exact ⟨dep, by trivial⟩
      | some x =>
        obtain ⟨D, c, hg, hD, hc, rfl⟩ := see_obj hs
        simp only [step, Heap.onVar, on_see hg]
        rcases getObj_value v (v.sets n D hD).2 name with
          ⟨r, o, y, g1, g2, g3, g4⟩ | ⟨g1, g2, g3⟩
        · rw [g1]
          rw [show (h.seeObj D c).vars = h.vals D.vars from rfl, g4] at hx
          cases hx
          obtain ⟨a, ha, e⟩ := Option.map_eq_some_iff.1 g3
          subst e
          simp only [Heap.values]
          split
          · refine ⟨hold (l := []) (r := o.array) (by simp) rfl rfl rfl rfl ha, ?_⟩
            simp only [World.hold, dep.hands]
          · rw [ha]
            refine ⟨hold (l := [a]) (r := whole h.bufs.length a) rfl rfl rfl rfl rfl
              (read_new h a), ?_⟩
            simp only [World.hold, dep.hands]
        · rw [show (h.seeObj D c).vars = h.vals D.vars from rfl, g3] at hx
          cases hx
  | assign n name k =>
    cases hs : h.see n with
    | none => exact absent hs
    | some s =>
      have hw := (dep.set n).symm.trans hs
      simp only [World.step, world_some hw]
      obtain ⟨D, c, hg, hD, hc, rfl⟩ := see_obj hs
      rcases getObj_value v (v.sets n D hD).2 name with
        ⟨r, o, y, g1, g2, g3, g4⟩ | ⟨g1, g2, g3⟩
      · rw [show (h.seeObj D c).vars = h.vals D.vars from rfl, g4]
        simp only
        cases ha : w.arrays[k]? with
        | none =>
          have hk : h.hands[k]? = none := by
            rw [List.getElem?_eq_none_iff, dep.hands]
            exact List.getElem?_eq_none_iff.1 ha
          simp only [step, Heap.onVar, on_see hg, g1, hk]
          exact ⟨dep, by trivial⟩
        | some a =>
          have ha' := (dep.hand k).trans ha
          have b := C77_assign m hs g4 ha'
          obtain ⟨rf, hk, hrd⟩ := Option.bind_eq_some_iff.1 ha'
          obtain ⟨hr, ho⟩ := getObj_spec g1
          obtain ⟨q, hq⟩ := adopt_some o.delayed (v.hands k rf hk)
          obtain ⟨x1, rd⟩ := adopt_read hq
          obtain ⟨_, q1, q2, q3, q4, _, _⟩ := adopt_valid v (v.hands k rf hk) hq
          have hvr : HasVar h n r := ⟨D, name, hD, lookup_mem _ _ _ hr⟩
          have cases' : (step h (.assign n name k)).1 = h ∨
              ∃ o', (step h (.assign n name k)).1 = q.1.setObj r o' := by
            simp only [step, Heap.onVar, on_see hg, g1, hk, Heap.assign]
            split
            · exact .inl rfl
            · rw [hq]
              exact .inr ⟨_, rfl⟩
          refine change_depicts m dep ?_ (see_lt hs) b ?_ ?_
          · rcases cases' with e | ⟨o', e⟩
            · exact ⟨by rw [e], by rw [e]⟩
            · exact ⟨by rw [e]; simp only [Heap.setObj, q2], by rw [e]; exact q4⟩
          · intro e _ hne
            rcases cases' with e' | ⟨o', e'⟩
            · rw [e']
            · rw [e']
              exact setObj_others v x1 q1 q2 q3 (hp e r hne hvr)
          · rcases cases' with e' | ⟨o', e'⟩
            · exact ⟨[], by rw [e']; simp⟩
            · rw [e']
              exact x1.bufs
      · rw [show (h.seeObj D c).vars = h.vals D.vars from rfl, g3]
        simp only [step, Heap.onVar, on_see hg, g1]
        exact ⟨dep, by trivial⟩
  | fill n name =>
    cases hs : h.see n with
    | none => exact absent hs
    | some s =>
      have hw := (dep.set n).symm.trans hs
      have b := C77_fill m hs name
      simp only [World.step, world_some hw]
      obtain ⟨D, c, hg, hD, hc, rfl⟩ := see_obj hs
      have cases' : (step h (.fill n name)).1 = h ∨
          ∃ a r o', D.vars.lookup name = some r ∧
            (step h (.fill n name)).1 = { h with bufs := h.bufs ++ [a] }.setObj r o' := by
        simp only [step, Heap.onVar, on_see hg]
        cases g1 : h.getObj D name with
        | error e => exact .inl rfl
        | ok p =>
          obtain ⟨r, o⟩ := p
          simp only [Heap.fill]
          cases o.fill with
          | none => exact .inl rfl
          | some x => exact .inr ⟨_, r, _, (getObj_spec g1).1, rfl⟩
      refine change_depicts m dep ?_ (see_lt hs) b ?_ ?_
      · rcases cases' with e | ⟨a, r, o', _, e⟩
        · exact ⟨by rw [e], by rw [e]⟩
        · exact ⟨by rw [e]; rfl, by rw [e]; rfl⟩
      · intro e _ hne
        rcases cases' with e' | ⟨a, r, o', hr, e'⟩
        · rw [e']
        · rw [e']
          exact setObj_others (h1 := { h with bufs := h.bufs ++ [a] }) v ⟨⟨[a], rfl⟩, ⟨[], by simp⟩, [], by simp⟩ rfl rfl rfl
            (hp e r hne ⟨D, name, hD, lookup_mem _ _ _ hr⟩)
      · rcases cases' with e' | ⟨a, r, o', _, e'⟩
        · exact ⟨[], by rw [e']; simp⟩
        · exact ⟨[a], by rw [e']; rfl⟩
  | setChunk n dim x =>
    cases hs : h.see n with
    | none => exact absent hs
    | some s =>
      have hw := (dep.set n).symm.trans hs
      have b := C77_set_chunk hs dim x
      simp only [World.step, world_some hw]
      obtain ⟨D, c, hg, hD, hc, rfl⟩ := see_obj hs
      have e1 : (step h (.setChunk n dim x)).1 =
          { h with dicts := h.dicts.set D.chunks (put c (dim, x)) } := by
        simp only [step, on_see hg]
      refine change_depicts m dep ⟨by rw [e1], by rw [e1]⟩ (see_lt hs) b ?_ ⟨[], by rw [e1]; simp⟩
      intro e _ hne
      rw [e1]
      refine see_congr rfl (fun i hi => ?_) (fun _ _ => rfl) fun _ _ => rfl
      have ne : D.chunks ≠ i := fun h => hp e i hne ⟨D, hD, h⟩ hi
      simp only [List.getElem?_set_ne ne]
  | selectVars n names =>
    cases hs : h.see n with
    | none => exact absent hs
    | some s =>
      simp only [World.step, world_some ((dep.set n).symm.trans hs)]
      exact new_depicts m dep (c := .selectVars n names) id rfl (selectVars_appends ..)
        (C77_select_vars m hs _)
  | byDims n dims predicate =>
    cases hs : h.see n with
    | none => exact absent hs
    | some s =>
      simp only [World.step, world_some ((dep.set n).symm.trans hs)]
      exact new_depicts m dep (c := .byDims n dims predicate) id rfl (byDims_appends ..)
        (C77_select_by_dims m hs _ _)
  | isel n slices =>
    cases hs : h.see n with
    | none => exact absent hs
    | some s =>
      simp only [World.step, world_some ((dep.set n).symm.trans hs)]
      exact new_depicts m dep (c := .isel n slices) id rfl (isel_appends ..) (C77_isel m hs _)
  | delete n ixs axis =>
    cases hs : h.see n with
    | none => exact absent hs
    | some s =>
      simp only [World.step, world_some ((dep.set n).symm.trans hs)]
      exact new_depicts m dep (c := .delete n ixs axis) id rfl (delete_appends ..)
        (C77_delete m hs _ _)
  | concat n others dim =>
    cases hs : h.see n with
    | none => exact absent hs
    | some s =>
      have hl := mapM_see dep others
      simp only [World.step, world_some ((dep.set n).symm.trans hs)]
      cases hm : others.mapM fun k => w.sets[k]? with
      | none =>
        rw [hm] at hl
        simp only at hl
        obtain ⟨D, c, hg, _⟩ := see_obj hs
        simp only [step, on_see hg, hl]
        exact ⟨dep, by trivial⟩
      | some L =>
        rw [hm] at hl
        simp only at hl
        simp only [hl.1]
        exact new_depicts m dep (c := .concat n others dim) id rfl (concat_appends ..)
          (C77_concat m hs hl.2 _)
  | setForInsertion n chunks limit =>
    cases hs : h.see n with
    | none => exact absent hs
    | some s =>
      simp only [World.step, world_some ((dep.set n).symm.trans hs)]
      exact new_depicts m dep (c := .setForInsertion n chunks limit) id rfl
        (setForInsertion_appends ..) (C77_set_for_insertion m hs _ _)
  | compute n =>
    cases hs : h.see n with
    | none => exact absent hs
    | some s =>
      have b := C77_compute m hs
      simp only [World.step, world_some ((dep.set n).symm.trans hs)]
      obtain ⟨D, c, hg, hD, hc, rfl⟩ := see_obj hs
      have hdl : (h.seeObj D c).delayed = D.delayed := rfl
      cases hd : D.delayed with
      | false =>
        simp only [hdl, hd, Bool.false_eq_true, ↓reduceIte]
        simp only [step, on_see hg, Heap.compute, hd, Bool.not_false, ↓reduceIte, asDs]
        exact ⟨dep, by trivial⟩
      | true =>
        simp only [hdl, hd, ↓reduceIte] at b ⊢
        refine new_depicts m dep (c := .compute n) id rfl ?_ b
        simp only [step, on_see hg, Heap.compute, hd, Bool.not_true, Bool.false_eq_true,
          ↓reduceIte]
        exact (derive_appends ..).asDs
  | rechunk n =>
    cases hs : h.see n with
    | none => exact absent hs
    | some s =>
      have b := C77_rechunk m hs
      simp only [World.step, world_some ((dep.set n).symm.trans hs)]
      obtain ⟨D, c, hg, hD, hc, rfl⟩ := see_obj hs
      have hdl : (h.seeObj D c).delayed = D.delayed := rfl
      cases hd : D.delayed with
      | false =>
        simp only [hdl, hd, Bool.false_eq_true, ↓reduceIte]
        simp only [step, on_see hg, Heap.rechunk, hd, Bool.not_false, ↓reduceIte, asDs]
        exact ⟨dep, by trivial⟩
      | true =>
        simp only [hdl, hd, ↓reduceIte] at b ⊢
        refine new_depicts m dep (c := .rechunk n) id rfl ?_ b
        simp only [step, on_see hg, Heap.rechunk, hd, Bool.not_true, Bool.false_eq_true,
          ↓reduceIte]
        exact (build_appends ..).asDs
  | pickle n =>
    cases hs : h.see n with
    | none => exact absent hs
    | some s =>
      simp only [World.step, world_some ((dep.set n).symm.trans hs)]
      exact new_depicts m dep (c := .pickle n) id rfl (pickle_appends ..) (C77_pickle m hs)
  | merge n other =>
    cases hs : h.see n with
    | none => exact absent hs
    | some s =>
      have hw := (dep.set n).symm.trans hs
      simp only [World.step, world_some hw]
      cases ho : h.see other with
      | none =>
        obtain ⟨D, c, hg, _⟩ := see_obj hs
        simp only [step, on_see hg]
        exact absent ho
      | some o =>
        rw [world_some ((dep.set other).symm.trans ho)]
        exact change_depicts m dep (on_keeps fun _ _ => on_keeps fun _ _ =>
          changed_keeps rfl rfl _ _ _) (see_lt hs) (C77_merge m hs ho)
          (oth (c := .merge n other) id fun e he => by cases he; rfl) (step_ext (c := .merge n other) v id).bufs
  | rename n names =>
    cases hs : h.see n with
    | none => exact absent hs
    | some s =>
      simp only [World.step, world_some ((dep.set n).symm.trans hs)]
      exact change_depicts m dep (on_keeps fun d _ => changed_keeps (rename_keeps h d names).1
          (rename_keeps h d names).2 _ _ _) (see_lt hs) (C77_rename m hs names)
          (oth (c := .rename n names) id fun e he => by cases he; rfl) (step_ext (c := .rename n names) v id).bufs
  | dropVars n names =>
    cases hs : h.see n with
    | none => exact absent hs
    | some s =>
      simp only [World.step, world_some ((dep.set n).symm.trans hs)]
      exact change_depicts m dep (on_keeps fun d _ => changed_keeps rfl rfl _ _ _) (see_lt hs)
          (C77_drop_vars m hs names)
          (oth (c := .dropVars n names) id fun e he => by cases he; rfl) (step_ext (c := .dropVars n names) v id).bufs
  | addVariable n x noneValue hand =>
    cases hs : h.see n with
    | none => cases hand <;> exact absent hs
    | some s =>
      have hw := (dep.set n).symm.trans hs
      cases hand with
      | none =>
        simp only [World.step, world_some hw]
        exact change_depicts m dep (on_keeps fun d _ => changed_keeps
            (addVariable_keeps h d x noneValue none).1 (addVariable_keeps h d x noneValue none).2
            _ _ _) (see_lt hs) (C77_add_variable m hs x noneValue (hand := none) nofun)
            (oth (c := .addVariable n x noneValue none) id fun e he => by cases he; rfl)
            (step_ext (c := .addVariable n x noneValue none) v id).bufs
      | some k =>
        simp only [World.step, world_some hw]
        cases ha : w.arrays[k]? with
        | none =>
          have hk : h.hands[k]? = none := by
            rw [List.getElem?_eq_none_iff, dep.hands]
            exact List.getElem?_eq_none_iff.1 ha
          obtain ⟨D, c, hg, _⟩ := see_obj hs
          simp only [step, on_see hg, hk]
          exact ⟨dep, by trivial⟩
        | some a =>
          have ha' := (dep.hand k).trans ha
          obtain ⟨rf, hk, hrd⟩ := Option.bind_eq_some_iff.1 ha'
          have b := C77_add_variable m hs x noneValue (hand := some k) fun k' e => by
            cases e
            exact (List.getElem?_eq_some_iff.1 hk).1
          rw [Option.bind_some, ha'] at b
          refine change_depicts m dep (on_keeps fun d _ => ?_) (see_lt hs) b
            (oth (c := .addVariable n x noneValue (some k)) id fun e he => by cases he; rfl)
            (step_ext (c := .addVariable n x noneValue (some k)) v id).bufs
          simp only [hk]
          exact changed_keeps (addVariable_keeps h d x noneValue (some rf)).1
            (addVariable_keeps h d x noneValue (some rf)).2 _ _ _
  | fillAttrs n attrs x =>
    cases hs : h.see n with
    | none => exact absent hs
    | some s =>
      simp only [World.step, world_some ((dep.set n).symm.trans hs)]
      have b := C77_fill_attrs m hs attrs x
      obtain ⟨D, c, hg, hD, hc, rfl⟩ := see_obj hs
      have e1 : (step h (.fillAttrs n attrs x)).1 =
          { h with vars := (fillLoop x D.vars h.vars).1 }.setDs n { D with attrs } := by
        simp only [step, on_see hg, changed_fst]
      refine change_depicts m dep ⟨by rw [e1]; simp [Heap.setDs], by rw [e1]; rfl⟩ (see_lt hs) b
        ?_ ⟨[], by rw [e1]; simp [Heap.setDs]⟩
      intro e _ hne
      rw [e1]
      refine see_congr ?_ (fun _ _ => rfl) (fun i hi => ?_) fun _ _ => rfl
      · simp only [Heap.setDs, List.getElem?_set_ne (fun h => hne h.symm)]
      · simp only [Heap.setDs]
        refine fillLoop_other _ _ _ fun p hpm hpi => ?_
        exact hp e i hne ⟨D, p.1, hD, hpi ▸ hpm⟩ hi
  | copyProperties n other =>
    cases hs : h.see n with
    | none => exact absent hs
    | some s =>
      have hw := (dep.set n).symm.trans hs
      simp only [World.step, world_some hw]
      cases ho : h.see other with
      | none =>
        obtain ⟨D, c, hg, _⟩ := see_obj hs
        simp only [step, on_see hg]
        exact absent ho
      | some o =>
        rw [world_some ((dep.set other).symm.trans ho)]
        exact change_depicts m dep (on_keeps fun d _ => on_keeps fun o' _ =>
          changed_keeps (r := .ok ()) (n := n)
            (D := { d with chunks := o'.chunks, limit := o'.limit }) rfl rfl) (see_lt hs)
          (C77_copy_properties hs ho)
          (oth (c := .copyProperties n other) id fun e he => by cases he; rfl) (step_ext (c := .copyProperties n other) v id).bufs

/-- The full claim: a program behaves as if its datasets and its arrays were values. -/
def C77_full : Prop :=
  ∀ (V : Type) (prog : List (Call V)),
    Depicts (Sh.run (empty : Heap V) prog) (World.run ⟨[], []⟩ prog) ∧
      resultsOf (empty : Heap V) prog = World.results ⟨[], []⟩ prog

/-- A program that changes no shared object behaves as if its datasets and its arrays were values.
Missing: the programs that write into an array that a dataset holds, or that change a variable or
a dictionary of chunks that two datasets hold. -/
theorem C77_values_partial (prog : List (Call V)) (hp : PrivateRun empty prog) :
    Depicts (Sh.run (empty : Heap V) prog) (World.run ⟨[], []⟩ prog) ∧
      resultsOf (empty : Heap V) prog = World.results ⟨[], []⟩ prog := by
  have : ∀ (prog : List (Call V)) (h : Heap V) (w : World V), Made h → Depicts h w →
      PrivateRun h prog →
      Depicts (Sh.run h prog) (w.run prog) ∧ resultsOf h prog = w.results prog := by
    intro prog
    induction prog with
    | nil => intro h w _ dep _; exact ⟨dep, rfl⟩
    | cons c t ih =>
      intro h w m dep hp
      obtain ⟨d1, d2⟩ := C77_step m dep hp.1
      obtain ⟨i1, i2⟩ := ih _ _ (made_step m (c := c) (h' := (Sh.step h c).1) (r := (Sh.step h c).2) rfl) d1 hp.2
      exact ⟨i1, by simp only [resultsOf, World.results, d2, i2]⟩
  exact this prog empty ⟨[], []⟩ ⟨[], rfl⟩ ⟨rfl, rfl, fun _ => rfl, fun _ => rfl⟩ hp

/-- The programs without a call that changes an object in place: those that never write into an
array, assign or fill a variable, change the attributes of all variables or an entry of the chunks
behave as if their datasets and their arrays were values, whatever they share. -/
theorem C77_untouched (prog : List (Call V)) (hp : ∀ c ∈ prog, ¬ Touches c) :
    Depicts (Sh.run (empty : Heap V) prog) (World.run ⟨[], []⟩ prog) ∧
      resultsOf (empty : Heap V) prog = World.results ⟨[], []⟩ prog := by
  refine C77_values_partial prog ?_
  generalize (empty : Heap V) = h
  induction prog generalizing h with
  | nil => trivial
  | cons c t ih =>
    refine ⟨?_, ih (fun c hc => hp c (List.mem_cons_of_mem _ hc)) _⟩
    have := hp c List.mem_cons_self
    cases c <;> first | trivial | exact absurd trivial this

namespace SharingCase

/-- The variables of the datasets, by their references. -/
def refs (h : Heap Nat) : List (Nat × Nat) :=
  h.sets.zipIdx.flatMap fun x => x.1.vars.map fun p => (x.2, p.2)

theorem mem_refs {h : Heap Nat} {d r : Nat} (hv : HasVar h d r) : (d, r) ∈ refs h := by
  obtain ⟨D, name, e, hp⟩ := hv
  exact List.mem_flatMap.2 ⟨(D, d), List.mem_zipIdx_iff_getElem?.2 e,
    List.mem_map.2 ⟨(name, r), hp, rfl⟩⟩

/-- No variable of the dataset `n` is in another. -/
def ownVars (h : Heap Nat) (n : Nat) : Bool :=
  (refs h).all fun p => (refs h).all fun q => p.1 ≠ n || q.1 = n || p.2 ≠ q.2

theorem ownVars_spec {h : Heap Nat} {n : Nat} (hb : ownVars h n = true) :
    ∀ e r, e ≠ n → HasVar h n r → ¬ HasVar h e r := by
  intro e r ne h1 h2
  have := List.all_eq_true.1 (List.all_eq_true.1 hb _ (mem_refs h1)) _ (mem_refs h2)
  simp [ne] at this

/-- The array `k` is the only one on its memory. -/
def ownHand (h : Heap Nat) (k : Nat) : Bool :=
  (h.hands.zipIdx.all fun x => x.2 ≠ k ||
    ((refs h).all fun p => (h.vars[p.2]?).all fun o => o.array.buf ≠ x.1.buf) &&
    (h.hands.zipIdx.all fun y => y.2 = k || y.1.buf ≠ x.1.buf))

theorem ownHand_spec {h : Heap Nat} {k : Nat} {idx : List Nat} {v : Nat}
    (hb : ownHand h k = true) : Private h (.write k idx v) := by
  intro a ha
  have h1 := List.all_eq_true.1 hb (a, k) (List.mem_zipIdx_iff_getElem?.2 ha)
  simp only [ne_eq, not_true_eq_false, decide_false, Bool.false_or, Bool.and_eq_true] at h1
  refine ⟨?_, fun j b ne hj he => ?_⟩
  · rintro e ⟨r, o, hr, ho, eq⟩
    have h2 := List.all_eq_true.1 h1.1 _ (mem_refs hr)
    simp [ho, eq] at h2
  · have h2 := List.all_eq_true.1 h1.2 (b, j) (List.mem_zipIdx_iff_getElem?.2 hj)
    simp [ne, he] at h2

/-- A dataset on an array, a slice of it that the program fills, a pickle of which it renames a
variable, and an array that no dataset holds. -/
def tidy : List (Call Nat) :=
  [ .array (arr 7), .dataset [given "x" 0 none, given "y" 0 (some 3)] [] [] 0 none, sliceCall,
    .fill 1 "y", .pickle 1, .rename 2 [("y", "z")], .array (arr 27), .write 1 [0] 5,
    .concat 0 [1] "t" ]

theorem tidy_private : PrivateRun (empty : Heap Nat) tidy := by
  refine ⟨trivial, trivial, trivial, ?_, trivial, trivial, trivial, ?_, trivial, trivial⟩
  · exact ownVars_spec (by decide +kernel)
  · exact ownHand_spec (by decide +kernel)

end SharingCase

open SharingCase

/-- A dataset shows what the program writes into the array it was made of. -/
theorem C77_counterexample : ¬ C77_full := by
  intro hf
  have h1 := (hf Nat [.array (arr 7), .dataset [given "x" 0 none] [] [] 0 none,
    .write 0 [0] 5]).1.set 0
  have h2 := congrArg (fun s => s.bind fun s => (Ds.getVar s.vars "x").bind fun x =>
    x.array.get [0]) h1
  exact absurd h2 (by decide +kernel)

/-- The slice is filled, the dataset it comes from is not; its last dataset has five elements. -/
example : PrivateRun (empty : Heap Nat) tidy ∧
    (World.run ⟨[], []⟩ tidy).sets.map (fun s => s.vars.map fun x => (x.name, x.array.get [0])) =
      [[("x", some 7), ("y", some 7)], [("x", some 8), ("y", some 3)],
       [("x", some 8), ("z", some 3)], [("x", some 7), ("y", some 7)]] ∧
    (World.run ⟨[], []⟩ tidy).sets.map (fun s => s.dims) =
      [[("t", 3)], [("t", 2)], [("t", 2)], [("t", 5)]] ∧
    (World.run ⟨[], []⟩ tidy).arrays.map (fun a => a.get [0]) = [some 7, some 5] :=
  ⟨tidy_private, by decide +kernel, by decide +kernel, by decide +kernel⟩

/-- `C77_untouched`: a selection, which shares its variables, is merged into a dataset. -/
example : ∀ c ∈ ([ .array (arr 7), .dataset [given "x" 0 none, given "y" 0 (some 8)] [] [] 0 none,
    .array (arr 17), .dataset [given "z" 1 none] [] [] 0 none, .selectVars 0 ["y"],
    .merge 1 2, .dropVars 0 ["y"] ] : List (Call Nat)), ¬ Touches c := by
  intro c hc
  simp only [List.mem_cons, List.not_mem_nil, or_false] at hc
  rcases hc with rfl | rfl | rfl | rfl | rfl | rfl | rfl <;> exact id

/-- `C77_step`, `C77_values`: the heap of the cases of C76, and what its datasets show. -/
example : Made start ∧ (start.see 0).isSome ∧ (start.see 1).isSome ∧ (start.see 2).isSome :=
  ⟨start_made, by decide +kernel, by decide +kernel, by decide +kernel⟩

end Verif
