import Verif.Lemmas.UpdateRun
import Verif.Props.Batches

/-! C31, C32: what an update changes, and the order in which the workers proceed. -/

namespace Verif

open Spec Nd Ds Upd

variable {P V : Type} [DecidableEq P]

omit [DecidableEq P] in
theorem splitSequence_flatten {l : List P} {n : Int} {bs : List (List P)}
    (h : Batches.splitSequence l (some n) = .ok bs) : bs.flatten = l := by
  have hn : 0 < n := by
    unfold Batches.splitSequence at h
    simp only [Option.getD_some] at h
    split at h
    · cases h
    · omega
  have hl : l ≠ [] := by
    rintro rfl
    unfold Batches.splitSequence at h
    simp only [Option.getD_some, List.length_nil, Nat.min_zero, if_true] at h
    split at h <;> cases h
  obtain ⟨bs', h1, h2, _⟩ := C19_split_sequence l (some n) hl (by simp [hn])
  rw [h1] at h
  cases h
  exact h2

/-- The possible outcomes of an update. -/
theorem update_cases (c : Cfg P V) (depth : Int) (f : Callback V (Dict V)) (isLazy : Bool)
    (known vars : List String) (workers : Int) (st : Store P V) :
    (∃ e, update c depth f isLazy known vars workers st = (st, .error e)) ∨
    (vars = [] ∧ infer c f known st = .ok [] ∧
      update c depth f isLazy known vars workers st = (st, .ok ())) ∨
    (0 ≤ depth ∧ ∃ c' : Cfg P V, c'.depth = depth.toNat ∧ c'.parts = c.parts ∧
      c'.delayed = c.delayed ∧ c'.imm = c.imm ∧ c'.dim = c.dim ∧ c'.trim = c.trim ∧
      (depth = 0 → c'.sel = c.sel) ∧
      update c depth f isLazy known vars workers st = updateParts c' f isLazy st c.parts) := by
  unfold update
  split
  · exact .inl ⟨_, rfl⟩
  · next h =>
    right; left
    by_cases hv : vars = []
    · rw [if_pos hv] at h
      exact ⟨hv, h, rfl⟩
    · rw [if_neg hv] at h
      cases h
      exact absurd rfl hv
  · next v vs h =>
    by_cases hd : depth < 0
    · rw [if_pos hd]; exact .inl ⟨_, rfl⟩
    · rw [if_neg hd]
      simp only
      split
      · exact .inl ⟨_, rfl⟩
      · next bs hbs =>
        right; right
        refine ⟨by omega, { c with
            depth := depth.toNat
            sel := if depth ≠ 0 then c.sel.map fun l => l ++ (v :: vs).filter (· ∉ l)
              else c.sel }, rfl, rfl, rfl, rfl, rfl, rfl, ?_, ?_⟩
        · intro h0; simp [h0]
        · rw [splitSequence_flatten hbs]

/-! ### C31 -/

/-- C31: whatever the outcome, an update changes only the selected partitions, and there only
the values of the variables that the callback returns: the variables, their dimensions,
their shapes and all the other values stay. -/
theorem C31_frame (c : Cfg P V) (depth : Int) (f : Callback V (Dict V)) (isLazy : Bool)
    (known vars : List String) (workers : Int) (st : Store P V) (names : List String)
    (hf : Returns f names) :
    (∀ q, q ∉ c.parts → (update c depth f isLazy known vars workers st).1 q = st q) ∧
    SameStore names st (update c depth f isLazy known vars workers st).1 := by
  rcases update_cases c depth f isLazy known vars workers st with
    ⟨e, h⟩ | ⟨_, _, h⟩ | ⟨_, c', _, _, _, _, _, _, _, h⟩
  · rw [h]; exact ⟨fun _ _ => rfl, SameStore.refl _ _⟩
  · rw [h]; exact ⟨fun _ _ => rfl, SameStore.refl _ _⟩
  · rw [h]
    exact updateParts_frame hf rfl

/-- C31: also when the workers are interrupted at any moment, in any order, with failures. -/
theorem C31_frame_interrupted (c : Cfg P V) (f : Callback V (Dict V)) (st : Store P V)
    (names : List String) (hf : Returns f names) (sched : List P)
    (hsched : ∀ p ∈ sched, p ∈ c.parts) :
    (∀ q, q ∉ c.parts → ((Machine.start st).run c f sched).store q = st q) ∧
    SameStore names st ((Machine.start st).run c f sched).store := by
  obtain ⟨h1, h2⟩ := run_frame (c := c) hf sched (Machine.start st)
    (by intro q l h; cases h)
  exact ⟨fun q hq => h2 q fun hc => hq (hsched q hc), h1⟩

/-- C31, full statement about the values: after a successful update without overlap, each
variable that the callback returned for a partition has the value that it computed from the
content before the update. -/
def C31_full : Prop :=
  ∀ (P V : Type) [DecidableEq P] (c : Cfg P V) (f : Callback V (Dict V)) (isLazy : Bool)
    (known vars : List String) (workers : Int) (st st' : Store P V),
    c.parts.Nodup → GoodStore st → Keys f →
    update c 0 f isLazy known vars workers st = (st', .ok ()) →
    ∀ p ∈ c.parts, ∃ zds d, loadDataset c st p = .ok zds ∧ f zds none = .ok d ∧
      ∀ x ∈ d, stored st' p x.1 = some x.2

/-- C31: this holds for callbacks that return the arrays themselves, or at most one variable,
and always at least one.  Missing: a callback that returns several dask arrays
(`C31_lazy_counterexample`), and callbacks that return nothing for the first partition
(`C31_skip_counterexample`). -/
theorem C31_values_partial (c : Cfg P V) (f : Callback V (Dict V)) (isLazy : Bool)
    (known vars : List String) (workers : Int) (st st' : Store P V)
    (hnd : c.parts.Nodup) (hk : Keys f)
    (hlazy : isLazy = false ∨ ∀ zds ind d, f zds ind = .ok d → d.length ≤ 1)
    (hret : vars ≠ [] ∨ ∀ zds ind d, f zds ind = .ok d → d ≠ [])
    (h : update c 0 f isLazy known vars workers st = (st', .ok ())) :
    ∀ p ∈ c.parts, ∃ zds d, loadDataset c st p = .ok zds ∧ f zds none = .ok d ∧
      ∀ x ∈ d, stored st' p x.1 = some x.2 := by
  intro p hp
  rcases update_cases c 0 f isLazy known vars workers st with
    ⟨e, h'⟩ | ⟨h1, h2, h'⟩ | ⟨_, c', h1, h2, h3, h4, _, _, h5, h'⟩
  · rw [h] at h'; cases h'
  · exfalso
    rcases hret with hret | hret
    · exact hret h1
    · unfold infer at h2
      split at h2
      · next hparts => rw [hparts] at hp; simp at hp
      · simp only [bind, Except.bind] at h2
        split at h2
        · cases h2
        · split at h2
          · cases h2
          · split at h2
            · cases h2
            · next d hd =>
              split at h2
              · cases h2
              · simp only [Except.ok.injEq, List.map_eq_nil_iff] at h2
                exact hret _ _ _ hd h2
  · rw [h] at h'
    have heager : updateParts c' f false st c.parts = (st', .ok ()) := by
      rcases hlazy with hl | hl
      · rw [← hl]; exact h'.symm
      · cases isLazy with
        | false => exact h'.symm
        | true => rw [← updateParts_single hl]; exact h'.symm
    -- any list of names will do for a list of partitions without overlap
    have hd0 : c'.depth = 0 := by rw [h1]; rfl
    have hafter : ∀ (ps : List P) (s : Store P V), ps.Nodup → (∀ q ∈ ps, s q = st q) →
        updateParts c' f false s ps = (st', .ok ()) →
        ∀ q ∈ ps, st' q = (after c' f st q).1 ∧ (after c' f st q).2 = .ok () := by
      intro ps
      induction ps with
      | nil => simp
      | cons a t ih =>
        intro s hnd hs hu
        rw [List.nodup_cons] at hnd
        simp only [updateParts] at hu
        split at hu
        · cases hu
        · next st1 hp1 =>
          have hother := updatePart_other hp1
          obtain ⟨u1, u2⟩ := updatePart_after c' f s a
          have hsa := hs a (by simp)
          have heq : after c' f s a = after c' f st a := by
            unfold after
            rw [items_local c' hd0 f a hsa, hsa]
            cases items c' f st a with
            | error e => rfl
            | ok l => simp only [Prod.mk.injEq]; exact writeAll_local hsa
          rw [hp1, heq] at u1 u2
          have hih := ih st1 hnd.2 (fun q hq => by
            rw [hother q (by rintro rfl; exact hnd.1 hq), hs q (by simp [hq])]) hu
          intro q hq
          rcases List.mem_cons.1 hq with rfl | hq
          · exact ⟨(updateParts_other hu q hnd.1).trans u1, u2.symm⟩
          · exact hih q hq
    obtain ⟨a1, a2⟩ := hafter c.parts st hnd (fun _ _ => rfl) heager p hp
    obtain ⟨l, hl, hval⟩ := after_ok a2 hk
    have hval := hval st' a1
    simp only [items, hd0, if_true, bind, Except.bind] at hl
    split at hl
    · cases hl
    · next zds hz =>
      split at hl
      · cases hl
      · next d hd =>
        cases hl
        have hz' : loadDataset c st p = .ok zds := by
          rw [← hz]
          simp only [loadDataset, h3, h4, h5 rfl]
        refine ⟨zds, d, hz', hd, ?_⟩
        intro x hx
        obtain ⟨a, e1, e2⟩ := hval (x.1, .ok x.2) (List.mem_map.2 ⟨x, hx, rfl⟩)
        simp only at e1 e2
        cases e1
        exact e2

/-- A one dimensional array. -/
def vec (l : List Nat) : Arr Nat where
  shape := [l.length]
  get idx := match idx with
    | [i] => l[i]?
    | _ => none

/-- A variable along `"d"`. -/
def dvar (name : String) (l : List Nat) : Var Nat :=
  { name, delayed := false, dims := ["d"], array := vec l, fill := none, props := 0 }

/-- The array of a variable of the dataset, or `KeyError`. -/
def arrayOf (zds : Dataset V) (n : String) : Py (Arr V) := do
  let v ← getVarE zds.vars n
  .ok v.array

theorem vec_arrOk (l : List Nat) : ArrOk (vec l) := by
  intro idx
  simp only [vec, Inside]
  match idx with
  | [] => simp
  | [i] =>
    constructor
    · rintro ⟨v, hv⟩
      refine ⟨rfl, ?_⟩
      intro k x n h1 h2
      cases k with
      | zero =>
        simp only [List.getElem?_cons_zero, Option.some.injEq] at h1 h2
        subst h1 h2
        exact (List.getElem?_eq_some_iff.1 hv).1
      | succ k => simp at h1
    · rintro ⟨_, h⟩
      have := h 0 i l.length rfl rfl
      exact ⟨l[i], List.getElem?_eq_getElem this⟩
  | _ :: _ :: _ => simp

/-- The store of a collection with the given partitions. -/
def storeOf (parts : List (String × List (Var Nat))) : Store String Nat :=
  fun p => parts.lookup p

theorem goodStore_storeOf (parts : List (String × List (Var Nat)))
    (h : ∀ x ∈ parts, (x.2.map (·.name)).Nodup ∧
      ∀ v ∈ x.2, ∃ n l, v = dvar n l) : GoodStore (storeOf parts) := by
  have hd : ∀ p vs, storeOf parts p = some vs → ∀ v ∈ vs, ∃ n l, v = dvar n l :=
    fun p vs hp => (h _ (lookup_mem parts p vs hp)).2
  refine ⟨fun p vs hp => ⟨(h _ (lookup_mem parts p vs hp)).1, fun v hv => ?_⟩,
    fun p q vs ws hp hq v hv w hw _ => ?_⟩
  · obtain ⟨n, l, rfl⟩ := hd p vs hp v hv
    exact ⟨vec_arrOk l, by simp [dvar]⟩
  · obtain ⟨n, l, rfl⟩ := hd p vs hp v hv
    obtain ⟨m, k, rfl⟩ := hd q ws hq w hw
    rfl

/-- The selection of all the variables of some partitions. -/
def plain (depth : Nat) (parts : List String) : Cfg String Nat :=
  { delayed := true, imm := none, sel := none, depth, dim := "d", trim := true, parts }

/-- A callback that swaps two variables. -/
def swapXY : Callback Nat (Dict Nat) := fun zds _ => do
  let x ← arrayOf zds "x"
  let y ← arrayOf zds "y"
  .ok [("x", y), ("y", x)]

theorem swapXY_keys : Keys swapXY := by
  intro zds ind d h
  simp only [swapXY, bind, Except.bind] at h
  split at h
  · cases h
  · split at h
    · cases h
    · cases h; simp

/-- C31 is violated when the callback returns several dask arrays, as it does with
`delayed=True`, the default: each array is computed when it is written, after the variables
before it were overwritten.  Swapping two variables copies one over the other. -/
theorem C31_lazy_counterexample : ¬ C31_full := by
  intro h
  let st := storeOf [("p", [dvar "x" [1], dvar "y" [2]])]
  let r := update (plain 0 ["p"]) 0 swapXY true ["x", "y"] ["x", "y"] 1 st
  have hr : r = (r.1, .ok ()) := by
    have : r.2 = .ok () := by rfl
    rw [← this]
  obtain ⟨zds, d, h1, h2, h3⟩ := h String Nat (plain 0 ["p"]) swapXY true ["x", "y"] ["x", "y"]
    1 st r.1 (by decide) (goodStore_storeOf _ (by
      intro x hx
      simp only [List.mem_singleton] at hx
      subst hx
      refine ⟨by decide, ?_⟩
      intro v hv
      simp only [List.mem_cons, List.not_mem_nil, or_false] at hv
      rcases hv with rfl | rfl <;> exact ⟨_, _, rfl⟩)) swapXY_keys hr "p" (by simp [plain])
  have hz : (loadDataset (plain 0 ["p"]) st "p" >>= fun z => swapXY z none) =
      .ok [("x", vec [2]), ("y", vec [1])] := by rfl
  rw [h1] at hz
  have hz : swapXY zds none = .ok [("x", vec [2]), ("y", vec [1])] := hz
  rw [h2] at hz
  cases hz
  have := h3 ("y", vec [1]) (by simp)
  have hy : (stored r.1 "p" "y").bind (fun a => a.get [0]) = some 2 := by rfl
  rw [this] at hy
  revert hy
  decide

/-- A callback that has nothing to change in a partition of one record. -/
def skipShort : Callback Nat (Dict Nat) := fun zds _ => do
  let x ← arrayOf zds "x"
  .ok (if x.shape = [1] then [] else [("x", full x.shape 7)])

/-- C31 is violated when the callback returns no variable for the first selected partition
and the argument `variables` is not given: no partition at all is updated, with a warning
that the collection is empty. -/
theorem C31_skip_counterexample : ¬ C31_full := by
  intro h
  let st := storeOf [("p", [dvar "x" [1]]), ("q", [dvar "x" [1, 2]])]
  let r := update (plain 0 ["p", "q"]) 0 skipShort false ["x"] [] 1 st
  have hr : r = (r.1, .ok ()) := by
    have : r.2 = .ok () := by rfl
    rw [← this]
  obtain ⟨zds, d, h1, h2, h3⟩ := h String Nat (plain 0 ["p", "q"]) skipShort false ["x"] []
    1 st r.1 (by decide) (goodStore_storeOf _ (by
      intro x hx
      simp only [List.mem_cons, List.not_mem_nil, or_false] at hx
      rcases hx with rfl | rfl
      all_goals
        refine ⟨by decide, ?_⟩
        intro v hv
        simp only [List.mem_singleton] at hv
        subst hv
        exact ⟨_, _, rfl⟩)) (by
      intro zds ind d h
      simp only [skipShort, bind, Except.bind] at h
      split at h
      · cases h
      · cases h; split <;> simp) hr "q" (by simp [plain])
  have hz : (loadDataset (plain 0 ["p", "q"]) st "q" >>= fun z => skipShort z none) =
      .ok [("x", full [2] 7)] := by rfl
  rw [h1] at hz
  have hz : skipShort zds none = .ok [("x", full [2] 7)] := hz
  rw [h2] at hz
  cases hz
  have := h3 ("x", full [2] 7) (by simp)
  have hy : (stored r.1 "q" "x").bind (fun a => a.get [0]) = some 1 := by rfl
  rw [this] at hy
  revert hy
  decide

/-- When the variables are given and the filters select no partition, an update raises
instead of doing nothing. -/
theorem C31_empty_selection (c : Cfg P V) (f : Callback V (Dict V)) (isLazy : Bool)
    (known vars : List String) (workers : Int) (st : Store P V) (hp : c.parts = [])
    (hv : vars ≠ []) :
    ∃ e, update c 0 f isLazy known vars workers st = (st, .error e) := by
  rcases update_cases c 0 f isLazy known vars workers st with
    h | ⟨h1, _, _⟩ | h
  · exact h
  · exact absurd h1 hv
  · unfold update
    rw [if_neg hv]
    cases vars with
    | nil => exact absurd rfl hv
    | cons v vs =>
      simp only [hp]
      unfold Batches.splitSequence
      simp only [Option.getD_some, List.length_nil, Nat.min_zero, if_true]
      split
      · next h => omega
      · split
        · exact ⟨_, rfl⟩
        · next h =>
          split at h <;> cases h

/-- A callback that copies `x` over `y`. -/
def copyXY : Callback Nat (Dict Nat) := fun zds _ => do
  let x ← arrayOf zds "x"
  .ok [("y", x)]

theorem copyXY_spec (zds : Dataset Nat) (ind : Option (Nat × Nat)) (d : Dict Nat)
    (h : copyXY zds ind = .ok d) : ∃ a, d = [("y", a)] := by
  simp only [copyXY, bind, Except.bind] at h
  split at h
  · cases h
  · cases h; exact ⟨_, rfl⟩

/-- The hypotheses of `C31_frame` and `C31_values_partial` are met by an update of two
partitions. -/
example : Returns copyXY ["y"] ∧ Keys copyXY ∧
    (∀ zds ind d, copyXY zds ind = .ok d → d.length ≤ 1 ∧ d ≠ []) ∧
    (update (plain 0 ["p", "q"]) 0 copyXY true ["x", "y"] [] 3
      (storeOf [("p", [dvar "x" [1], dvar "y" [2]]), ("q", [dvar "x" [3, 4], dvar "y" [5, 6]]),
        ("r", [dvar "x" [7]])])).2 = .ok () := by
  refine ⟨?_, ?_, ?_, rfl⟩
  · intro zds ind d h x hx
    obtain ⟨a, rfl⟩ := copyXY_spec zds ind d h
    simp at hx
    simp [hx]
  · intro zds ind d h
    obtain ⟨a, rfl⟩ := copyXY_spec zds ind d h
    simp
  · intro zds ind d h
    obtain ⟨a, rfl⟩ := copyXY_spec zds ind d h
    simp

/-! ### C32 -/

/-- C32, full statement: at the end of any run of the workers, each partition has the values
computed from the content of the collection before the update. -/
def C32_full : Prop :=
  ∀ (P V : Type) [DecidableEq P] (c : Cfg P V) (f : Callback V (Dict V)) (st : Store P V),
    c.parts.Nodup → GoodStore st → Keys f → ∀ sched : List P, ∀ p ∈ c.parts,
    ((Machine.start st).run c f sched).loc p = .done →
    ∃ l, items c f st p = .ok l ∧ ∀ x ∈ l, ∃ a, x.2 = .ok a ∧
      stored ((Machine.start st).run c f sched).store p x.1 = some a

theorem start_inv (c : Cfg P V) (f : Callback V (Dict V)) (st : Store P V)
    (names : List String) :
    SameStore names st (Machine.start st).store ∧
    ∀ q, At (names := names) c f st (Machine.start st) q :=
  ⟨SameStore.refl _ _, fun _ => rfl⟩

theorem stable_of {c : Cfg P V} {f : Callback V (Dict V)} {names : List String}
    (h : c.depth = 0 ∨ Ignores f names) (st : Store P V) : Stable c f names st := by
  rcases h with h | h
  · exact stable_depth h st
  · exact stable_ignores h st

/-- C32: without overlap, or when the callback does not read the variables it updates, a
partition that was processed has the values computed from the snapshot, for every order of
the actions of the workers.  Missing: an overlap with a callback that reads the variables it
updates (`C32_counterexample`). -/
theorem C32_snapshot_partial (c : Cfg P V) (f : Callback V (Dict V)) (st : Store P V)
    (names : List String) (hf : Returns f names) (hk : Keys f)
    (hc : c.depth = 0 ∨ Ignores f names) (sched : List P) (p : P)
    (hp : ((Machine.start st).run c f sched).loc p = .done) :
    ∃ l, items c f st p = .ok l ∧ ∀ x ∈ l, ∃ a, x.2 = .ok a ∧
      stored ((Machine.start st).run c f sched).store p x.1 = some a := by
  obtain ⟨i1, i2⟩ := start_inv c f st names
  have hat := (run_inv hf (stable_of hc st) sched i1 i2).2 p
  unfold At at hat
  rw [hp] at hat
  obtain ⟨l, h1, h2⟩ := after_ok hat.2 hk
  exact ⟨l, h1, h2 _ hat.1⟩

/-- C32: under the same conditions two runs give the same content and the same outcome to
each partition that both finished, failed ones included. -/
theorem C32_schedules_agree_partial (c : Cfg P V) (f : Callback V (Dict V)) (st : Store P V)
    (names : List String) (hf : Returns f names) (hc : c.depth = 0 ∨ Ignores f names)
    (s1 s2 : List P) (p : P)
    (h1 : ((Machine.start st).run c f s1).loc p = .done ∨
      ((Machine.start st).run c f s1).loc p = .failed)
    (h2 : ((Machine.start st).run c f s2).loc p = .done ∨
      ((Machine.start st).run c f s2).loc p = .failed) :
    ((Machine.start st).run c f s1).store p = ((Machine.start st).run c f s2).store p ∧
    ((Machine.start st).run c f s1).loc p = ((Machine.start st).run c f s2).loc p := by
  obtain ⟨i1, i2⟩ := start_inv c f st names
  have a1 := (run_inv hf (stable_of hc st) s1 i1 i2).2 p
  have a2 := (run_inv hf (stable_of hc st) s2 i1 i2).2 p
  unfold At at a1 a2
  rcases h1 with h1 | h1 <;> rcases h2 with h2 | h2 <;> rw [h1] at a1 <;> rw [h2] at a2 <;>
    rw [h1, h2]
  · exact ⟨a1.1.trans a2.1.symm, rfl⟩
  · exact absurd a1.2 a2.2
  · exact absurd a2.2 a1.2
  · exact ⟨a1.1.trans a2.1.symm, rfl⟩

/-- C32: a partition is finished as soon as the workers acted on it once for the callback,
once for each variable and once to conclude. -/
theorem C32_finishes_partial (c : Cfg P V) (f : Callback V (Dict V)) (st : Store P V)
    (names : List String) (hf : Returns f names) (hc : c.depth = 0 ∨ Ignores f names)
    (sched : List P) (p : P)
    (hcount : ∀ l, items c f st p = .ok l → l.length + 2 ≤ sched.count p)
    (hmem : p ∈ sched) :
    ((Machine.start st).run c f sched).loc p = .done ∨
      ((Machine.start st).run c f sched).loc p = .failed := by
  obtain ⟨i1, i2⟩ := start_inv c f st names
  have h := run_left hf (stable_of hc st) sched i1 i2 p
  have h0 : left c f st p ((Machine.start st).loc p) ≤ sched.count p := by
    simp only [Machine.start, left]
    split
    · exact List.count_pos_iff.2 hmem
    · next l hl => exact hcount l hl
  have h : left c f st p (((Machine.start st).run c f sched).loc p) = 0 := by omega
  cases hl : ((Machine.start st).run c f sched).loc p with
  | done => exact .inl rfl
  | failed => exact .inr rfl
  | writing l => rw [hl] at h; simp [left] at h
  | idle =>
    rw [hl] at h
    simp only [left] at h
    split at h <;> omega

/-- C32: the processing of the partitions one after the other, in any order, gives the same
result as any finished run of the workers. -/
theorem C32_sequential_partial (c : Cfg P V) (f : Callback V (Dict V)) (st st' : Store P V)
    (names : List String) (hf : Returns f names) (hc : c.depth = 0 ∨ Ignores f names)
    (order : List P) (hnd : order.Nodup)
    (h : updateParts c f false st order = (st', .ok ())) (sched : List P)
    (hsched : ∀ p, p ∈ sched ↔ p ∈ order)
    (hdone : ∀ p ∈ order, ((Machine.start st).run c f sched).loc p = .done ∨
      ((Machine.start st).run c f sched).loc p = .failed) :
    ((Machine.start st).run c f sched).store = st' := by
  obtain ⟨i1, i2⟩ := start_inv c f st names
  have a1 := (run_inv hf (stable_of hc st) sched i1 i2).2
  have hseq := updateParts_after hf (stable_of hc st) hnd (SameStore.refl _ _)
    (fun _ _ => rfl) h
  funext p
  by_cases hp : p ∈ order
  · have a := a1 p
    unfold At at a
    rcases hdone p hp with hd | hd <;> rw [hd] at a
    · rw [a.1, (hseq p hp).1]
    · exact absurd (hseq p hp).2 a.2
  · rw [(run_frame hf sched (Machine.start st) (by intro q l h; cases h)).2 p
      (fun hc => hp ((hsched p).1 hc))]
    exact (updateParts_other h p hp).symm

/-- The hypotheses of the theorems above are met by a callback that reads `x` and writes `y`,
with an overlap, and by interleaved actions. -/
example : Ignores copyXY ["y"] ∧
    (∀ p ∈ ["p", "q"], ((Machine.start (storeOf [("p", [dvar "x" [1], dvar "y" [2]]),
      ("q", [dvar "x" [3, 4], dvar "y" [5, 6]])])).run (plain 1 ["p", "q"]) copyXY
        ["p", "q", "q", "p", "q", "p"]).loc p = .done) := by
  constructor
  · intro a b ind h
    simp only [copyXY, arrayOf, getVarE]
    rcases h.2.2.2.2.2.getVar "x" with ⟨h1, h2⟩ | ⟨v, w, h1, h2, h3⟩
    · rw [h1, h2]
    · rw [h1, h2]
      have hv := (getVar_some _ _ _ h1).2
      simp only [bind, Except.bind, h3.2.2.2.2.2.2 (by rw [hv]; decide)]
  · intro p hp
    simp only [List.mem_cons, List.not_mem_nil, or_false] at hp
    rcases hp with rfl | rfl <;> rfl

/-- A callback that writes everywhere the first value of `x`, plus one. -/
def firstPlusOne : Callback Nat (Dict Nat) := fun zds _ => do
  let x ← arrayOf zds "x"
  match x.get [0] with
  | none => .error .indexError
  | some n => .ok [("x", full x.shape (n + 1))]

/-- C32 is violated with an overlap: the neighbours are read when the partition is processed,
updated or not, so the result depends on the order of the workers. -/
theorem C32_counterexample : ¬ C32_full := by
  intro h
  let st := storeOf [("p", [dvar "x" [1]]), ("q", [dvar "x" [5]])]
  let m := (Machine.start st).run (plain 1 ["p", "q"]) firstPlusOne
    ["p", "p", "p", "q", "q", "q"]
  obtain ⟨l, h1, h2⟩ := h String Nat (plain 1 ["p", "q"]) firstPlusOne st (by decide)
    (goodStore_storeOf _ (by
      intro x hx
      simp only [List.mem_cons, List.not_mem_nil, or_false] at hx
      rcases hx with rfl | rfl
      all_goals
        refine ⟨by decide, ?_⟩
        intro v hv
        simp only [List.mem_singleton] at hv
        subst hv
        exact ⟨_, _, rfl⟩)) (by
      intro zds ind d h
      simp only [firstPlusOne, bind, Except.bind] at h
      split at h
      · cases h
      · split at h
        · cases h
        · cases h; simp) ["p", "p", "p", "q", "q", "q"] "q" (by simp [plain]) rfl
  have hi : (items (plain 1 ["p", "q"]) firstPlusOne st "q").toOption.bind
      (fun l => l.head?.bind fun x => x.2.toOption.bind fun a => a.get [0]) = some 2 := by rfl
  rw [h1] at hi
  cases l with
  | nil => cases hi
  | cons x t =>
    obtain ⟨a, ha, hs⟩ := h2 x (by simp)
    have hx : x.1 = "x" := by
      have hn : (items (plain 1 ["p", "q"]) firstPlusOne st "q").toOption.bind
        (fun l => l.head?.map (·.1)) = some "x" := by rfl
      rw [h1] at hn
      simpa [Except.toOption] using hn
    rw [hx] at hs
    have hm : (stored m.store "q" "x").bind (fun a => a.get [0]) = some 3 := by rfl
    have hs : stored m.store "q" "x" = some a := hs
    rw [hs] at hm
    simp only [Except.toOption, List.head?_cons, Option.bind_some, ha] at hi hm
    rw [hi] at hm
    cases hm

end Verif
