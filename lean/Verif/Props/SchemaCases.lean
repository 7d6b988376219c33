import Verif.Props.SchemaHistory

/-! C30: cases that meet the hypotheses of its theorems, and the cases where it fails. -/

namespace Verif

open Nd Ds Upd Spec Sch

/-- C30 as stated, for a collection in step with its metadata: a successful addition or removal
of a variable keeps it so, a failed one restores the collection, and a collection that was
dropped a variable can be opened again. -/
def C30_full : Prop :=
  ∀ (P V : Type) [DecidableEq P] (w : World P V) (o : Obj V) (fs : Files P V), GoodWorld w →
    Aligned o fs → AxisKept o →
    (∀ faults m o' fs' r, Sch.addVariable w o faults m fs = (o', fs', r) →
      Aligned o' fs' ∧ ∀ e, r = .error e → o' = o ∧ fs'.parts = fs.parts) ∧
    (∀ faults name o' fs' r, Sch.dropVariable w o faults name fs = (o', fs', r) →
      Aligned o' fs' ∧ (r = .ok () → ∀ ro, ∃ o'', (fromConfig w ro fs').2 = .ok o''))

namespace SchemaCase

def metas : List (VarMeta Int) :=
  [⟨"key", ["num"], none, 0⟩, ⟨"time", ["num"], none, 0⟩, ⟨"v", ["num"], some 0, 0⟩,
   ⟨"z", ["num", "x"], some 9, 0⟩]

def var (name : String) (dims : List String) (shape : List Nat) : Var Int :=
  { name := name, delayed := false, dims := dims, array := tabulate shape fun _ => 7,
    fill := none, props := 0 }

/-- The variables of a partition with `n` records. -/
def vars (n : Nat) : List (Var Int) :=
  [var "key" ["num"] [n], var "time" ["num"] [n], var "v" ["num"] [n],
   var "z" ["num", "x"] [n, 4]]

/-- Two partitions of two and three records. -/
def files : Files (Fin 3) Int :=
  { config := .ok (Config.mk "time" ["key"] ["num", "x"] metas),
    parts := fun p => if p = 0 then some (vars 2) else if p = 1 then some (vars 3) else none,
    imm := none }

/-- No partition. -/
def noFiles : Files (Fin 3) Int := { files with parts := fun _ => none }

/-- A variable whose property is not zero cannot be written as JSON. -/
def world : World (Fin 3) Int :=
  { undef := fun _ => 0, noneValue := .ok (-1), serial := fun m => decide (m.props = 0),
    emptyBag := .error .typeError, list := fun st => [0, 1, 2].filter fun p => (st p).isSome,
    split := fun _ => .ok [(1, (0, 1)), (2, (1, 3))], sameMeta := fun _ _ => true,
    broken := fun _ => false }

def obj : Obj Int :=
  { axis := "time", keys := ["key"], dims := ["num", "x"], metas := metas, dim := "num",
    imm := false, readOnly := false }

theorem world_good : GoodWorld world := by
  intro st _
  refine ⟨List.Pairwise.filter _ (show ([0, 1, 2] : List (Fin 3)).Nodup by decide), fun p => ?_⟩
  have hall : ∀ p : Fin 3, p ∈ [0, 1, 2] := by decide
  simp only [world, List.mem_filter, hall p, true_and, ne_eq]
  cases st p <;> simp

theorem fits_vars (n : Nat) : Fits obj (vars n) := by
  refine ⟨?_, ?_, ?_, fun d => if d = "num" then n else 4, ?_⟩
  · show (["key", "time", "v", "z"] : List String).Nodup
    decide
  · intro m
    simp [vars, var, obj, metas, eq_comm]
  · intro v hv m hm he
    simp only [vars, List.mem_cons, List.not_mem_nil, or_false] at hv
    simp only [obj, metas, List.mem_cons, List.not_mem_nil, or_false] at hm
    rcases hv with rfl | rfl | rfl | rfl <;> rcases hm with rfl | rfl | rfl | rfl <;>
      first | rfl | (simp [var] at he)
  · intro v hv
    simp only [vars, List.mem_cons, List.not_mem_nil, or_false] at hv
    rcases hv with rfl | rfl | rfl | rfl <;> simp [var, tabulate]

theorem aligned_of (fs : Files (Fin 3) Int)
    (hc : fs.config = .ok (Config.mk "time" ["key"] ["num", "x"] metas))
    (hp : ∀ p vs, fs.parts p = some vs → ∃ n, vs = vars n) (hi : fs.imm = none) :
    Aligned obj fs := by
  refine ⟨by decide, ?_, ⟨_, hc, rfl, rfl, rfl, List.Perm.refl _⟩, ?_, ?_, ?_, ?_,
    [0, 1, 2], fun p _ => ?_⟩
  · intro k hk
    exact ⟨⟨"key", ["num"], none, 0⟩, by simp [obj, metas], by
      simp only [obj, List.mem_singleton] at hk; exact hk.symm⟩
  · intro p vs h
    obtain ⟨n, rfl⟩ := hp p vs h
    exact fits_vars n
  · simp [obj, metas]
  · intro h; cases h
  · intro iv h; rw [hi] at h; cases h
  · exact (by decide : ∀ p : Fin 3, p ∈ [0, 1, 2]) p

theorem files_aligned : Aligned obj files := by
  refine aligned_of files rfl ?_ rfl
  intro p vs h
  simp only [files] at h
  split at h
  · cases h; exact ⟨2, rfl⟩
  · split at h
    · cases h; exact ⟨3, rfl⟩
    · cases h

theorem noFiles_aligned : Aligned obj noFiles :=
  aligned_of noFiles rfl (fun p vs h => by cases h) rfl

theorem obj_axis : AxisKept obj :=
  ⟨⟨"time", ["num"], none, 0⟩, by simp [obj, metas], rfl, rfl⟩

/-- A new variable. -/
def fresh : VarMeta Int := ⟨"w", ["num", "x"], some 5, 0⟩

/-- A dataset to insert, without the variable `v`. -/
def dataset : Dataset Int :=
  { dims := [("num", 3), ("x", 4)],
    vars := [var "key" ["num"] [3], var "time" ["num"] [3], var "z" ["num", "x"] [3, 4]],
    attrs := [], chunks := [], limit := 1, delayed := false }

theorem dataset_insertable : Insertable obj dataset := by
  refine ⟨⟨by decide, by decide, ?_, ?_⟩, ?_, ?_⟩
  · intro v hv
    simp only [dataset, List.mem_cons, List.not_mem_nil, or_false] at hv
    rcases hv with rfl | rfl | rfl <;> rfl
  · intro v hv i d hd
    simp only [dataset, List.mem_cons, List.not_mem_nil, or_false] at hv
    rcases hv with rfl | rfl | rfl <;> simp only [var] at hd ⊢ <;>
      match i with
      | 0 => simp at hd; subst hd; simp [tabulate, dataset]; try rfl
      | 1 => simp at hd; try (subst hd; simp [tabulate, dataset]; try rfl)
      | i + 2 => simp at hd
  · intro v hv
    simp only [dataset, List.mem_cons, List.not_mem_nil, or_false] at hv
    rcases hv with rfl | rfl | rfl <;> rfl
  · intro v hv m hm he
    simp only [dataset, List.mem_cons, List.not_mem_nil, or_false] at hv
    simp only [obj, metas, List.mem_cons, List.not_mem_nil, or_false] at hm
    rcases hv with rfl | rfl | rfl <;> rcases hm with rfl | rfl | rfl | rfl <;>
      first | rfl | (exact absurd he (by decide))

end SchemaCase

open SchemaCase

/-! ### The hypotheses are met -/

/-- `C30_drop`: the removal of `v`. -/
example : ∃ o' fs', Sch.dropVariable world obj Faults.never "v" files = (o', fs', .ok ()) :=
  ⟨_, _, rfl⟩

/-- `C30_add`, `C30_add_accepted`: the addition of `w`. -/
example : ∃ o' fs', Sch.addVariable world obj Faults.never fresh files = (o', fs', .ok ()) :=
  C30_add_accepted world_good files_aligned (by decide) fresh (by decide) (by decide)
    (by decide) (by decide) ⟨⟨"z", ["num", "x"], some 9, 0⟩, by simp [obj, metas], rfl⟩
    ⟨0, by simp [files]⟩

/-- `C30_add_failed_partial`: the creation of the array fails for the second partition. -/
example : ∃ o' fs' e, Sch.addVariable world obj
    { Faults.never with add := fun p => if p = 1 then some true else none } fresh files =
    (o', fs', .error e) := ⟨_, _, _, rfl⟩

/-- `C30_no_template`. -/
example : ∃ o' fs' e, Sch.addVariable world obj Faults.never ⟨"w", ["x", "num"], none, 0⟩ files =
    (o', fs', .error e) :=
  C30_no_template world_good files_aligned _ _ (by decide) ⟨0, by simp [files]⟩

/-- `C30_reopen`. -/
example : ∃ o', fromConfig world true files = (files, .ok o') := by
  obtain ⟨o', h, _⟩ := C30_reopen world files_aligned obj_axis true
  exact ⟨o', h⟩

/-- `C30_created`. -/
example : ∃ fs' o, init world (Config.mk "time" ["key"] ["num", "x"] metas) false
    { noFiles with config := .absent } = (fs', .ok o) := ⟨_, _, rfl⟩

/-- `C30_insert`: the partition 1 is replaced and 2 is created. -/
example : ((Sch.insert world obj Faults.never true none none dataset files).2.1.parts 2).isSome =
    true := rfl

/-- `C30_history_partial`: an addition that fails, an addition, an insertion, a removal, and
the collection opened again. -/
example : ∃ o' fs', History world obj files o' fs' ∧ o'.metas.length = 4 ∧
    (fs'.parts 2).isSome = true := by
  refine ⟨_, _, .reopen (fs2 := _) (o2 := _) false (.call (.dropVariable Faults.never "v")
    (.call (.insert Faults.never true none none dataset)
      (.call (.addVariable Faults.never fresh) (.start obj files) ?_) ?_) ?_) rfl, rfl, rfl⟩
  · exact ⟨rfl, fun _ => rfl, .inl ⟨0, by simp [files]⟩⟩
  · refine ⟨?_, fun f hf => by cases hf⟩
    have := dataset_insertable
    refine ⟨this.consistent, this.ranks, ?_⟩
    intro v hv m hm he
    have hm : m ∈ metas ++ [fresh] := hm
    rw [List.mem_append, List.mem_singleton] at hm
    rcases hm with hm | rfl
    · exact this.dims v hv m hm he
    · simp only [dataset, List.mem_cons, List.not_mem_nil, or_false] at hv
      rcases hv with rfl | rfl | rfl <;> exact absurd he (by decide)
  · exact ⟨by decide, fun _ => rfl⟩

/-! ### The cases where C30 fails -/

/-- C30 does not hold: the axis of the collection can be removed, when it is not a variable of
the partitioning, and the collection cannot be opened any more. -/
theorem C30_counterexample : ¬ C30_full := by
  intro h
  obtain ⟨_, h2⟩ := h (Fin 3) Int world obj files world_good files_aligned obj_axis
  obtain ⟨_, h3⟩ := h2 Faults.never "time" _ _ _ rfl
  obtain ⟨o'', h4⟩ := h3 rfl true
  cases h4

/-- The removal of the axis succeeds, and the collection is refused afterwards in both
modes. -/
theorem C30_axis_removed : ∃ o' fs',
    Sch.dropVariable world obj Faults.never "time" files = (o', fs', .ok ()) ∧
    ∀ ro, (fromConfig world ro fs').2 = .error .valueError := by
  refine ⟨_, _, rfl, fun ro => ?_⟩
  cases ro <;> rfl

/-- A variable that cannot be written as JSON (an attribute or a fill value of a type that the
encoder does not know) leaves a torn configuration: the collection cannot be opened any
more. -/
theorem C30_counterexample_json : ∃ o' fs' e,
    Sch.addVariable world obj Faults.never ⟨"w", ["num"], none, 1⟩ files =
      (o', fs', .error e) ∧ o' ≠ obj ∧ ∀ ro, (fromConfig world ro fs').2 = .error .valueError := by
  refine ⟨_, _, _, rfl, fun h => ?_, fun ro => rfl⟩
  have := congrArg (fun o => o.metas.length) h
  revert this
  decide

/-- On a collection without partition the addition of a variable raises, because dask refuses
a bag without element, and so does the removal that should restore the schema: the variable
stays in the metadata and in the configuration. -/
theorem C30_counterexample_empty : ∃ o' fs' e,
    Sch.addVariable world obj Faults.never fresh noFiles = (o', fs', .error e) ∧
    "w" ∈ o'.metas.map (·.name) ∧
    ∃ o'', (fromConfig world true fs').2 = .ok o'' ∧ "w" ∈ o''.metas.map (·.name) := by
  refine ⟨_, _, _, rfl, ?_, _, rfl, ?_⟩ <;> decide

/-- A failure to remove an array from one partition leaves the metadata unchanged while the
other partitions have lost the variable. -/
theorem C30_counterexample_removal : ∃ o' fs' e,
    Sch.dropVariable world obj { Faults.never with del := fun p => decide (p = 1) } "v" files =
      (o', fs', .error e) ∧ o' = obj ∧ ¬ Aligned o' fs' := by
  refine ⟨_, _, _, rfl, rfl, fun h => ?_⟩
  have := ((h.parts 0 _ rfl).names "v").2 ⟨⟨"v", ["num"], some 0, 0⟩, by simp [obj, metas],
    rfl, by decide⟩
  revert this
  decide

end Verif
