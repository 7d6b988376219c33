import Verif.Lemmas.Schema

/-! C28: a collection in read-only mode. -/

namespace Verif

open Nd Ds Upd Spec Sch

variable {P V : Type} [DecidableEq P]

/-- C28 as stated: no sequence of calls on a read-only object changes a file. -/
def C28_full : Prop :=
  ∀ (P V : Type) [DecidableEq P] (w : World P V) (o : Obj V) (fs : Files P V)
    (calls : List (Call P V)), o.readOnly = true → (execAll w o fs calls).2 = fs

/-- The call removes the invalid partitions. -/
def Fixes : Call P V → Prop
  | .validatePartitions _ fix => fix = true
  | _ => False

/-- A call on a read-only object that is not `validate_partitions(fix=True)`. -/
theorem exec_read_only {w : World P V} {o : Obj V} {fs : Files P V} (hr : o.readOnly = true)
    {c : Call P V} (hc : ¬ Fixes c) :
    (exec w o fs c).1 = o ∧ (exec w o fs c).2.1 = fs := by
  unfold exec
  split
  · exact ⟨rfl, rfl⟩
  · next hn =>
    cases c with
    | validatePartitions filters fix =>
      have : fix = false := by
        cases fix
        · rfl
        · exact absurd rfl hc
      subst this
      exact ⟨rfl, rfl⟩
    | insert _ _ _ _ _ => exact absurd ⟨hr, by simp [Call.method, replaced]⟩ hn
    | update _ _ _ _ _ _ _ _ => exact absurd ⟨hr, by simp [Call.method, replaced]⟩ hn
    | addVariable _ _ => exact absurd ⟨hr, by simp [Call.method, replaced]⟩ hn
    | dropVariable _ _ => exact absurd ⟨hr, by simp [Call.method, replaced]⟩ hn
    | dropPartitions _ _ => exact absurd ⟨hr, by simp [Call.method, replaced]⟩ hn
    | _ => exact ⟨rfl, rfl⟩

/-- C28: no sequence of calls on a read-only object changes a file or the object, whatever the
calls and whether they raise.  Missing for C28: `validate_partitions(fix=True)`, see
`C28_counterexample`. -/
theorem C28_read_only_partial (w : World P V) (o : Obj V) (fs : Files P V)
    (hr : o.readOnly = true) (calls : List (Call P V)) (hc : ∀ c ∈ calls, ¬ Fixes c) :
    execAll w o fs calls = (o, fs) := by
  induction calls with
  | nil => rfl
  | cons c t ih =>
    obtain ⟨h1, h2⟩ := exec_read_only (w := w) (fs := fs) hr (hc c List.mem_cons_self)
    simp only [execAll]
    rw [h1, h2]
    exact ih fun x hx => hc x (List.mem_cons_of_mem _ hx)

/-- C28: the methods that write raise `io.UnsupportedOperation`; nothing is read before. -/
theorem C28_refused (w : World P V) (o : Obj V) (fs : Files P V) (hr : o.readOnly = true)
    (c : Call P V) (h : c.method ∈
      ["insert", "update", "drop_partitions", "drop_variable", "add_variable"]) :
    exec w o fs c = (o, fs, .error .unsupportedOperation) := by
  unfold exec
  rw [if_pos ⟨hr, by simpa [replaced, or_comm, or_left_comm, or_assoc] using h⟩]

omit [DecidableEq P] in
/-- C28: opening a collection in read-only mode does not change a file, even if it fails, and
gives a read-only object. -/
theorem C28_open (w : World P V) (fs : Files P V) :
    (fromConfig w true fs).1 = fs ∧ ∀ o, (fromConfig w true fs).2 = .ok o → o.readOnly = true := by
  have hi : ∀ c : Config V, (init w c true fs).1 = fs ∧
      ∀ o, (init w c true fs).2 = .ok o → o.readOnly = true := by
    intro c
    unfold init
    split
    · exact ⟨rfl, fun _ h => by cases h⟩
    · split
      · exact ⟨rfl, fun _ h => by cases h⟩
      · split
        · exact ⟨rfl, fun _ h => by cases h⟩
        · exact ⟨rfl, fun _ h => by cases h; rfl⟩
  unfold fromConfig
  split
  · exact ⟨rfl, fun _ h => by cases h⟩
  · exact ⟨rfl, fun _ h => by cases h⟩
  · exact hi _

/-- C28: opening in read-only mode, then any sequence of calls but
`validate_partitions(fix=True)`, leaves the files as they are. -/
theorem C28_session_partial (w : World P V) (fs : Files P V) {o : Obj V}
    (h : (fromConfig w true fs).2 = .ok o) (calls : List (Call P V))
    (hc : ∀ c ∈ calls, ¬ Fixes c) :
    (execAll w o (fromConfig w true fs).1 calls).2 = fs := by
  obtain ⟨h1, h2⟩ := C28_open w fs
  rw [h1, C28_read_only_partial w o fs (h2 o h) calls hc]

/-- C28: what any sequence of calls on a read-only object can do: the configuration and the
immutable dataset are kept, and a partition that is not as before was removed and is one that
cannot be read.  In particular a collection without such partition is not changed. -/
theorem C28_removals (w : World P V) (o : Obj V) (fs : Files P V) (hr : o.readOnly = true)
    (calls : List (Call P V)) :
    (execAll w o fs calls).1 = o ∧ (execAll w o fs calls).2.config = fs.config ∧
    (execAll w o fs calls).2.imm = fs.imm ∧
    ∀ p, (execAll w o fs calls).2.parts p ≠ fs.parts p →
      (execAll w o fs calls).2.parts p = none ∧ w.broken p = true := by
  induction calls generalizing fs with
  | nil => exact ⟨rfl, rfl, rfl, fun p h => absurd rfl h⟩
  | cons c t ih =>
    simp only [execAll]
    by_cases hc : Fixes c
    · cases c with
      | validatePartitions filters fix =>
        have hfix : fix = true := hc
        subst hfix
        have he : exec w o fs (.validatePartitions filters true) =
            (o, (validatePartitions w filters true fs).1,
              (validatePartitions w filters true fs).2.map fun _ => ()) := by
          unfold exec
          rw [if_neg (by simp [Call.method, replaced])]
        rw [he]
        obtain ⟨i1, i2, i3, i4⟩ := ih (validatePartitions w filters true fs).1
        refine ⟨i1, i2, i3, ?_⟩
        intro p hp
        by_cases hq : (execAll w o (validatePartitions w filters true fs).1 t).2.parts p =
            (validatePartitions w filters true fs).1.parts p
        · rw [hq] at hp ⊢
          have hv : (validatePartitions w filters true fs).1.parts p =
              if p ∈ ((w.list fs.parts).filter filters).filter w.broken then none
              else fs.parts p := rfl
          rw [hv] at hp ⊢
          split at hp
          · next hm =>
            rw [if_pos hm]
            exact ⟨rfl, (List.mem_filter.1 hm).2⟩
          · exact absurd rfl hp
        · exact i4 p hq
      | _ => exact hc.elim
    · obtain ⟨h1, h2⟩ := exec_read_only (w := w) (fs := fs) hr hc
      rw [h1, h2]
      exact ih fs

/-- C28: a read-only collection without invalid partition is never changed. -/
theorem C28_intact (w : World P V) (o : Obj V) (fs : Files P V) (hr : o.readOnly = true)
    (hb : ∀ p, w.broken p = false) (calls : List (Call P V)) :
    (execAll w o fs calls).2 = fs := by
  obtain ⟨_, h2, h3, h4⟩ := C28_removals w o fs hr calls
  have hp : (execAll w o fs calls).2.parts = fs.parts := by
    funext p
    refine Classical.byContradiction fun hc => ?_
    have := (h4 p hc).2
    rw [hb p] at this
    cases this
  cases hf : (execAll w o fs calls).2 with
  | mk a b c =>
    rw [hf] at h2 h3 hp
    cases fs
    simp only at h2 h3 hp
    rw [h2, h3, hp]

/-! ### The counterexample -/

namespace ReadOnlyCase

/-- A collection of one variable with two partitions; the second one cannot be read. -/
def metas : List (VarMeta Int) :=
  [⟨"time", ["time"], none, 0⟩, ⟨"v", ["time"], some 0, 0⟩]

def var (name : String) : Var Int :=
  { name := name, delayed := false, dims := ["time"], array := tabulate [2] fun _ => 7,
    fill := none, props := 0 }

def files : Files Nat Int :=
  { config := .ok (Config.mk "time" ["time"] ["time"] metas),
    parts := fun p => if p < 2 then some [var "time", var "v"] else none, imm := none }

def world : World Nat Int :=
  { undef := fun _ => 0, noneValue := .error .typeError, serial := fun _ => true,
    emptyBag := .error .typeError, list := fun st => [0, 1].filter fun p => (st p).isSome,
    split := fun _ => .error .valueError, sameMeta := fun _ _ => true,
    broken := fun p => decide (p = 1) }

def obj : Obj Int :=
  { axis := "time", keys := ["time"], dims := ["time"], metas := metas, dim := "time",
    imm := false, readOnly := true }

/-- A session of read-only calls, with a refused one. -/
def calls : List (Call Nat Int) :=
  [.partitions fun _ => true, .dropVariable Faults.never "v",
   .load (fun a b => decide (a ≤ b)) false none (fun _ => true) none,
   .validatePartitions (fun _ => true) false]

end ReadOnlyCase

open ReadOnlyCase

/-- `C28_open` and `C28_session_partial` apply: the collection opens. -/
example : (fromConfig world true files).2 = .ok obj := rfl

example : (execAll world obj (fromConfig world true files).1 calls).2 = files := by
  refine C28_session_partial world files (o := obj) rfl calls ?_
  intro c hc
  simp only [calls, List.mem_cons, List.not_mem_nil, or_false] at hc
  rcases hc with rfl | rfl | rfl | rfl <;> simp [Fixes]

example : execAll world obj files calls = (obj, files) := by
  refine C28_read_only_partial world obj files rfl calls ?_
  intro c hc
  simp only [calls, List.mem_cons, List.not_mem_nil, or_false] at hc
  rcases hc with rfl | rfl | rfl | rfl <;> simp [Fixes]

example : exec world obj files (.dropVariable Faults.never "v") =
    (obj, files, .error .unsupportedOperation) :=
  C28_refused world obj files rfl _ (by simp [Call.method])

/-- A world without invalid partition, for `C28_intact`. -/
example : (execAll { world with broken := fun _ => false } obj files
    [.validatePartitions (fun _ => true) true]).2 = files :=
  C28_intact _ obj files rfl (fun _ => rfl) _

/-- C28 does not hold: `validate_partitions` is not replaced in read-only mode, and with
`fix=True` it removes the partitions that cannot be read
(collection/__init__.py:210-223, 760-797). -/
theorem C28_counterexample : ¬ C28_full := by
  intro h
  have := h Nat Int world obj files [.validatePartitions (fun _ => true) true] rfl
  have hp := congrArg (fun f => (f.parts 1).isSome) this
  revert hp
  decide

end Verif
