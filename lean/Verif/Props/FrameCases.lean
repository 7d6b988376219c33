import Verif.Props.Frame

/-! Cases of C69: a history that leaves the first partition of the collection of PipeCase, and
an insertion that changes a partition of which its dataset has no record. -/

namespace Verif

open Spec Nd Ds Sch Pipe Upd

namespace FrameCase

open PipeCase

/-- A callback that doubles `z`. -/
def doubled : Callback Int (Dict Int) := fun zds _ =>
  match getVar zds.vars "z" with
  | none => .error .keyError
  | some v => .ok [("z", ⟨v.array.shape, fun i => (v.array.get i).map (2 * ·)⟩)]

/-- The records of the key 2 are inserted again. -/
def second : Dataset Int :=
  { dataset with
    dims := [("x", 1), ("y", 2)],
    vars := [var "key" ["x"] [1] (fun _ => 2), var "x" ["x"] [1] (fun i => 7 + i.sum),
      var "z" ["x", "y"] [1, 2] (fun i => i.sum), var "lut" ["y"] [2] (fun _ => 0)] }

/-- The calls made after the insertion of the dataset of PipeCase: a variable is added, `z` is
updated in the second partition, which is inserted again, checked and removed, and the added
variable is removed; the last call fails in the storage. -/
def calls : List (Call (List Int) Int) :=
  [.addVariable .never ⟨"w", ["x"], some 0, 0⟩,
   .update false none 0 (fun p => decide (p = [2])) doubled false [] 1,
   .insert .never true none none second,
   .validatePartitions (fun _ => true) true,
   .load (fun a b => decide (a ≤ b)) true none (fun _ => true) none,
   .dropPartitions (fun p => decide (p = [2])) .never,
   .dropVariable ⟨fun _ => none, fun p => decide (p = [1]), fun _ => false⟩ "w"]

theorem second_key (i : Nat) : ¬ KeyAt scheme second.vars i [1] := by
  rintro ⟨_, h2⟩
  obtain ⟨v, v1, v2, x, v3, v4⟩ := h2 0 "key" rfl
  have hv : v = var "key" ["x"] [1] (fun _ => 2) := by
    simp only [second, List.mem_cons, List.not_mem_nil, or_false] at v1
    rcases v1 with rfl | rfl | rfl | rfl <;> first | rfl | (simp [var] at v2)
  subst hv
  have hin := (Vw.tabulate_arrOk [1] (fun _ => (2 : Int)) [i]).1 ⟨x, v3⟩
  have := Vw.tabulate_get [1] (fun _ => (2 : Int)) [i] hin
  have h3 : (tabulate [1] (fun _ => (2 : Int))).get [i] = some x := v3
  rw [h3] at this
  cases this
  simp [scheme] at v4

theorem calls_leave : ∀ c ∈ calls, Leaves scheme world [1] "z" c := by
  intro c hc
  simp only [calls, List.mem_cons, List.not_mem_nil, or_false] at hc
  rcases hc with rfl | rfl | rfl | rfl | rfl | rfl | rfl
  · show "w" ≠ "z"; decide
  · exact .inl rfl
  · refine ⟨?_, ?_, second_key⟩
    · intro v hv
      simp only [second, List.mem_cons, List.not_mem_nil, or_false] at hv
      rcases hv with rfl | rfl | rfl | rfl <;> exact Vw.tabulate_arrOk _ _
    · intro name hn
      simp only [scheme, List.mem_singleton] at hn
      subst hn
      exact ⟨_, List.mem_cons_self, rfl⟩
  · exact fun _ => .inr rfl
  · trivial
  · rfl
  · show "w" ≠ "z"; decide

/-- The calls, one after the other, by the same object. -/
theorem later_calls (o : Obj Int) (cs : List (Call (List Int) Int))
    (h : ∀ c ∈ cs, Leaves scheme world [1] "z" c) (fs fs1 : Files (List Int) Int)
    (h1 : Later world (Leaves scheme world [1] "z") fs fs1) :
    Later world (Leaves scheme world [1] "z") fs (execAll world o fs1 cs).2 := by
  induction cs generalizing o fs1 with
  | nil => exact h1
  | cons c t ih =>
    exact ih _ (fun c' hc' => h c' (List.mem_cons_of_mem _ hc')) _
      (.call o c h1 (h c List.mem_cons_self))

example : ∃ fs1 ks, Sch.insert world obj .never true (some 1) none dataset files =
    (dataset, fs1, .ok ks) ∧ ∃ lo hi u,
      RecordsWithKey scheme dataset.vars [1] lo hi ∧
      RecordsOf "x" lo hi (var "z" ["x", "y"] [3, 2] (fun i => 10 * i.sum)) u ∧
      Stores (execAll world obj fs1 calls).2.parts [1] u := by
  obtain ⟨fs1, ks, h, _⟩ := accepted
  have hk : [1] ∈ ks := by
    have he : (Sch.insert world obj .never true (some 1) none dataset files).2.2.toOption =
        some [[1], [2]] := by decide +kernel
    rw [h] at he
    cases he
    simp
  refine ⟨fs1, ks, h, ?_⟩
  obtain ⟨lo, hi, u, h1, h2, h3, _⟩ := C69_inserted world obj scheme rfl (by intro h; cases h)
    (fun _ => rfl) dims .never true (some 1) dataset dataset insertable arrOk files fs1
    (execAll world obj fs1 calls).2 aligned ks h (.inl rfl) [1] hk
    (var "z" ["x", "y"] [3, 2] (fun i => 10 * i.sum)) (by simp [dataset]) (by simp [var, obj])
    (later_calls obj calls calls_leave fs1 fs1 (.start _))
  exact ⟨lo, hi, u, h1, h2, (h3 u h2.1).2 rfl⟩

/-- The first partition is loaded after the calls. -/
example :
    let r := execAll world obj (Sch.insert world obj .never true (some 1) none dataset files).2.1
      calls
    (match Sch.load world r.1 (fun a b => decide (a ≤ b)) true none
        (fun p => decide (p = [1])) none r.2 with
    | .ok (some z) => z.vars.map (·.name)
    | _ => []) = ["key", "x", "z", "w", "lut"] := by decide +kernel

/-- The variable `lut` after the insertion and any calls, for instance the insertion of another
`lut`. -/
example : (exec world obj { files with imm := some [var "lut" ["y"] [2] (fun i => 5 + i.sum)] }
    (.insert .never true none none second)).2.1.imm =
      some [var "lut" ["y"] [2] (fun i => 5 + i.sum)] :=
  C69_immutable world _ _ (.call obj _ (.start _) trivial) _ rfl

/-! An insertion of a dataset without the variable of the partitioning. -/

/-- The conversion of `None` gives 1. -/
def oneWorld : World (List Int) Int := { world with noneValue := .ok 1 }

/-- The dataset without `key`: no record has a key. -/
def keyless : Dataset Int := { dataset with vars := dataset.vars.drop 1 }

end FrameCase

open FrameCase PipeCase in
/-- C69: the variables of the partitioning are needed: a dataset without them has no record of
a key, and its insertion overwrites the partition of the fill value. -/
theorem C69_keyless_counterexample : ∃ (w : World (List Int) Int) (o : Obj Int)
    (fs : Files (List Int) Int) (ds : Dataset Int) (v : Var Int), w.split = splitDataset scheme ∧
    (∀ i k, ¬ KeyAt scheme ds.vars i k) ∧ Stores fs.parts [1] v ∧
    ¬ Stores (exec w o fs (.insert .never true none none ds)).2.1.parts [1] v := by
  refine ⟨oneWorld, obj, { files with
    parts := fun p => if p = [1] then some [var "x" ["x"] [5] (fun _ => 0)] else none },
    keyless, var "x" ["x"] [5] (fun _ => 0), rfl, ?_, ⟨_, rfl, List.mem_singleton.2 rfl⟩, ?_⟩
  · rintro i k ⟨_, h2⟩
    obtain ⟨v, v1, v2, _⟩ := h2 0 "key" rfl
    simp only [keyless, dataset, List.drop_succ_cons, List.drop_zero, List.mem_cons,
      List.not_mem_nil, or_false] at v1
    rcases v1 with rfl | rfl | rfl <;> simp [var] at v2
  · rintro ⟨vars, h1, h2⟩
    have hshape : ((exec oneWorld obj { files with
        parts := fun p => if p = [1] then some [var "x" ["x"] [5] (fun _ => 0)] else none }
        (.insert .never true none none keyless)).2.1.parts [1]).map
        (fun l => l.map (·.array.shape)) = some [[3], [3, 2], [3]] := by decide +kernel
    rw [h1] at hshape
    simp only [Option.map_some, Option.some.injEq] at hshape
    have := List.mem_map_of_mem (f := fun v : Var Int => v.array.shape) h2
    rw [hshape] at this
    revert this
    decide

end Verif
