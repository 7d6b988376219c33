import Verif.Props.Pipeline

/-! A case that meets the hypotheses of the theorems of C10 and C22 for datasets: a collection
partitioned along `x` by the values of `key`, with a variable `lut` that is not split. -/

namespace Verif

open Spec Nd Ds Sch Pipe

namespace PipeCase

def metas : List (VarMeta Int) :=
  [⟨"key", ["x"], none, 0⟩, ⟨"x", ["x"], none, 0⟩, ⟨"z", ["x", "y"], some 9, 0⟩,
   ⟨"lut", ["y"], none, 0⟩]

def obj : Obj Int :=
  { axis := "x", keys := ["key"], dims := ["x", "y"], metas := metas, dim := "x",
    imm := true, readOnly := false }

/-- A negative value has no key. -/
def scheme : Scheme Int :=
  { variables := ["key"], date := false, asKey := fun x => if x < 0 then none else some x }

def world : World (List Int) Int :=
  { undef := fun _ => 0, noneValue := .ok (-1), serial := fun _ => true,
    emptyBag := .error .typeError,
    list := fun st => [[1], [2]].filter fun p => (st p).isSome,
    split := splitDataset scheme, sameMeta := fun _ _ => true, broken := fun _ => false }

/-- The keys 1, 1, 2. -/
def keyOf (idx : List Nat) : Int := if idx = [2] then 2 else 1

def var (name : String) (dims : List String) (shape : List Nat) (f : List Nat → Int) : Var Int :=
  { name := name, delayed := true, dims := dims, array := tabulate shape f, fill := none,
    props := 0 }

def key : Var Int := var "key" ["x"] [3] keyOf

def dataset : Dataset Int :=
  { dims := [("x", 3), ("y", 2)],
    vars := [key, var "x" ["x"] [3] (fun i => i.sum),
      var "z" ["x", "y"] [3, 2] (fun i => 10 * i.sum), var "lut" ["y"] [2] (fun i => 5 + i.sum)],
    attrs := [], chunks := [], limit := 1, delayed := true }

def files : Files (List Int) Int :=
  { config := .ok (Config.mk "x" ["key"] ["x", "y"] metas), parts := fun _ => none, imm := none }

theorem aligned : Aligned obj files := by
  refine ⟨by decide, ?_, ⟨_, rfl, rfl, rfl, rfl, List.Perm.refl _⟩, ?_, ?_, ?_, ?_,
    [], fun p h => absurd rfl h⟩
  · intro k hk
    exact ⟨⟨"key", ["x"], none, 0⟩, by simp [obj, metas], by
      simp only [obj, List.mem_singleton] at hk; exact hk.symm⟩
  · intro p vs h; cases h
  · simp [obj, metas]
  · rintro _ ⟨p, hp⟩; exact absurd rfl hp
  · intro iv h; cases h

theorem insertable : Insertable obj dataset := by
  refine ⟨⟨by decide, by decide, ?_, ?_⟩, ?_, ?_⟩
  · intro v hv
    simp only [dataset, List.mem_cons, List.not_mem_nil, or_false] at hv
    rcases hv with rfl | rfl | rfl | rfl <;> rfl
  · intro v hv i d hi
    simp only [dataset, List.mem_cons, List.not_mem_nil, or_false] at hv
    rcases hv with rfl | rfl | rfl | rfl <;>
      (match i, hi with
        | 0, hi => cases hi; exact ⟨_, rfl, rfl⟩
        | 1, hi => first | (cases hi; exact ⟨_, rfl, rfl⟩) | cases hi
        | i + 2, hi => cases hi)
  · intro v hv
    simp only [dataset, List.mem_cons, List.not_mem_nil, or_false] at hv
    rcases hv with rfl | rfl | rfl | rfl <;> rfl
  · intro v hv m hm he
    simp only [dataset, List.mem_cons, List.not_mem_nil, or_false] at hv
    simp only [obj, metas, List.mem_cons, List.not_mem_nil, or_false] at hm
    rcases hv with rfl | rfl | rfl | rfl <;> rcases hm with rfl | rfl | rfl | rfl <;>
      first | rfl | (simp [var, key] at he)

theorem arrOk : ∀ v ∈ dataset.vars, ArrOk v.array := by
  intro v hv
  simp only [dataset, List.mem_cons, List.not_mem_nil, or_false] at hv
  rcases hv with rfl | rfl | rfl | rfl <;> exact Vw.tabulate_arrOk _ _

theorem keyAt (i : Nat) (k : List Int) (h : KeyAt scheme dataset.vars i k) :
    i < 3 ∧ k = [keyOf [i]] := by
  obtain ⟨h1, h2⟩ := h
  obtain ⟨v, v1, v2, x, v3, v4⟩ := h2 0 "key" rfl
  have hv : v = key := by
    simp only [dataset, List.mem_cons, List.not_mem_nil, or_false] at v1
    rcases v1 with rfl | rfl | rfl | rfl <;> first | rfl | (simp [var] at v2)
  subst hv
  have hin := (Vw.tabulate_arrOk [3] keyOf [i]).1 ⟨x, v3⟩
  have hlt := (inside_one 3 i).1 hin
  refine ⟨hlt, ?_⟩
  have hx : x = keyOf [i] := by
    have := Vw.tabulate_get [3] keyOf [i] hin
    have h3 : (tabulate [3] keyOf).get [i] = some x := v3
    rw [h3] at this
    exact Option.some.inj this
  obtain ⟨a, rfl⟩ := List.length_eq_one_iff.1 h1
  have hpos : ¬ keyOf [i] < 0 := by
    unfold keyOf
    split <;> decide
  simp only [scheme, hx, if_neg hpos, List.getElem?_cons_zero, Option.some.injEq] at v4
  rw [v4]

theorem monotone : KeysMonotone scheme dataset.vars := by
  intro i j k l hij hk hl
  obtain ⟨h1, rfl⟩ := keyAt i k hk
  obtain ⟨h2, rfl⟩ := keyAt j l hl
  have hc : (i = 0 ∧ j = 1) ∨ (i = 0 ∧ j = 2) ∨ (i = 1 ∧ j = 2) := by omega
  rcases hc with ⟨rfl, rfl⟩ | ⟨rfl, rfl⟩ | ⟨rfl, rfl⟩ <;> decide

theorem dims : ∀ m ∈ obj.metas, m.dims.Nodup := by
  intro m hm
  simp only [obj, metas, List.mem_cons, List.not_mem_nil, or_false] at hm
  rcases hm with rfl | rfl | rfl | rfl <;> decide

/-- The dataset is inserted, in batches of one partition. -/
theorem accepted : ∃ fs' ks, Sch.insert world obj .never true (some 1) none dataset files =
    (dataset, fs', .ok ks) ∧ ks ≠ [] := by
  refine C22_dataset_accepted world obj scheme rfl (by intro h; cases h) (fun _ => rfl) dims
    .never (fun _ => rfl) true (some 1) (by intro n h; cases h; decide) dataset insertable ?_
    (fun _ => rfl) arrOk files aligned (by simp [scheme]) ?_ ⟨0, [1], rfl, ?_⟩ monotone
  · intro n
    simp [dataset, key, var, obj, metas]
  · intro name hn
    simp only [scheme, List.mem_singleton] at hn
    subst hn
    refine ⟨key, by simp [dataset], rfl, rfl, ?_⟩
    intro i x hx
    have hin := (Vw.tabulate_arrOk [3] keyOf [i]).1 ⟨x, hx⟩
    have := Vw.tabulate_get [3] keyOf [i] hin
    have hx : (tabulate [3] keyOf).get [i] = some x := hx
    rw [hx] at this
    cases this
    unfold scheme keyOf
    split <;> rfl
  · intro j name hj
    match j, hj with
    | 0, hj =>
      simp only [scheme, List.getElem?_cons_zero, Option.some.injEq] at hj
      subst hj
      exact ⟨key, by simp [dataset], rfl, 1, rfl, rfl⟩
    | j + 1, hj => simp [scheme] at hj

/-- The keys of the partitions, and the reload of the dataset. -/
example : ∃ fs' ks, Sch.insert world obj .never true (some 1) none dataset files =
      (dataset, fs', .ok ks) ∧ ks = [[1], [2]] ∧
    ∃ r, Sch.load world obj (fun _ _ => true) false none (fun _ => true) none fs' =
        .ok (some r) ∧
      r.vars.Perm (dataset.vars.map fun v => { v with delayed := false }) := by
  obtain ⟨fs', ks, h, hne⟩ := accepted
  obtain ⟨p1, p2, p3, p4, _⟩ := C22_dataset_partial world obj scheme rfl (by intro h; cases h)
    (fun _ => rfl) dims .never true (some 1) none dataset dataset insertable arrOk files fs'
    aligned ks h (.inl rfl)
  have hks : ks = [[1], [2]] := by
    apply Coll.sorted_unique p1 (by decide)
    intro k
    rw [p2 k]
    constructor
    · rintro ⟨i, hi⟩
      obtain ⟨h1, rfl⟩ := keyAt i k hi
      have hc : i = 0 ∨ i = 1 ∨ i = 2 := by omega
      rcases hc with rfl | rfl | rfl <;> decide
    · intro hk
      have hat : ∀ i < 3, KeyAt scheme dataset.vars i [keyOf [i]] := by
        intro i hi
        refine ⟨rfl, ?_⟩
        intro j name hj
        match j, hj with
        | 0, hj =>
          simp only [scheme, List.getElem?_cons_zero, Option.some.injEq] at hj
          subst hj
          refine ⟨key, by simp [dataset], rfl, keyOf [i],
            Vw.tabulate_get [3] keyOf [i] ((inside_one 3 i).2 hi), ?_⟩
          unfold scheme keyOf
          split <;> rfl
        | j + 1, hj => simp [scheme] at hj
      simp only [List.mem_cons, List.not_mem_nil, or_false] at hk
      rcases hk with rfl | rfl
      · exact ⟨0, hat 0 (by decide)⟩
      · exact ⟨2, hat 2 (by decide)⟩
  refine ⟨fs', ks, h, hks, ?_⟩
  refine C22_dataset_roundtrip_partial world obj scheme rfl (by intro h; cases h) (fun _ => rfl)
    dims .never true (some 1) none dataset dataset insertable arrOk files fs' aligned
    (fun _ => rfl) rfl ks h hne (.inl rfl) ⟨?_, ?_⟩ _ false
  · exact List.Pairwise.filter _ (by decide)
  · intro p
    simp only [world, List.mem_filter, ne_eq]
    constructor
    · rintro ⟨_, h2⟩ he
      rw [he] at h2
      cases h2
    · intro hp
      refine ⟨?_, ?_⟩
      · rw [← hks]
        refine Classical.byContradiction fun hc => hp ?_
        rw [p3 p hc]
        rfl
      · cases hq : fs'.parts p with
        | none => exact absurd hq hp
        | some x => rfl

/-- The split itself: keys in increasing order, and the refusals. -/
example : (splitDataset scheme dataset).toOption = some [([1], (0, 2)), ([2], (2, 3))] ∧
    splitDataset { scheme with variables := ["z"] } dataset = .error .valueError ∧
    splitDataset { scheme with variables := ["none"] } dataset = .error .keyError := by
  refine ⟨by decide +kernel, by rfl, by rfl⟩

/-- A write that fails: the other partition is written. -/
example : ∃ fs' e, Sch.insert world obj ⟨fun _ => none, fun _ => false, fun p => p = [2]⟩ true
      none none dataset files = (dataset, fs', .error e) ∧ fs'.parts [2] = none ∧
      fs'.parts [1] ≠ none := by
  refine ⟨_, _, rfl, rfl, ?_⟩
  intro h
  cases h

end PipeCase

end Verif
