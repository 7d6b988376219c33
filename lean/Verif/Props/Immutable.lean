import Verif.Props.PipelineCases
import Verif.Props.Frame
import Verif.Lemmas.Immutable
import Verif.Lemmas.View

/-! C80: the variables that are not split.  `insert` selects them with the name of the axis
(collection/__init__.py:64, 386), the other methods with the dimension of the axis
(collection/abc.py:129-147). -/

namespace Verif

open Spec Nd Ds Sch Pipe

variable {V : Type}

/-- C80, full statement: a dataset with the variables of the collection, with sorted keys and
at least one record, is inserted into a collection with variables that are not split; each
partition gets its records, and the variables without the dimension of the partitioning are
stored the first time. -/
def C80_full : Prop :=
  ∀ (V : Type) (w : World (List Int) V) (o : Obj V) (sc : Scheme V), w.split = splitDataset sc →
    GoodScheme sc → AxisKept o → o.imm = true → (∀ m ∈ o.metas, m.dims.Nodup) →
    ∀ (faults : Faults (List Int)) (validate : Bool) (np : Option Int) (ds : Dataset V)
      (fs : Files (List Int) V), (∀ p, faults.write p = false) → (∀ n, np = some n → 1 ≤ n) →
    Insertable o ds → (∀ n, n ∈ ds.vars.map (·.name) ↔ n ∈ o.metas.map (·.name)) →
    (validate = true → w.sameMeta ds o.metas = true) → (∀ v ∈ ds.vars, ArrOk v.array) →
    Aligned o fs → sc.variables ≠ [] →
    (∀ name ∈ sc.variables, ∃ v ∈ ds.vars, v.name = name ∧ v.dims = [o.dim] ∧
      ∀ i x, v.array.get [i] = some x → (sc.asKey x).isSome) →
    (∃ i k, KeyAt sc ds.vars i k) → KeysMonotone sc ds.vars →
    ∃ fs' ks, Sch.insert w o faults validate np none ds fs = (ds, fs', .ok ks) ∧ ks ≠ [] ∧
      (∀ k ∈ ks, ∃ lo hi piece, RecordsWithKey sc ds.vars k lo hi ∧
        PieceOf o.dim lo hi (ds.vars.filter fun v => decide (o.dim ∈ v.dims)) piece ∧
        fs'.parts k = some piece) ∧
      (fs.imm = none → fs'.imm = some (ds.vars.filter fun v => decide (o.dim ∉ v.dims)))

/-- C80: the full statement holds when the axis has the name of its dimension.  Missing: an
axis with another name than its dimension. -/
theorem C80_accepted_partial (w : World (List Int) V) (o : Obj V) (sc : Scheme V)
    (hsplit : w.split = splitDataset sc) (hsc : GoodScheme sc) (haxis : o.axis = o.dim)
    (hoi : o.imm = true) (hdims : ∀ m ∈ o.metas, m.dims.Nodup)
    (faults : Faults (List Int)) (validate : Bool) (np : Option Int) (ds : Dataset V)
    (fs : Files (List Int) V) (hf : ∀ p, faults.write p = false)
    (hnp : ∀ n, np = some n → 1 ≤ n) (hi : Insertable o ds)
    (hnames : ∀ n, n ∈ ds.vars.map (·.name) ↔ n ∈ o.metas.map (·.name))
    (hval : validate = true → w.sameMeta ds o.metas = true)
    (hok : ∀ v ∈ ds.vars, ArrOk v.array) (hs : Aligned o fs) (hne : sc.variables ≠ [])
    (hkeys : ∀ name ∈ sc.variables, ∃ v ∈ ds.vars, v.name = name ∧ v.dims = [o.dim] ∧
      ∀ i x, v.array.get [i] = some x → (sc.asKey x).isSome)
    (hrec : ∃ i k, KeyAt sc ds.vars i k) (hm : KeysMonotone sc ds.vars) :
    ∃ fs' ks, Sch.insert w o faults validate np none ds fs = (ds, fs', .ok ks) ∧ ks ≠ [] ∧
      (∀ k ∈ ks, ∃ lo hi piece, RecordsWithKey sc ds.vars k lo hi ∧
        PieceOf o.dim lo hi (ds.vars.filter fun v => decide (o.dim ∈ v.dims)) piece ∧
        fs'.parts k = some piece) ∧
      (fs.imm = none → fs'.imm = some (ds.vars.filter fun v => decide (o.dim ∉ v.dims))) := by
  obtain ⟨fs', ks, h, hk⟩ := C22_dataset_accepted w o sc hsplit hsc (fun _ => haxis) hdims faults
    hf validate np hnp ds hi hnames hval hok fs hs hne hkeys hrec hm
  obtain ⟨_, _, _, h4, h5⟩ := C22_dataset_partial w o sc hsplit hsc (fun _ => haxis) hdims faults
    validate np none ds ds hi hok fs fs' hs ks h (.inr hm)
  refine ⟨fs', ks, h, hk, fun k hk' => ?_, fun hn => ?_⟩
  · obtain ⟨lo, hi', piece, a1, a2, a3⟩ := h4 k hk'
    refine ⟨lo, hi', piece, a1, a2, ?_⟩
    unfold EffectOn at a3
    split at a3
    · exact a3
    · exact a3
    · next he => cases he
  · rw [h5, if_pos hoi, hn]

/-- C80: what `insert` needs, whatever the files and the arguments: when a collection with
variables that are not split accepts a dataset, each variable of the partitioning has a
dimension with the name of the axis. -/
theorem C80_needs (w : World (List Int) V) (o : Obj V) (sc : Scheme V)
    (hsplit : w.split = splitDataset sc) (hoi : o.imm = true) (faults : Faults (List Int))
    (validate : Bool) (np : Option Int) (merge : Option (Sch.Merge V)) (ds ds' : Dataset V)
    (fs fs' : Files (List Int) V) (ks : List (List Int))
    (h : Sch.insert w o faults validate np merge ds fs = (ds', fs', .ok ks)) :
    ∀ name ∈ sc.variables, ∃ v ∈ ds'.vars, v.name = name ∧ o.axis ∈ v.dims := by
  rcases (insert_axis hsplit hoi h).1 with ⟨⟨e, he⟩, _⟩ | hk
  · cases he
  · exact hk

/-- C80: if the axis of a collection with variables that are not split does not have the name of
a dimension of the partitioning variables, every insertion raises and no partition changes,
whatever the dataset, the merge callback and the other arguments. -/
theorem C80_refused (w : World (List Int) V) (o : Obj V) (sc : Scheme V)
    (hsplit : w.split = splitDataset sc) (name : String) (hn : name ∈ sc.variables)
    (ho : OtherName o.axis name o) (faults : Faults (List Int)) (validate : Bool)
    (np : Option Int) (merge : Option (Sch.Merge V)) (ds : Dataset V)
    (hd : NoSuchDim o.axis name ds.vars) (fs : Files (List Int) V) :
    (∃ e, (Sch.insert w o faults validate np merge ds fs).2.2 = .error e) ∧
      (Sch.insert w o faults validate np merge ds fs).2.1.parts = fs.parts := by
  generalize hr : Sch.insert w o faults validate np merge ds fs = r
  obtain ⟨ds', fs', r⟩ := r
  rcases (insert_axis hsplit ho.unsplit hr).1 with h | h
  · exact h
  · obtain ⟨v, hv, he, ha⟩ := h name hn
    rcases insert_dims hr v hv with hv | ⟨m, hm, e1, e2⟩
    · exact absurd ha (hd v hv he)
    · rw [e2] at ha
      exact absurd ha (ho.lacks m hm (by rw [← e1, he]))

/-- C80: such a collection stays empty for ever: no history of calls, successful or not, makes a
partition, even if the collection is opened again. -/
theorem C80_never (w : World (List Int) V) (sc : Scheme V) (hsplit : w.split = splitDataset sc)
    (axis name : String) (hn : name ∈ sc.variables) (fs fs' : Files (List Int) V)
    (h : Attempts w axis name fs fs') (k : List Int) (hk : fs.parts k = none) :
    fs'.parts k = none := by
  induction h with
  | start => exact hk
  | call o c _ ho hc ih =>
    refine exec_absent o _ c k ih ?_
    rintro faults validate np merge ds rfl
    have ha := ho.named
    subst ha
    rw [(C80_refused w o sc hsplit name hn ho faults validate np merge ds hc _).2]
    exact ih
  | opened readOnly _ ih => rw [fromConfig_parts.1]; exact ih

/-- C80: what an insertion, successful or not, leaves as the variables that are not split: the
stored ones, or those of the dataset without a dimension that has the name of the axis. -/
theorem C80_leftover (w : World (List Int) V) (o : Obj V) (sc : Scheme V)
    (hsplit : w.split = splitDataset sc) (hoi : o.imm = true) (faults : Faults (List Int))
    (validate : Bool) (np : Option Int) (merge : Option (Sch.Merge V)) (ds ds' : Dataset V)
    (hc : Consistent ds') (fs fs' : Files (List Int) V) (r : Py (List (List Int)))
    (h : Sch.insert w o faults validate np merge ds fs = (ds', fs', r)) :
    fs'.imm = fs.imm ∨ fs.imm = none ∧
      fs'.imm = some (ds'.vars.filter fun v => decide (o.axis ∉ v.dims)) := by
  refine (insert_axis hsplit hoi h).2.imp_right ?_
  rintro ⟨h1, zds, ids, h2, h3, h4⟩
  refine ⟨h1, ?_⟩
  obtain ⟨z1, z2, _⟩ := mk_spec _ _ _ _ _ _ h2
  have z3 : zds.vars = ds'.vars := by
    rw [z2]
    simpa using foldl_setVar_id ds'.vars [] (by simpa using hc.names)
  rw [h4, (selectByDims_vars z1 h3).2, z3]
  congr 1
  apply List.filter_congr
  intro v _
  by_cases hv : o.axis ∈ v.dims <;> simp [hv]

/-- C80: afterwards the variables that were stored as not split cannot be removed, although they
have the dimension of the partitioning, by any later object of the collection. -/
theorem C80_stuck (w w' : World (List Int) V) (o o' : Obj V) (sc : Scheme V)
    (hsplit : w.split = splitDataset sc) (hoi : o.imm = true) (hoi' : o'.imm = true)
    (faults faults' : Faults (List Int)) (validate : Bool) (np : Option Int)
    (merge : Option (Sch.Merge V)) (ds ds' : Dataset V) (hc : Consistent ds')
    (fs fs1 fs2 : Files (List Int) V) (r : Py (List (List Int))) (hn : fs.imm = none)
    (h : Sch.insert w o faults validate np merge ds fs = (ds', fs1, r)) (hw : fs1.imm ≠ none)
    (hl : Later w (fun _ => True) fs1 fs2) (v : Var V) (hv : v ∈ ds'.vars)
    (hd : o.axis ∉ v.dims) :
    Sch.dropVariable w' o' faults' v.name fs2 = (o', fs2, .error .valueError) := by
  rcases C80_leftover w o sc hsplit hoi faults validate np merge ds ds' hc fs fs1 r h with
    he | ⟨_, he⟩
  · exact absurd (he.trans hn) hw
  · have h2 := C69_immutable w fs1 fs2 hl _ he
    have hg : (getVar (ds'.vars.filter fun v => decide (o.axis ∉ v.dims)) v.name).isSome := by
      rw [getVar_of_mem _ (List.Nodup.sublist (List.filter_sublist.map _) hc.names) v
        (List.mem_filter.2 ⟨hv, decide_eq_true hd⟩)]
      rfl
    unfold Sch.dropVariable
    split
    · rfl
    · split
      · rfl
      · simp only [checkImmutable, hoi', if_true, h2, hg]

/-! ### Cases -/

namespace ImmCase

def metas : List (VarMeta Int) :=
  [⟨"key", ["x"], none, 0⟩, ⟨"t", ["x"], none, 0⟩, ⟨"lut", ["y"], none, 0⟩]

/-- The axis `t` has the dimension `x`; `lut` is not split. -/
def obj : Obj Int :=
  { axis := "t", keys := ["key"], dims := ["x", "y"], metas := metas, dim := "x",
    imm := true, readOnly := false }

def scheme : Scheme Int := { variables := ["key"], date := false, asKey := some }

def world : World (List Int) Int :=
  { undef := fun _ => 0, noneValue := .ok (-1), serial := fun _ => true,
    emptyBag := .error .typeError, list := fun st => [[1], [2]].filter fun p => (st p).isSome,
    split := splitDataset scheme, sameMeta := fun _ _ => true, broken := fun _ => false }

def var (name : String) (dims : List String) (shape : List Nat) (f : List Nat → Int) : Var Int :=
  { name := name, delayed := true, dims := dims, array := tabulate shape f, fill := none,
    props := 0 }

/-- The keys 1, 2. -/
def dataset : Dataset Int :=
  { dims := [("x", 2), ("y", 2)],
    vars := [var "key" ["x"] [2] (fun i => 1 + i.sum), var "t" ["x"] [2] (fun i => i.sum),
      var "lut" ["y"] [2] (fun i => 5 + i.sum)],
    attrs := [], chunks := [], limit := 1, delayed := true }

def files : Files (List Int) Int :=
  { config := .ok (Config.mk "t" ["key"] ["x", "y"] metas), parts := fun _ => none, imm := none }

/-- The collection is the one that the constructor makes of its configuration. -/
example : Sch.init world (Config.mk "t" ["key"] ["x", "y"] metas) false files =
    (files, .ok obj) := rfl

theorem aligned : Aligned obj files := by
  refine ⟨by decide, ?_, ⟨_, rfl, rfl, rfl, rfl, List.Perm.refl _⟩, ?_, ?_, ?_, ?_,
    [], fun p h => absurd rfl h⟩
  · intro k hk
    exact ⟨⟨"key", ["x"], none, 0⟩, by simp [obj, metas], by
      simp only [obj, List.mem_singleton] at hk; exact hk.symm⟩
  · intro p vs h; cases h
  · simp [obj, metas]
  · rintro _ ⟨p, hp⟩; exact absurd rfl hp
  · intro iv h; cases h

theorem insertable : Insertable obj dataset := by
  refine ⟨⟨by decide, by decide, ?_, ?_⟩, ?_, ?_⟩
  · intro v hv
    simp only [dataset, List.mem_cons, List.not_mem_nil, or_false] at hv
    rcases hv with rfl | rfl | rfl <;> rfl
  · intro v hv i d hi
    simp only [dataset, List.mem_cons, List.not_mem_nil, or_false] at hv
    rcases hv with rfl | rfl | rfl <;>
      (match i, hi with
        | 0, hi => cases hi; exact ⟨_, rfl, rfl⟩
        | i + 1, hi => cases hi)
  · intro v hv
    simp only [dataset, List.mem_cons, List.not_mem_nil, or_false] at hv
    rcases hv with rfl | rfl | rfl <;> rfl
  · intro v hv m hm he
    simp only [dataset, List.mem_cons, List.not_mem_nil, or_false] at hv
    simp only [obj, metas, List.mem_cons, List.not_mem_nil, or_false] at hm
    rcases hv with rfl | rfl | rfl <;> rcases hm with rfl | rfl | rfl <;>
      first | rfl | (simp [var] at he)

theorem arrOk : ∀ v ∈ dataset.vars, ArrOk v.array := by
  intro v hv
  simp only [dataset, List.mem_cons, List.not_mem_nil, or_false] at hv
  rcases hv with rfl | rfl | rfl <;> exact Vw.tabulate_arrOk _ _

theorem keyAt {i : Nat} {k : List Int} (h : KeyAt scheme dataset.vars i k) :
    k = [1 + (i : Int)] ∧ i < 2 := by
  obtain ⟨hl, h⟩ := h
  obtain ⟨v, hv, hn, x, hx, hk⟩ := h 0 "key" rfl
  simp only [dataset, List.mem_cons, List.not_mem_nil, or_false] at hv
  match k, hl with
  | [a], _ =>
    rcases hv with rfl | rfl | rfl
    · match i, hx with
      | 0, hx => cases hx; cases hk; exact ⟨rfl, by decide⟩
      | 1, hx => cases hx; cases hk; exact ⟨rfl, by decide⟩
      | i + 2, hx =>
        have := (Vw.tabulate_arrOk [2] (fun i : List Nat => (1 + i.sum : Int)) [i + 2]).1 ⟨x, hx⟩
        exact absurd ((inside_one 2 _).1 this) (by omega)
    · exact absurd hn (by decide)
    · exact absurd hn (by decide)

theorem monotone : KeysMonotone scheme dataset.vars := by
  intro i j k l hij hk hl
  obtain ⟨rfl, _⟩ := keyAt hk
  obtain ⟨rfl, _⟩ := keyAt hl
  obtain ⟨rfl, rfl⟩ : i = 0 ∧ j = 1 := by omega
  decide

theorem record : KeyAt scheme dataset.vars 0 [1] := by
  refine ⟨rfl, fun j name hj => ?_⟩
  match j, hj with
  | 0, hj => cases hj; exact ⟨_, List.mem_cons_self, rfl, 1, rfl, rfl⟩

theorem other : OtherName obj.axis "key" obj := by
  refine ⟨rfl, rfl, ?_⟩
  intro m hm _
  simp only [obj, metas, List.mem_cons, List.not_mem_nil, or_false] at hm ⊢
  rcases hm with rfl | rfl | rfl <;> decide

theorem noSuchDim : NoSuchDim obj.axis "key" dataset.vars := by
  intro v hv _
  simp only [dataset, List.mem_cons, List.not_mem_nil, or_false] at hv
  rcases hv with rfl | rfl | rfl <;> decide

/-- The insertion of a dataset of the collection raises, and leaves all the variables as not
split. -/
theorem outcome : Sch.insert world obj Faults.never true none none dataset files =
    (dataset, { files with imm := some dataset.vars }, .error .keyError) := rfl

/-- `C80_refused`, `C80_leftover` and `C80_stuck` apply: the variable `t` cannot be removed. -/
example : Sch.dropVariable world obj Faults.never "t" { files with imm := some dataset.vars } =
    (obj, { files with imm := some dataset.vars }, .error .valueError) :=
  C80_stuck world world obj obj scheme rfl rfl rfl Faults.never Faults.never true none none
    dataset dataset insertable.consistent files _ _ _ rfl outcome (by intro h; cases h)
    (.start _) (var "t" ["x"] [2] (fun i => i.sum)) (by simp [dataset]) (by decide)

/-- `C80_accepted_partial` applies to the collection of PipelineCases, whose axis is `x`. -/
example : ∃ fs' ks, Sch.insert PipeCase.world PipeCase.obj .never true (some 1) none
      PipeCase.dataset PipeCase.files = (PipeCase.dataset, fs', .ok ks) ∧
      fs'.imm = some [PipeCase.var "lut" ["y"] [2] (fun i => 5 + i.sum)] ∧
      ∀ name ∈ PipeCase.scheme.variables, ∃ v ∈ PipeCase.dataset.vars,
        v.name = name ∧ "x" ∈ v.dims := by
  obtain ⟨fs', ks, h1, _, _, h2⟩ := C80_accepted_partial PipeCase.world PipeCase.obj
    PipeCase.scheme rfl (by intro h; cases h) rfl rfl PipeCase.dims .never true (some 1)
    PipeCase.dataset PipeCase.files (fun _ => rfl) (by intro n h; cases h; decide)
    PipeCase.insertable (by
      intro n
      simp [PipeCase.dataset, PipeCase.key, PipeCase.var, PipeCase.obj, PipeCase.metas])
    (fun _ => rfl) PipeCase.arrOk PipeCase.aligned (by simp [PipeCase.scheme]) (by
      intro name hn
      simp only [PipeCase.scheme, List.mem_singleton] at hn
      subst hn
      refine ⟨PipeCase.key, by simp [PipeCase.dataset], rfl, rfl, ?_⟩
      intro i x hx
      have hin := (Vw.tabulate_arrOk [3] PipeCase.keyOf [i]).1 ⟨x, hx⟩
      have := Vw.tabulate_get [3] PipeCase.keyOf [i] hin
      have hx : (tabulate [3] PipeCase.keyOf).get [i] = some x := hx
      rw [hx] at this
      cases this
      unfold PipeCase.scheme PipeCase.keyOf
      split <;> rfl) ⟨0, [1], rfl, by
      intro j name hj
      match j, hj with
      | 0, hj =>
        simp only [PipeCase.scheme, List.getElem?_cons_zero, Option.some.injEq] at hj
        subst hj
        exact ⟨PipeCase.key, by simp [PipeCase.dataset], rfl, 1, rfl, rfl⟩
      | j + 1, hj => simp [PipeCase.scheme] at hj⟩ PipeCase.monotone
  exact ⟨fs', ks, h1, h2 rfl, C80_needs _ _ _ rfl rfl _ _ _ _ _ _ _ _ _ h1⟩

/-- Two attempts, and the collection opened in between. -/
example (k : List Int) : ((exec world obj (fromConfig world false (exec world obj files
    (.insert Faults.never true none none dataset)).2.1).1
    (.insert Faults.never false (some 1) none dataset)).2.1.parts k) = none :=
  C80_never world scheme rfl obj.axis "key" (by simp [scheme]) files _
    (.call obj (.insert Faults.never false (some 1) none dataset) (.opened false
      (.call obj (.insert Faults.never true none none dataset) (.start _) other noSuchDim))
      other noSuchDim) k rfl

end ImmCase

/-- The name of the axis is used where its dimension is meant. -/
theorem C80_counterexample : ¬ C80_full := by
  intro h
  obtain ⟨fs', ks, h1, _⟩ := h Int ImmCase.world ImmCase.obj ImmCase.scheme rfl
    (by intro hd; cases hd) ⟨⟨"t", ["x"], none, 0⟩, by simp [ImmCase.obj, ImmCase.metas], rfl, rfl⟩
    rfl (by
      intro m hm
      simp only [ImmCase.obj, ImmCase.metas, List.mem_cons, List.not_mem_nil, or_false] at hm
      rcases hm with rfl | rfl | rfl <;> decide) Faults.never true none ImmCase.dataset
    ImmCase.files (fun _ => rfl) (by intro n hn; cases hn) ImmCase.insertable
    (by intro n; rfl) (fun _ => rfl) ImmCase.arrOk ImmCase.aligned (by decide)
    (by
      intro name hn
      simp only [ImmCase.scheme, List.mem_singleton] at hn
      subst hn
      exact ⟨_, List.mem_cons_self, rfl, rfl, fun _ _ _ => rfl⟩)
    ⟨0, [1], ImmCase.record⟩ ImmCase.monotone
  rw [ImmCase.outcome] at h1
  cases (Prod.mk.inj (Prod.mk.inj h1).2).2

end Verif
