import Verif.Lemmas.CompressedRun
import Verif.Props.ViewMap

/-! C72: compressed arrays in a program: construction, assignment, numpy functions. -/

namespace Verif

open Spec Nd Chunk Ca

variable {V : Type}

/-- A program that has no compressed array yet. -/
def noArrays : World V := ⟨[], []⟩

theorem noArrays_backs : Backs (noArrays : World V) ⟨[], []⟩ :=
  ⟨rfl, rfl, fun _ h => (nomatch h), fun k z a h => by simp [noArrays] at h⟩

/-- C72, full statement on assignment: what is missing in the array that is assigned is missing
when it is read again. -/
def C72_assign_full : Prop :=
  ∀ (eqv : Int → Int → Bool) (zero : Int) (ops : List (Ca.Op Int)) (m : Memory Int) (i k : Nat)
    (f : Int) (a d : Arr Int) (mask : List Nat → Bool) (key : List Ix) (c : CArray Int)
    (r : Arr (Option Int)), MemRun ⟨[], []⟩ ops m → m.objs[i]? = some (k, some f) →
    m.cells[k]? = some a → SelectionShape key a.shape d.shape → ArrOk d →
    (Ca.run eqv zero noArrays (ops ++ [.assign i key (.arr d (some mask))])).obj i = some c →
    getItem eqv c key = .ok r → ∀ j, Inside d.shape j → mask j = true → r.get j = some none

/-- C72, full statement on ufuncs: the result is that for the arrays that the arguments stand
for. -/
def C72_ufunc_full : Prop :=
  ∀ (eqv : Int → Int → Bool) (f : List (Arr (Option Int)) → Py Int) (fuel : Nat)
    (args : List (Arg Int)) (arrays : List (Arr (Option Int))), AllStand eqv args arrays →
    ufunc eqv f .call none (fuel + 1) args = f arrays

/-- C72, full statement on the functions of numpy. -/
def C72_function_full : Prop :=
  ∀ (eqv : Int → Int → Bool) (f : List (Pos Int) → List (String × Arg Int) → Py Int)
    (fuel : Nat) (args args' : List (Pos Int)), AllPos eqv args args' →
    function eqv f [] (fuel + 1) args = f args' []

/-! ### Construction, indexing, assignment -/

/-- C72: after any sequence of constructions, rechunkings and assignments, indexing a compressed
array gives what indexing the array it stands for gives: this array has the elements given to the
constructor, except those assigned since, through this object or another one that shares its
data. -/
theorem C72_history (eqv : V → V → Bool) (zero : V) (ops : List (Ca.Op V)) (m : Memory V)
    (hr : MemRun ⟨[], []⟩ ops m) (i k : Nat) (f : Option V) (a : Arr V)
    (ho : m.objs[i]? = some (k, f)) (ha : m.cells[k]? = some a) (key : List Ix) (s : List Nat)
    (hs : SelectionShape key a.shape s) :
    ∃ c r, (Ca.run eqv zero noArrays ops).obj i = some c ∧ getItem eqv c key = .ok r ∧
      r.shape = s ∧ ∀ j src, Inside a.shape src → Designates key a.shape j src →
        ∃ x y, a.get src = some x ∧ r.get j = some y ∧ Appears eqv f x y := by
  obtain ⟨z, _, hz, hh⟩ := backs_obj (run_backs eqv zero noArrays_backs hr) ho ha
  obtain ⟨r, h1, h2, h3⟩ := getItem_holds eqv (c := ⟨z, f⟩) hh hs
  exact ⟨⟨z, f⟩, r, hz, h1, h2, h3⟩

/-- C72: the shape of a compressed array is that of the array it stands for. -/
theorem C72_shape (eqv : V → V → Bool) (zero : V) (ops : List (Ca.Op V)) (m : Memory V)
    (hr : MemRun ⟨[], []⟩ ops m) (i k : Nat) (f : Option V) (a : Arr V)
    (ho : m.objs[i]? = some (k, f)) (ha : m.cells[k]? = some a) :
    ∃ c, (Ca.run eqv zero noArrays ops).obj i = some c ∧ c.array.shape = a.shape ∧ c.fill = f := by
  obtain ⟨z, _, hz, hh⟩ := backs_obj (run_backs eqv zero noArrays_backs hr) ho ha
  exact ⟨⟨z, f⟩, hz, hh.shape, rfl⟩

/-- C72: the operations of the specification succeed, those that it refuses raise `ValueError` or
`IndexError` and change nothing. -/
theorem C72_outcome (eqv : V → V → Bool) (zero : V) (ops : List (Ca.Op V)) (m : Memory V)
    (hr : MemRun ⟨[], []⟩ ops m) (o : Ca.Op V) :
    ((∃ m', MemStep m o m') → (Ca.step eqv zero (Ca.run eqv zero noArrays ops) o).2 = .ok ()) ∧
    (Refused m o →
      (Ca.step eqv zero (Ca.run eqv zero noArrays ops) o).1 = Ca.run eqv zero noArrays ops ∧
      ((Ca.step eqv zero (Ca.run eqv zero noArrays ops) o).2 = .error .valueError ∨
        (Ca.step eqv zero (Ca.run eqv zero noArrays ops) o).2 = .error .indexError)) := by
  have hb := run_backs eqv zero noArrays_backs hr
  exact ⟨fun ⟨m', h⟩ => (step_backs eqv zero hb h).1, fun h => step_refused eqv zero hb h⟩

/-- C72: reading with a key that does not fit the array raises. -/
theorem C72_bad_key (eqv : V → V → Bool) (zero : V) (ops : List (Ca.Op V)) (m : Memory V)
    (hr : MemRun ⟨[], []⟩ ops m) (i k : Nat) (f : Option V) (a : Arr V)
    (ho : m.objs[i]? = some (k, f)) (ha : m.cells[k]? = some a) (key : List Ix)
    (hk : ∀ s, ¬ SelectionShape key a.shape s) :
    ∃ c e, (Ca.run eqv zero noArrays ops).obj i = some c ∧ getItem eqv c key = .error e ∧
      (e = .valueError ∨ e = .indexError) := by
  obtain ⟨z, _, hz, hh⟩ := backs_obj (run_backs eqv zero noArrays_backs hr) ho ha
  cases hs : selShape key a.shape with
  | ok s => exact absurd (selShape_spec hs) (hk s)
  | error e =>
    refine ⟨⟨z, f⟩, e, hz, ?_, selShape_error hs⟩
    simp only [getItem, hh.shape, hs, bind, Except.bind]

/-- C72: an assignment is possible whenever the key fits the array and the value is a number, or
an array of the shape that the key designates. -/
theorem C72_assignable (m : Memory V) (i k : Nat) (f : Option V) (a : Arr V)
    (ho : m.objs[i]? = some (k, f)) (ha : m.cells[k]? = some a) (oa : ArrOk a) (key : List Ix)
    (s : List Nat) (hs : SelectionShape key a.shape s) (v : Value V) (g : List Nat → Option V)
    (hv : Assignable v s g) : ∃ m', MemStep m (.assign i key v) m' := by
  obtain ⟨b, hb⟩ := replaced_exists oa hs g
  exact ⟨_, .assign m i k f a b key v s g ho ha hs hv hb⟩

theorem run_append (eqv : V → V → Bool) (zero : V) (w : World V) (l : List (Ca.Op V))
    (o : Ca.Op V) : Ca.run eqv zero w (l ++ [o]) = (Ca.step eqv zero (Ca.run eqv zero w l) o).1 := by
  induction l generalizing w with
  | nil => rfl
  | cons a t ih => exact ih _

theorem memRun_append {m m' m'' : Memory V} {l : List (Ca.Op V)} {o : Ca.Op V} (h : MemRun m l m')
    (hs : MemStep m' o m'') : MemRun m (l ++ [o]) m'' := by
  induction h with
  | nil m => exact .step _ _ _ _ _ hs (.nil _)
  | step m m1 m2 o' t h1 _ ih => exact .step _ _ _ _ _ h1 (ih hs)
  | skip m m1 o' t h1 _ ih => exact .skip _ _ _ _ h1 (ih hs)

/-- C72: what is assigned is read again through the object, an element equal to the fill value
being missing, whatever the mask of the array that was assigned.  Missing: the mask (`C72_assign_full`). -/
theorem C72_assigned_partial (eqv : V → V → Bool) (zero : V) (ops : List (Ca.Op V)) (m : Memory V)
    (hr : MemRun ⟨[], []⟩ ops m) (i k : Nat) (f : Option V) (a : Arr V)
    (ho : m.objs[i]? = some (k, f)) (ha : m.cells[k]? = some a) (key : List Ix) (s : List Nat)
    (hs : SelectionShape key a.shape s) (v : Value V) (g : List Nat → Option V)
    (hv : Assignable v s g) :
    ∃ c r, (Ca.run eqv zero noArrays (ops ++ [.assign i key v])).obj i = some c ∧
      getItem eqv c key = .ok r ∧ r.shape = s ∧
      ∀ j, Inside s j → ∃ x y, g j = some x ∧ r.get j = some y ∧ Appears eqv f x y := by
  obtain ⟨z, _, _, hh⟩ := backs_obj (run_backs eqv zero noArrays_backs hr) ho ha
  obtain ⟨b, hb⟩ := replaced_exists hh.ok hs g
  have hstep := MemStep.assign m i k f a b key v s g ho ha hs hv hb
  have hk : k < m.cells.length := (List.getElem?_eq_some_iff.1 ha).1
  obtain ⟨c, r, h1, h2, h3, h4⟩ := C72_history eqv zero _ _ (memRun_append hr hstep) i k f b ho
    (List.getElem?_set_self hk) key s (by rw [hb.shape]; exact hs)
  refine ⟨c, r, h1, h2, h3, fun j hj => ?_⟩
  obtain ⟨src, e1, e2⟩ := designates_total hs hj
  obtain ⟨x, y, g1, g2, g3⟩ := h4 j src (by rw [hb.shape]; exact e1) (by rw [hb.shape]; exact e2)
  exact ⟨x, y, by rw [← hb.new j src e1 e2]; exact g1, g2, g3⟩

/-- C72: an assignment does not change what the objects with other data show. -/
theorem C72_frame (eqv : V → V → Bool) (zero : V) (ops : List (Ca.Op V)) (m : Memory V)
    (hr : MemRun ⟨[], []⟩ ops m) (i i' k k' : Nat) (f f' : Option V)
    (ho : m.objs[i]? = some (k, f)) (ho' : m.objs[i']? = some (k', f')) (hk : k ≠ k')
    (key : List Ix) (v : Value V) :
    (Ca.run eqv zero noArrays (ops ++ [.assign i' key v])).obj i =
      (Ca.run eqv zero noArrays ops).obj i := by
  have hb := run_backs eqv zero noArrays_backs hr
  rw [run_append]
  have ho1 : (Ca.run eqv zero noArrays ops).objs[i]? = some (k, f) := by rw [hb.objs, ho]
  have ho2 : (Ca.run eqv zero noArrays ops).objs[i']? = some (k', f') := by rw [hb.objs, ho']
  generalize Ca.run eqv zero noArrays ops = w at ho1 ho2
  simp only [Ca.step, ho2]
  cases hz : w.arrays[k']? with
  | none => rfl
  | some z =>
    simp only
    cases hset : setArray z key v with
    | error e => rfl
    | ok z' =>
      simp only [World.obj, ho1, List.getElem?_set_ne (Ne.symm hk)]

/-- C72: the compressed array of a compressed array is the same array: whatever the fill value
that is given, it shows the same elements, and what is assigned through one of them later is seen
through the other one. -/
theorem C72_shared (eqv : V → V → Bool) (zero : V) (ops : List (Ca.Op V)) (m : Memory V)
    (hr : MemRun ⟨[], []⟩ ops m) (i : Nat) (o : Nat × Option V) (ho : m.objs[i]? = some o)
    (fill : Option V) (later : List (Ca.Op V)) (m' : Memory V)
    (hl : MemRun ⟨m.cells, m.objs ++ [o]⟩ later m') :
    (Ca.run eqv zero noArrays (ops ++ .wrap i fill :: later)).obj m.objs.length =
      (Ca.run eqv zero noArrays (ops ++ .wrap i fill :: later)).obj i := by
  have hall : MemRun ⟨[], []⟩ (ops ++ .wrap i fill :: later) m' := by
    have : ∀ {m0 : Memory V} {l : List (Ca.Op V)}, MemRun m0 l m →
        MemRun m0 (l ++ .wrap i fill :: later) m' := by
      intro m0 l h
      clear hr
      induction h with
      | nil m => exact .step _ _ _ _ _ (.wrap _ i fill o ho) hl
      | step m m1 m2 o' t h1 _ ih => exact .step _ _ _ _ _ h1 (ih ho hl)
      | skip m m1 o' t h1 _ ih => exact .skip _ _ _ _ h1 (ih ho hl)
    exact this hr
  have hpre : ∀ {m0 m1 : Memory V} {l : List (Ca.Op V)}, MemRun m0 l m1 → m0.objs <+: m1.objs := by
    intro m0 m1 l h
    induction h with
    | nil m => exact List.prefix_refl _
    | skip m m1 o' t _ _ ih => exact ih
    | step m m1 m2 o' t h1 _ ih =>
      refine List.IsPrefix.trans ?_ ih
      cases h1 with
      | new => exact List.prefix_append _ _
      | zarr => exact List.prefix_append _ _
      | wrap => exact List.prefix_append _ _
      | rechunk => exact List.prefix_append _ _
      | assign => exact List.prefix_refl _
  have hb := run_backs eqv zero noArrays_backs hall
  obtain ⟨r, hr'⟩ := hpre hl
  have hi : i < m.objs.length := (List.getElem?_eq_some_iff.1 ho).1
  have e1 : m'.objs[i]? = some o := by
    rw [← hr']
    simp only
    rw [List.append_assoc, List.getElem?_append_left hi, ho]
  have e2 : m'.objs[m.objs.length]? = some o := by
    rw [← hr']
    simp
  simp only [World.obj, hb.objs, e1, e2]

/-! ### ufuncs -/

theorem stands_toArray {eqv : V → V → Bool} {c : CArray V} {A : Arr (Option V)}
    (h : Stands eqv (.comp c) A) : A = c.toArray eqv := by
  cases h with
  | comp _ _ h1 h2 h3 =>
    have hg : A.get = (c.toArray eqv).get := by
      funext idx
      simp only [CArray.toArray, CArray.get, values, readEager]
      by_cases hi : Inside A.shape idx
      · obtain ⟨x, y, e1, e2, e3⟩ := h3 idx hi
        rw [← h1, (inBounds_iff _ _).2 hi, if_pos rfl, e1, e2]
        simp only [Option.map_some, Option.some.injEq]
        obtain ⟨g1, g2⟩ := e3
        cases hf : c.fill with
        | none => exact g2 fun f hf' => by rw [hf] at hf'; cases hf'
        | some f =>
          cases he : eqv x f with
          | true => rw [g1 f hf he]; simp [he]
          | false =>
            rw [g2 fun f' hf' => by rw [hf] at hf'; cases hf'; exact he]
            simp [he]
      · have : inBounds idx c.array.shape = false := by
          cases hb : inBounds idx c.array.shape with
          | false => rfl
          | true => rw [← h1] at hb; exact absurd ((inBounds_iff _ _).1 hb) hi
        rw [h2 idx hi, this]
        rfl
    cases A with
    | mk s g =>
      simp only at hg h1
      rw [h1, hg]
      rfl

theorem findSome_comp {l : List (Arg V)} {c : CArray V} (h : .comp c ∈ l) :
    ∃ c', .comp c' ∈ l ∧ l.findSome? Arg.comp? = some c' := by
  induction l with
  | nil => cases h
  | cons a t ih =>
    cases a with
    | comp c' => exact ⟨c', List.mem_cons_self, rfl⟩
    | _ =>
      all_goals
        obtain ⟨c', h1, h2⟩ := ih ((List.mem_cons.1 h).resolve_left (by intro h; cases h))
        exact ⟨c', List.mem_cons_of_mem _ h1, h2⟩

theorem findSome_none {l : List (Arg V)} (h : ∀ c, .comp c ∉ l) : l.findSome? Arg.comp? = none := by
  rw [List.findSome?_eq_none_iff]
  intro a ha
  cases a with
  | comp c => exact absurd ha (h c)
  | _ => rfl

/-- The arguments after `_cast`, for compressed arrays with the fill value of the first one. -/
theorem castArgs_ok (eqv : V → V → Bool) (self : CArray V) (args : List (Arg V))
    (arrays : List (Arr (Option V))) (h : AllStand eqv args arrays)
    (hf : ∀ c, .comp c ∈ args → c.fill = self.fill) (hn : ∀ v, .scalar v ∉ args) :
    ∃ l, Ds.mapPy (castArg eqv self) args = .ok l ∧ (∀ c, .comp c ∉ l) ∧
      Ds.mapPy Arg.plain l = .ok arrays ∧ Ds.mapPy (castArg eqv self) l = .ok l := by
  induction h with
  | nil => exact ⟨[], rfl, by simp, rfl, rfl⟩
  | cons a A t L hs _ ih =>
    obtain ⟨l, h1, h2, h3, h4⟩ := ih (fun c hc => hf c (List.mem_cons_of_mem _ hc))
      fun v hv => hn v (List.mem_cons_of_mem _ hv)
    have key : ∃ b, castArg eqv self a = .ok b ∧ (∀ c, b ≠ .comp c) ∧ b.plain = .ok A ∧
        castArg eqv self b = .ok b := by
      cases hs with
      | comp c _ e1 e2 e3 =>
        refine ⟨.arr A, ?_, fun c h => (nomatch h), rfl, rfl⟩
        have hA := stands_toArray (.comp c A e1 e2 e3 : Stands eqv (.comp c) A)
        have hc := hf c List.mem_cons_self
        simp only [castArg, hA, CArray.toArray]
        congr 3
        funext idx
        simp only [CArray.cast, CArray.get, hc]
      | arr _ => exact ⟨.arr A, rfl, fun c h => (nomatch h), rfl, rfl⟩
      | dask _ => exact ⟨.arr A, rfl, fun c h => (nomatch h), rfl, rfl⟩
      | num v => exact ⟨.num v, rfl, fun c h => (nomatch h), rfl, rfl⟩
      | scalar v => exact absurd List.mem_cons_self (hn v)
    obtain ⟨b, b1, b2, b3, b4⟩ := key
    refine ⟨b :: l, by simp only [Ds.mapPy, b1, h1, bind, Except.bind], ?_,
      by simp only [Ds.mapPy, b3, h3, bind, Except.bind],
      by simp only [Ds.mapPy, b4, h4, bind, Except.bind]⟩
    intro c hc
    rcases List.mem_cons.1 hc with hc | hc
    · exact b2 c hc.symm
    · exact h2 c hc

theorem plain_ok (eqv : V → V → Bool) {args : List (Arg V)} {arrays : List (Arr (Option V))}
    (h : AllStand eqv args arrays) (hn : ∀ c, .comp c ∉ args) :
    Ds.mapPy Arg.plain args = .ok arrays := by
  induction h with
  | nil => rfl
  | cons a A t L hs _ ih =>
    have hp : a.plain = .ok A := by
      cases hs with
      | comp c _ _ _ _ => exact absurd List.mem_cons_self (hn c)
      | _ => rfl
    simp only [Ds.mapPy, hp, ih fun c hc => hn c (List.mem_cons_of_mem _ hc), bind, Except.bind]

/-- C72: a ufunc, called or as a reduction, has for compressed arrays the result that it has for
the arrays they stand for, when they have the same fill value and no argument is a scalar of
numpy.  Missing: other fill values (C52), and scalars of numpy (`C72_scalar`). -/
theorem C72_ufunc_partial {R : Type} (eqv : V → V → Bool) (f : List (Arr (Option V)) → Py R)
    (m : Method) (hm : m ≠ .other) (fuel : Nat) (args : List (Arg V))
    (arrays : List (Arr (Option V))) (h : AllStand eqv args arrays) (fill : Option V)
    (hf : ∀ c, .comp c ∈ args → c.fill = fill) (hn : ∀ v, .scalar v ∉ args) :
    ufunc eqv f m none (fuel + 1) args = f arrays := by
  by_cases hc : ∃ c, .comp c ∈ args
  · obtain ⟨c, hc⟩ := hc
    obtain ⟨c', h1, h2⟩ := findSome_comp hc
    obtain ⟨l, l1, l2, l3, _⟩ := castArgs_ok eqv c' args arrays h
      (fun c hc => by rw [hf c hc, hf c' h1]) hn
    rw [ufunc]
    simp only [h2, Option.some_or, l1, bind, Except.bind, if_neg hm]
    rw [ufunc.eq_def]
    simp only [findSome_none l2, Option.or_none, l3, bind, Except.bind]
  · rw [ufunc]
    simp only [findSome_none fun c hc' => hc ⟨c, hc'⟩, Option.or_none,
      plain_ok eqv h fun c hc' => hc ⟨c, hc'⟩, bind, Except.bind]

theorem castArg_error {eqv : V → V → Bool} {self : CArray V} {a : Arg V} {e : PyErr}
    (h : castArg eqv self a = .error e) : e = .typeError := by
  cases a <;> simp only [castArg] at h <;> cases h <;> rfl

theorem castArgs_error (eqv : V → V → Bool) (self : CArray V) (args : List (Arg V))
    (a : Arg V) (ha : a ∈ args) (h : castArg eqv self a = .error .typeError) :
    Ds.mapPy (castArg eqv self) args = .error .typeError := by
  induction args with
  | nil => cases ha
  | cons b t ih =>
    cases hb : castArg eqv self b with
    | error e =>
      cases castArg_error hb
      simp only [Ds.mapPy, hb, bind, Except.bind]
    | ok b' =>
      rcases List.mem_cons.1 ha with rfl | ha
      · rw [h] at hb; cases hb
      · simp only [Ds.mapPy, hb, ih ha, bind, Except.bind]

/-- C72: a ufunc of a compressed array and of a scalar of numpy raises `TypeError`. -/
theorem C72_scalar {R : Type} (eqv : V → V → Bool) (f : List (Arr (Option V)) → Py R)
    (m : Method) (out : Option (CArray V)) (fuel : Nat) (args : List (Arg V)) (c : CArray V)
    (v : V) (hc : .comp c ∈ args) (hv : .scalar v ∈ args) :
    ufunc eqv f m out (fuel + 1) args = .error .typeError := by
  obtain ⟨c', _, h2⟩ := findSome_comp hc
  rw [ufunc]
  simp only [h2, Option.some_or, castArgs_error eqv c' args _ hv rfl, bind, Except.bind]

/-- C72: the other methods of a ufunc (`accumulate`, `outer`, `at`, `reduceat`) raise
`TypeError`. -/
theorem C72_method {R : Type} (eqv : V → V → Bool) (f : List (Arr (Option V)) → Py R)
    (out : Option (CArray V)) (fuel : Nat) (args : List (Arg V)) (c : CArray V)
    (hc : .comp c ∈ args) : ufunc eqv f .other out (fuel + 1) args = .error .typeError := by
  obtain ⟨c', _, h2⟩ := findSome_comp hc
  rw [ufunc]
  simp only [h2, Option.some_or, bind, Except.bind]
  cases h : Ds.mapPy (castArg eqv c') args with
  | ok l => rfl
  | error e =>
    obtain ⟨a, _, ha⟩ := mapPy_raises _ _ _ h
    cases castArg_error ha
    rfl

/-- C72: an operation with a compressed array as output, `c += x` for instance, never returns a
result: it calls itself until Python raises `RecursionError`. -/
theorem C72_in_place {R : Type} (eqv : V → V → Bool) (f : List (Arr (Option V)) → Py R)
    (m : Method) (hm : m ≠ .other) (out : CArray V) (fuel : Nat) (args : List (Arg V))
    (arrays : List (Arr (Option V))) (h : AllStand eqv args arrays)
    (hf : ∀ c, .comp c ∈ args → c.fill = out.fill) (hn : ∀ v, .scalar v ∉ args) :
    ufunc eqv f m (some out) fuel args = .error .runtimeError := by
  have key : ∀ (fuel : Nat) (l : List (Arg V)), (∀ c, .comp c ∉ l) →
      Ds.mapPy (castArg eqv out) l = .ok l →
      ufunc eqv f m (some out) fuel l = .error .runtimeError := by
    intro fuel l hl hid
    induction fuel with
    | zero =>
      rw [ufunc.eq_def]
      simp only [findSome_none hl, Option.none_or]
    | succ n ih =>
      rw [ufunc]
      simp only [findSome_none hl, Option.none_or, hid, bind, Except.bind, if_neg hm, ih]
  obtain ⟨l, l1, l2, _, l4⟩ := castArgs_ok eqv out args arrays h hf hn
  by_cases hc : ∃ c, .comp c ∈ args
  · obtain ⟨c, hc⟩ := hc
    obtain ⟨c', h1, h2⟩ := findSome_comp hc
    cases fuel with
    | zero =>
      rw [ufunc.eq_def]
      simp only [h2, Option.some_or]
    | succ n =>
      have hcast : castArg eqv c' = castArg eqv out := by
        funext a
        have hcc : CArray.cast eqv c' = CArray.cast eqv out := by
          funext c idx
          simp only [CArray.cast, hf c' h1]
        cases a <;> simp only [castArg, hcc]
      rw [ufunc]
      simp only [h2, Option.some_or, hcast, l1, bind, Except.bind, if_neg hm]
      rw [key n l l2 l4]
  · cases fuel with
    | zero =>
      rw [ufunc.eq_def]
      simp only [findSome_none fun c hc' => hc ⟨c, hc'⟩, Option.none_or]
    | succ n =>
      rw [ufunc]
      simp only [findSome_none fun c hc' => hc ⟨c, hc'⟩, Option.none_or, l1, bind, Except.bind,
        if_neg hm]
      rw [key n l l2 l4]

/-! ### numpy functions -/

/-- C72: a numpy function whose compressed arrays are given by position has the result that it
has for the arrays they stand for, each with its own missing values.  Missing: compressed arrays
in lists or given by name (`C72_nested`, `C72_keyword`). -/
theorem C72_function_partial {R : Type} (eqv : V → V → Bool)
    (f : List (Pos V) → List (String × Arg V) → Py R) (kwargs : List (String × Arg V))
    (hk : ∀ s c, (s, Arg.comp c) ∉ kwargs) (fuel : Nat) (args args' : List (Pos V))
    (h : AllPos eqv args args') (hs : ∀ l, .seq l ∈ args → ∀ c, .comp c ∉ l) :
    function eqv f kwargs (fuel + 1) args = f args' kwargs := by
  have hmap : args.map (Pos.decompress eqv) = args' ∧
      ∀ p ∈ args', ∀ c, .comp c ∉ p.all := by
    induction h with
    | nil => exact ⟨rfl, by simp⟩
    | cons a A t L hp _ ih =>
      obtain ⟨i1, i2⟩ := ih fun l hl => hs l (List.mem_cons_of_mem _ hl)
      have hone : a.decompress eqv = A ∧ ∀ c, .comp c ∉ A.all := by
        cases hp with
        | comp c A' hst =>
          refine ⟨?_, fun c' hc' => by simp [Pos.all] at hc'⟩
          simp only [Pos.decompress, stands_toArray hst]
        | one b hb =>
          refine ⟨?_, fun c hc => ?_⟩
          · cases b with
            | comp c => exact absurd rfl (hb c)
            | _ => rfl
          · simp only [Pos.all, List.mem_singleton] at hc
            exact hb c hc.symm
        | seq l L' _ hex =>
          obtain ⟨c, hc⟩ := hex
          exact absurd hc (hs l List.mem_cons_self c)
        | other l hl => exact ⟨rfl, hl⟩
      refine ⟨by rw [List.map_cons, hone.1, i1], fun p hp => ?_⟩
      rcases List.mem_cons.1 hp with rfl | hp
      · exact hone.2
      · exact i2 p hp
  have hkw : ∀ c, .comp c ∉ kwargs.map (·.2) := by
    intro c hc
    obtain ⟨p, h1, h2⟩ := List.mem_map.1 hc
    exact hk p.1 c (by rw [← h2]; exact h1)
  have hfin : ∀ fuel, function eqv f kwargs fuel args' = f args' kwargs := by
    intro fuel
    have hn : (args'.flatMap Pos.all ++ kwargs.map (·.2)).findSome? Arg.comp? = none := by
      apply findSome_none
      intro c hc
      rcases List.mem_append.1 hc with hc | hc
      · obtain ⟨p, h1, h2⟩ := List.mem_flatMap.1 hc
        exact hmap.2 p h1 c h2
      · exact hkw c hc
    rw [function.eq_def]
    simp only [hn]
  cases hfs : (args.flatMap Pos.all ++ kwargs.map (·.2)).findSome? Arg.comp? with
  | some c =>
    rw [function]
    simp only [hfs, hmap.1, hfin]
  | none =>
    have : args' = args := by
      rw [← hmap.1]
      have hnone : ∀ p ∈ args, p.decompress eqv = p := by
        intro p hp
        cases p with
        | seq l => rfl
        | one b =>
          cases b with
          | comp c =>
            exfalso
            rw [List.findSome?_eq_none_iff] at hfs
            have := hfs (.comp c) (List.mem_append_left _
              (List.mem_flatMap.2 ⟨_, hp, by simp [Pos.all]⟩))
            simp [Arg.comp?] at this
          | _ => rfl
      conv => rhs; rw [← List.map_id args]
      exact List.map_congr_left hnone
    rw [function]
    simp only [hfs, this]

/-- C72: a numpy function that is given a list with a compressed array, `numpy.concatenate` for
instance, calls itself until Python raises `RecursionError`. -/
theorem C72_nested {R : Type} (eqv : V → V → Bool)
    (f : List (Pos V) → List (String × Arg V) → Py R) (kwargs : List (String × Arg V))
    (fuel : Nat) (args : List (Pos V)) (l : List (Arg V)) (c : CArray V) (hl : .seq l ∈ args)
    (hc : .comp c ∈ l) : function eqv f kwargs fuel args = .error .runtimeError := by
  induction fuel generalizing args with
  | zero =>
    obtain ⟨c', _, h⟩ := findSome_comp (l := args.flatMap Pos.all ++ kwargs.map (·.2)) (c := c)
      (List.mem_append_left _ (List.mem_flatMap.2 ⟨_, hl, hc⟩))
    rw [function.eq_def]
    simp only [h]
  | succ n ih =>
    obtain ⟨c', _, h⟩ := findSome_comp (l := args.flatMap Pos.all ++ kwargs.map (·.2)) (c := c)
      (List.mem_append_left _ (List.mem_flatMap.2 ⟨_, hl, hc⟩))
    rw [function]
    simp only [h]
    exact ih _ (List.mem_map.2 ⟨_, hl, rfl⟩)

/-- C72: so does one that is given a compressed array by name. -/
theorem C72_keyword {R : Type} (eqv : V → V → Bool)
    (f : List (Pos V) → List (String × Arg V) → Py R) (kwargs : List (String × Arg V))
    (fuel : Nat) (args : List (Pos V)) (s : String) (c : CArray V) (hc : (s, .comp c) ∈ kwargs) :
    function eqv f kwargs fuel args = .error .runtimeError := by
  induction fuel generalizing args with
  | zero =>
    obtain ⟨c', _, h⟩ := findSome_comp (l := args.flatMap Pos.all ++ kwargs.map (·.2)) (c := c)
      (List.mem_append_right _ (List.mem_map.2 ⟨_, hc, rfl⟩))
    rw [function.eq_def]
    simp only [h]
  | succ n ih =>
    obtain ⟨c', _, h⟩ := findSome_comp (l := args.flatMap Pos.all ++ kwargs.map (·.2)) (c := c)
      (List.mem_append_right _ (List.mem_map.2 ⟨_, hc, rfl⟩))
    rw [function]
    simp only [h]
    exact ih _

/-! ### Cases -/

namespace CompCase

/-- An array of two rows and three columns. -/
def table : Arr Int := tabulate [2, 3] fun idx => idx.foldl (fun (s : Int) (i : Nat) => 10 * s + i) 0

theorem table_ok : ArrOk table := tabulate_arrOk _ _

/-- The second row, from the second column on. -/
def corner : List Ix := [.int (-1), .slice ⟨some 1, none, none⟩]

/-- Two numbers, the first one being masked. -/
def pair : Arr Int := tabulate [2] fun idx => 70 + idx.foldl (fun (_ : Int) (i : Nat) => (i : Int)) 0

@[inherit_doc pair]
def first : List Nat → Bool := fun idx => decide (idx = [0])

/-- A compressed array with chunks of one row and two columns, another one that shares its data,
an assignment through the second one, and one that is refused. -/
def program : List (Ca.Op Int) :=
  [.new table [1, 2] (some 1), .wrap 0 (some 5), .assign 1 corner (.arr pair (some first)),
    .assign 0 corner (.arr table none)]

theorem corner_shape : SelectionShape corner table.shape [2] :=
  .int (-1) 2 _ _ _ (by decide) (by decide)
    (.slice _ 3 [1, 2] [] [] [] (fun _ h => (nomatch h)) rfl (.done []))

/-- The program is one of the specification. -/
theorem program_run : ∃ b, Replaced corner pair.get table b ∧
    MemRun ⟨[], []⟩ program ⟨[b], [(0, some 1), (0, some 1)]⟩ := by
  obtain ⟨b, hb⟩ := replaced_exists table_ok corner_shape pair.get
  refine ⟨b, hb, .step _ _ _ _ _ (.new _ table [1, 2] (some 1) table_ok ⟨rfl, by decide⟩)
    (.step _ _ _ _ _ (.wrap _ 0 (some 5) (0, some 1) rfl)
      (.step _ _ _ _ _ (.assign _ 1 0 (some 1) table b corner _ [2] pair.get rfl rfl corner_shape
        (.arr pair _ (tabulate_arrOk _ _)) hb)
        (.skip _ _ _ _ (.shape _ 0 0 (some 1) b table corner [2] none rfl rfl ?_ (by decide))
          (.nil _))))⟩
  rw [hb.shape]
  exact corner_shape

/-- The hypotheses of `C72_history`, `C72_shape` and `C72_outcome` are met, and the assignment is
seen through the first object: the row is now 10, 70, 71. -/
example : ∃ c r, (Ca.run (· == ·) 0 noArrays program).obj 0 = some c ∧
    getItem (· == ·) c [.int 1] = .ok r ∧ r.shape = [3] ∧ r.get [0] = some (some 10) ∧
    r.get [1] = some (some 70) ∧ r.get [2] = some (some 71) :=
  ⟨_, _, rfl, rfl, rfl, rfl, rfl, rfl⟩

example : ∃ c r, (Ca.run (· == ·) 0 noArrays program).obj 0 = some c ∧
    getItem (· == ·) c corner = .ok r ∧ r.shape = [2] := by
  obtain ⟨b, hb, hr⟩ := program_run
  obtain ⟨c, r, h1, h2, h3, _⟩ := C72_history (· == ·) 0 program _ hr 0 0 (some 1) b rfl rfl
    corner [2] (by rw [hb.shape]; exact corner_shape)
  exact ⟨c, r, h1, h2, h3⟩

/-- The element equal to the fill value is missing: the first row is 0, missing, 2. -/
example : ∃ c r, (Ca.run (· == ·) 0 noArrays program).obj 1 = some c ∧
    getItem (· == ·) c [.int 0] = .ok r ∧ r.get [0] = some (some 0) ∧ r.get [1] = some none :=
  ⟨_, _, rfl, rfl, rfl, rfl⟩

/-- The last assignment of the program, of an array of another shape, raises `ValueError`. -/
example : (Ca.step (· == ·) 0 (Ca.run (· == ·) 0 noArrays (program.take 3))
    (.assign 0 corner (.arr table none))).2 = .error .valueError := rfl

/-- The hypotheses of `C72_assigned_partial` and of `C72_assignable`. -/
example : ∃ c r, (Ca.run (· == ·) 0 noArrays
      ([.new table [1, 2] (some 1)] ++ [.assign 0 corner (.num 1)])).obj 0 = some c ∧
    getItem (· == ·) c corner = .ok r ∧ r.shape = [2] ∧
    ∀ j, Inside [2] j → ∃ x y, some (1 : Int) = some x ∧ r.get j = some y ∧
      Appears (· == ·) (some 1) x y :=
  C72_assigned_partial (· == ·) 0 [.new table [1, 2] (some 1)] ⟨[table], [(0, some 1)]⟩
    (.step _ _ _ _ _ (.new _ table [1, 2] (some 1) table_ok ⟨rfl, by decide⟩) (.nil _)) 0 0 (some 1)
    table rfl rfl corner [2] corner_shape (.num 1) (fun _ => some 1) (.num 1 [2])

/-- Those of `C72_bad_key`: a row that does not exist. -/
example : ∀ s, ¬ SelectionShape [.int 2] table.shape s := by
  intro s h
  cases h with
  | int i n key shape s h1 h2 h3 => exact absurd h2 (by decide)

/-- Those of `C72_frame`: two arrays of a program. -/
example : (Ca.run (· == ·) 0 noArrays
      ([.new table [1, 2] none, .new table [2, 2] (some 0)] ++ [.assign 1 corner (.num 5)])).obj 0 =
    (Ca.run (· == ·) 0 noArrays [.new table [1, 2] none, .new table [2, 2] (some 0)]).obj 0 :=
  C72_frame (· == ·) 0 _ ⟨[table, table], [(0, none), (1, some 0)]⟩
    (.step _ _ _ _ _ (.new _ table [1, 2] none table_ok ⟨rfl, by decide⟩)
      (.step _ _ _ _ _ (.new _ table [2, 2] (some 0) table_ok ⟨rfl, by decide⟩) (.nil _)))
    0 1 0 1 none (some 0) rfl rfl (by decide) corner (.num 5)

/-- A compressed array of one number. -/
def one (v : Int) (fill : Option Int) : CArray Int :=
  ⟨⟨[1], [1], none, fun _ => some fun _ => some v⟩, fill⟩

theorem one_stands (v : Int) (fill : Option Int) :
    Stands (· == ·) (.comp (one v fill))
      (tabulate [1] fun _ => if fill = some v then none else some v) := by
  refine .comp _ _ rfl (fun idx h => ?_) (fun idx h => ⟨v, if fill = some v then none else some v, rfl, ?_, ?_, ?_⟩)
  · exact if_neg fun hb => h ((inBounds_iff _ _).1 hb)
  · exact if_pos ((inBounds_iff _ _).2 h)
  · intro f hf he
    have : v = f := by simpa using he
    subst this
    exact if_pos hf
  · intro hf
    refine if_neg fun h => ?_
    have := hf v h
    simp at this

/-- The number of the elements that are missing. -/
def missing (l : List (Arr (Option Int))) : Py Int :=
  .ok (l.filter fun a => decide (a.get [0] = some none)).length

/-- The hypotheses of `C72_ufunc_partial`, with a compressed array, an array and a number. -/
example : ufunc (· == ·) missing .call none 1
      [.num 4, .comp (one 3 (some 3)), .arr (tabulate [1] fun _ => some 8)] = .ok 1 := by
  rw [C72_ufunc_partial (· == ·) missing .call (by decide) 0 _ _
    (.cons _ _ _ _ (.num 4) (.cons _ _ _ _ (one_stands 3 (some 3)) (.cons _ _ _ _ (.arr _) .nil)))
    (some 3) (by
      intro c hc
      simp only [List.mem_cons, Arg.comp.injEq, List.not_mem_nil, or_false, reduceCtorEq,
        false_or] at hc
      rw [hc]
      rfl) (by intro v hv; simp at hv)]
  rfl

/-- Those of `C72_in_place`: `c += c` for a compressed array without fill value. -/
example (fuel : Nat) : ufunc (· == ·) missing .call (some (one 3 none)) fuel
      [.comp (one 3 none)] = .error .runtimeError :=
  C72_in_place _ _ .call (by decide) _ _ _ _ (.cons _ _ _ _ (one_stands 3 none) .nil)
    (by intro c hc; simp at hc; rw [hc]) (by intro v hv; simp at hv)

/-- Those of `C72_scalar` and of `C72_method`. -/
example : ufunc (· == ·) missing .call none 10 [.comp (one 3 none), .scalar 3] =
    .error .typeError :=
  C72_scalar _ _ _ _ 9 _ (one 3 none) 3 (by simp) (by simp)

/-- The elements that are missing in the arrays given by position. -/
def missingOf (l : List (Pos Int)) (_ : List (String × Arg Int)) : Py Int :=
  .ok (l.filter fun p => match p with
    | .one (.arr a) => decide (a.get [0] = some none)
    | _ => false).length

/-- The hypotheses of `C72_function_partial`: compressed arrays with other fill values. -/
example : function (· == ·) missingOf [] 1
    [.one (.comp (one 3 (some 3))), .one (.comp (one 3 (some 4))), .seq [.num 1]] = .ok 1 := by
  rw [C72_function_partial (· == ·) missingOf [] (by simp) 0 _ _
    (.cons _ _ _ _ (.comp _ _ (one_stands 3 (some 3)))
      (.cons _ _ _ _ (.comp _ _ (one_stands 3 (some 4)))
        (.cons _ _ _ _ (.other _ (by simp)) .nil))) (by
      intro l hl c hc
      simp only [List.mem_cons, reduceCtorEq, false_or, Pos.seq.injEq, List.not_mem_nil,
        or_false] at hl
      rw [hl] at hc
      simp at hc)]
  rfl

/-- Those of `C72_nested`: `numpy.concatenate([c, c])`. -/
example (fuel : Nat) : function (· == ·) missingOf [] fuel
    [.seq [.comp (one 3 none), .comp (one 3 none)]] = .error .runtimeError :=
  C72_nested _ _ _ _ _ _ (one 3 none) List.mem_cons_self List.mem_cons_self

end CompCase

open CompCase in
/-- C72: the mask of an array that is assigned is lost: the data under it appear. -/
theorem C72_assign_counterexample : ¬ C72_assign_full := by
  intro h
  have := h (· == ·) 0 [.new table [1, 2] (some 1)] ⟨[table], [(0, some 1)]⟩ 0 0 1 table pair first
    corner _ _ (.step _ _ _ _ _ (.new _ table [1, 2] (some 1) table_ok ⟨rfl, by decide⟩) (.nil _))
    rfl rfl corner_shape (tabulate_arrOk _ _) rfl rfl [0] ⟨rfl, by
      intro i x n h1 h2
      cases i with
      | zero => cases h1; cases h2; decide
      | succ i => cases h1⟩ rfl
  exact absurd this (by decide)

open CompCase in
/-- C72: a compressed array and a scalar of numpy cannot be added. -/
theorem C72_ufunc_counterexample : ¬ C72_ufunc_full := by
  intro h
  have h1 := h (· == ·) missing 9 [.comp (one 3 none), .scalar 3] _
    (.cons _ _ _ _ (one_stands 3 none) (.cons _ _ _ _ (.scalar 3) .nil))
  rw [C72_scalar _ _ _ _ 9 _ (one 3 none) 3 (by simp) (by simp)] at h1
  cases h1

open CompCase in
/-- C72: compressed arrays with other fill values have not their own missing values in a
ufunc. -/
theorem C72_fill_counterexample : ¬ ∀ (eqv : Int → Int → Bool)
    (f : List (Arr (Option Int)) → Py Int) (fuel : Nat) (args : List (Arg Int))
    (arrays : List (Arr (Option Int))), AllStand eqv args arrays → (∀ v, .scalar v ∉ args) →
    ufunc eqv f .call none (fuel + 1) args = f arrays := by
  intro h
  have h1 := h (· == ·) missing 9 [.comp (one 3 (some 3)), .comp (one 3 (some 4))] _
    (.cons _ _ _ _ (one_stands 3 (some 3)) (.cons _ _ _ _ (one_stands 3 (some 4)) .nil))
    (by intro v hv; simp at hv)
  have h2 : ufunc (· == ·) missing .call none 10
      [.comp (one 3 (some 3)), .comp (one 3 (some 4))] = .ok 2 := rfl
  rw [h2] at h1
  exact absurd h1 (by show ¬ (Except.ok 2 = Except.ok 1); intro h; cases h)

open CompCase in
/-- C72: compressed arrays cannot be given in a list. -/
theorem C72_function_counterexample : ¬ C72_function_full := by
  intro h
  have h1 := h (· == ·) missingOf 9 [.seq [.comp (one 3 none)]] _
    (.cons _ _ _ _ (.seq _ _ (.cons _ _ _ _ (one_stands 3 none) .nil) ⟨_, List.mem_cons_self⟩) .nil)
  rw [C72_nested _ _ _ _ _ _ (one 3 none) List.mem_cons_self List.mem_cons_self] at h1
  cases h1

end Verif
