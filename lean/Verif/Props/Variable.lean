import Verif.Lemmas.Variable
import Verif.Props.Load
import Verif.Props.Chunks
import Verif.Props.PipelineCases

/-! C59: missing values. -/

namespace Verif

open Spec Nd Ds Upd Ld Vr

variable {P V : Type}

/-- C59, full statement for a masked array given to a variable, with or without the fill value
of the array: it is accepted, and the values of the variable are those of the array, missing
exactly where the array was masked. -/
def C59_full : Prop :=
  ∀ (V : Type) (n : Num V) (delayed : Bool) (name : String) (d : Arr V) (mask : List Nat → Bool)
    (f : V) (fill : Option V) (dims : List String) (props : Nat),
    (∀ g, fill = some g → n.eqv g f = true) →
    ∃ v, new n delayed name ⟨d, some (mask, f)⟩ dims fill props = .ok v ∧
      ∀ idx, (valuesOf n v).get idx =
        (d.get idx).map fun x => if mask idx = true then none else some x

/-- C59: the fill value given with a masked array is refused when its Python type is not the
type of the fill value of the array, whatever its value (a literal `0` for an array of
`numpy.int64`). -/
theorem C59_type_refused (n : Num V) (delayed : Bool) (name : String) (d : Arr V)
    (mask : List Nat → Bool) (f g : V) (hty : n.ty g ≠ n.ty f) (dims : List String)
    (props : Nat) :
    new n delayed name ⟨d, some (mask, f)⟩ dims (some g) props = .error .valueError := by
  simp [new, Chunk.asArray, Chunk.notEqual, hty, bind, Except.bind]

/-- C59: a masked array is accepted exactly when no fill value is given, or one of the same
type that is equal to the one of the array, or both are not a number. -/
theorem C59_accepted (n : Num V) (delayed : Bool) (name : String) (d : Arr V)
    (mask : List Nat → Bool) (f : V) (fill : Option V) (dims : List String) (props : Nat) :
    (∃ v, new n delayed name ⟨d, some (mask, f)⟩ dims fill props = .ok v) ↔
      ∀ g, fill = some g → n.ty g = n.ty f ∧
        (n.eqv g f = true ∨ (n.eqv g g = false ∧ n.eqv f f = false)) := by
  cases fill with
  | none => simp [new, Chunk.asArray, bind, Except.bind]
  | some g =>
    by_cases h1 : n.ty g = n.ty f <;> cases h2 : n.eqv g f <;> cases h3 : n.eqv g g <;>
      cases h4 : n.eqv f f <;>
      simp [new, Chunk.asArray, Chunk.notEqual, bind, Except.bind, h1, h2, h3, h4]

/-- The variable made of a masked array. -/
theorem new_masked {n : Num V} {delayed : Bool} {name : String} {d : Arr V}
    {mask : List Nat → Bool} {f : V} {fill : Option V} {dims : List String} {props : Nat}
    {v : Var V} (h : new n delayed name ⟨d, some (mask, f)⟩ dims fill props = .ok v) :
    v.name = name ∧ v.delayed = delayed ∧ v.dims = dims ∧ v.props = props ∧ v.fill = some f ∧
      ∀ idx, (valuesOf n v).get idx = (d.get idx).map fun x =>
        if n.eqv (if mask idx = true then f else x) f = true then none
        else some (if mask idx = true then f else x) := by
  simp only [new, bind, Except.bind] at h
  split at h
  · cases h
  · next r hr =>
    have := asArray_masked hr
    subst this
    cases h
    refine ⟨rfl, rfl, rfl, rfl, rfl, ?_⟩
    intro idx
    simp only [valuesOf, masked, Chunk.values]
    cases d.get idx with
    | none => cases mask idx <;> rfl
    | some x => cases mask idx <;> rfl

/-- C59: once accepted, the values are missing exactly where the array was masked if and only if
the masked elements are equal to the fill value (it is a number) and no other element is.
Missing for the full statement: the other arrays, and the refusals of `C59_accepted`
(`C59_counterexample`). -/
theorem C59_new_partial (n : Num V) (delayed : Bool) (name : String) (d : Arr V)
    (mask : List Nat → Bool) (f : V) (fill : Option V) (dims : List String) (props : Nat)
    (v : Var V) (h : new n delayed name ⟨d, some (mask, f)⟩ dims fill props = .ok v) :
    (∀ idx, (valuesOf n v).get idx =
        (d.get idx).map fun x => if mask idx = true then none else some x) ↔
      ∀ idx x, d.get idx = some x → n.eqv (if mask idx = true then f else x) f = mask idx := by
  obtain ⟨_, _, _, _, _, hv⟩ := new_masked h
  constructor
  · intro h1 idx x hx
    have := h1 idx
    rw [hv, hx] at this
    simp only [Option.map_some, Option.some.injEq] at this
    cases hm : mask idx <;> simp [hm] at this ⊢ <;> assumption
  · intro h1 idx
    rw [hv]
    cases hx : d.get idx with
    | none => rfl
    | some x =>
      have := h1 idx x hx
      cases hm : mask idx <;> simp [hm] at this ⊢ <;> simp [this]

/-- Numbers of one type. -/
def natNum : Num Nat := ⟨fun a b => decide (a = b), fun _ => 0⟩

/-- A pair is a type and a number: `(0, 5)` is the Python number `5`, `(1, 5)` the one of
numpy. -/
def typed : Num (Nat × Nat) := ⟨fun a b => decide (a.2 = b.2), fun a => a.1⟩

theorem C59_counterexample : ¬ C59_full := by
  intro h
  obtain ⟨v, hv, _⟩ := h (Nat × Nat) typed false "v" (full [1] (1, 5)) (fun _ => true) (1, 0)
    (some (0, 0)) ["x"] 0 (by intro g hg; cases hg; rfl)
  rw [C59_type_refused typed false "v" _ _ (1, 0) (0, 0) (by decide) ["x"] 0] at hv
  cases hv

/-- An element that is not masked but equal to the fill value is missing too. -/
theorem C59_equal_counterexample :
    ∃ v, new natNum false "v" ⟨full [1] 0, some (fun _ => false, 0)⟩ ["x"] none 0 = .ok v ∧
      (valuesOf natNum v).get [0] = some none ∧ (full [1] (0 : Nat)).get [0] = some 0 :=
  ⟨_, rfl, rfl, rfl⟩

/-- The condition of `C59_new_partial` is met by the array 7, 8 with the second element
masked. -/
example : ∃ v, new natNum false "v" ⟨tabulate [2] fun i => 7 + i.sum,
      some (fun i => decide (i = [1]), 99)⟩ ["x"] (some 99) 0 = .ok v ∧
    ∀ idx, (valuesOf natNum v).get idx = ((tabulate [2] fun i => 7 + i.sum).get idx).map
      fun x => if decide (idx = [1]) = true then none else some x := by
  refine ⟨_, rfl, (C59_new_partial natNum false "v" _ _ 99 (some 99) ["x"] 0 _ rfl).2 ?_⟩
  intro idx x hx
  by_cases h : idx = [1]
  · simp [h, natNum]
  · simp only [h, decide_false, Bool.false_eq_true, if_false, natNum, decide_eq_false_iff_not]
    simp only [tabulate] at hx
    split at hx
    · next hb =>
      cases hx
      have hi := (inBounds_iff _ _).1 hb
      obtain ⟨k, rfl⟩ := List.length_eq_one_iff.1 hi.1
      have hk := (inside_one 2 k).1 hi
      simp
      omega
    · cases hx

/-- C59: a failed assignment of `values` leaves the variable as it was. -/
theorem C59_setter_error (n : Num V) (v : Var V) (data : Chunk.Input V) (e : PyErr)
    (h : (setValues n v data).2 = .error e) : (setValues n v data).1 = v ∧ e = .valueError := by
  unfold setValues at h ⊢
  split
  · next hr =>
    rw [if_pos hr] at h
    cases h
    exact ⟨rfl, rfl⟩
  · next hr =>
    rw [if_neg hr] at h
    cases hc : Chunk.asArray (Chunk.notEqual n.ty n.eqv) data v.fill with
    | error e' =>
      rw [hc] at h
      cases h
      exact ⟨rfl, asArray_error hc⟩
    | ok r => rw [hc] at h; cases h

/-- C59, full statement for the assignment of an array that is not masked: the values become
those of the array (the documentation says that the fill value is removed). -/
def C59_setter_full : Prop :=
  ∀ (V : Type) (n : Num V) (v : Var V) (a : Arr V), a.shape.length = v.dims.length →
    (setValues n v ⟨a, none⟩).2 = .ok () ∧
      ∀ idx, (valuesOf n (setValues n v ⟨a, none⟩).1).get idx = (a.get idx).map some

/-- C59: an array of the right rank that is not masked is always accepted, the fill value is
kept, so the values become those of the array exactly when none of them is equal to the fill
value.  Missing: the other arrays (`C59_setter_counterexample`). -/
theorem C59_setter_partial (n : Num V) (v : Var V) (a : Arr V)
    (hr : a.shape.length = v.dims.length) :
    (setValues n v ⟨a, none⟩).2 = .ok () ∧ (setValues n v ⟨a, none⟩).1.fill = v.fill ∧
    ((∀ idx, (valuesOf n (setValues n v ⟨a, none⟩).1).get idx = (a.get idx).map some) ↔
      ∀ idx x f, a.get idx = some x → v.fill = some f → n.eqv x f = false) := by
  simp only [setValues, hr, ne_eq, not_true, if_false, Chunk.asArray, true_and]
  simp only [valuesOf, masked, Chunk.values]
  constructor
  · intro h idx x f hx hf
    have := h idx
    simp only [hx, Option.map_some, hf, Option.some.injEq] at this
    split at this
    · cases this
    · next hc => simpa using hc
  · intro h idx
    cases hx : a.get idx with
    | none => rfl
    | some x =>
      cases hf : v.fill with
      | none => rfl
      | some f => simp [h idx x f hx hf]

theorem C59_setter_counterexample : ¬ C59_setter_full := by
  intro h
  have := (h Nat natNum ⟨"v", false, ["x"], full [1] 1, some 0, 0⟩ (full [1] 0) rfl).2 [0]
  revert this
  decide

/-- C59: the assignment of a masked array makes the fill value of the array the one of the
variable; its values are those of a new variable made of this array. -/
theorem C59_setter_masked (n : Num V) (v : Var V) (d : Arr V) (mask : List Nat → Bool) (f : V)
    (hr : d.shape.length = v.dims.length) :
    ((setValues n v ⟨d, some (mask, f)⟩).2 = .ok () ↔
      ∀ g, v.fill = some g → n.ty g = n.ty f ∧
        (n.eqv g f = true ∨ (n.eqv g g = false ∧ n.eqv f f = false))) ∧
    ((setValues n v ⟨d, some (mask, f)⟩).2 = .ok () →
      (setValues n v ⟨d, some (mask, f)⟩).1.fill = some f ∧
      (setValues n v ⟨d, some (mask, f)⟩).1.dims = v.dims ∧
      ∀ idx, (valuesOf n (setValues n v ⟨d, some (mask, f)⟩).1).get idx =
        (d.get idx).map fun x => if n.eqv (if mask idx = true then f else x) f = true then none
          else some (if mask idx = true then f else x)) := by
  have hacc := C59_accepted n v.delayed v.name d mask f v.fill v.dims v.props
  cases hn : new n v.delayed v.name ⟨d, some (mask, f)⟩ v.dims v.fill v.props with
  | error e =>
    have hs : (setValues n v ⟨d, some (mask, f)⟩).2 ≠ .ok () := by
      simp only [new, bind, Except.bind] at hn
      simp only [setValues, hr, ne_eq, not_true, if_false]
      split at hn
      · next he => rw [he]; simp
      · cases hn
    constructor
    · constructor
      · intro h; exact absurd h hs
      · intro h
        obtain ⟨w, hw⟩ := hacc.2 h
        rw [hn] at hw
        cases hw
    · intro h; exact absurd h hs
  | ok w =>
    obtain ⟨_, _, h3, _, h5, h6⟩ := new_masked hn
    have hs : setValues n v ⟨d, some (mask, f)⟩ =
        ({ v with array := w.array, fill := w.fill }, .ok ()) := by
      simp only [new, bind, Except.bind] at hn
      simp only [setValues, hr, ne_eq, not_true, if_false]
      split at hn
      · cases hn
      · next he =>
        rw [he]
        cases hn
        rfl
    rw [hs]
    refine ⟨⟨fun _ => hacc.1 ⟨w, hn⟩, fun _ => rfl⟩, fun _ => ⟨h5, rfl, h6⟩⟩

/-- C59: `duplicate` succeeds exactly when the data has the rank of the variable and a fill value
that the variable accepts; the result has the other properties of the variable. -/
theorem C59_duplicate (n : Num V) (v : Var V) (data : Chunk.Input V) :
    ((∃ r, duplicate n v data = .ok r) ↔ data.array.shape.length = v.dims.length ∧
      ∀ mask f g, data.masked = some (mask, f) → v.fill = some g → n.ty g = n.ty f ∧
        (n.eqv g f = true ∨ (n.eqv g g = false ∧ n.eqv f f = false))) ∧
    (∀ e, duplicate n v data = .error e → e = .valueError) ∧
    ∀ r, duplicate n v data = .ok r → r.name = v.name ∧ r.delayed = v.delayed ∧
      r.dims = v.dims ∧ r.props = v.props ∧ r.array.shape = data.array.shape ∧
      (data.masked = none → r.fill = v.fill ∧ r.array = data.array) ∧
      ∀ mask f, data.masked = some (mask, f) → r.fill = some f := by
  obtain ⟨d, m⟩ := data
  cases m with
  | none =>
    have hn : new n v.delayed v.name ⟨d, none⟩ v.dims v.fill v.props =
        .ok ⟨v.name, v.delayed, v.dims, d, v.fill, v.props⟩ := rfl
    simp only [duplicate, bind, Except.bind, hn]
    split
    · next hr =>
      refine ⟨⟨?_, ?_⟩, ?_, ?_⟩
      · rintro ⟨r, h⟩; cases h
      · rintro ⟨h, _⟩; exact absurd h hr
      · intro e h; cases h; rfl
      · intro r h; cases h
    · next hr =>
      refine ⟨⟨fun _ => ⟨Classical.byContradiction hr, fun _ _ _ h => nomatch h⟩,
        fun _ => ⟨_, rfl⟩⟩, (fun e h => nomatch h), ?_⟩
      intro r h
      cases h
      exact ⟨rfl, rfl, rfl, rfl, rfl, fun _ => ⟨rfl, rfl⟩, (fun _ _ h => nomatch h)⟩
  | some p =>
    obtain ⟨mask, f⟩ := p
    have hacc := C59_accepted n v.delayed v.name d mask f v.fill v.dims v.props
    cases hn : new n v.delayed v.name ⟨d, some (mask, f)⟩ v.dims v.fill v.props with
    | error e =>
      simp only [duplicate, bind, Except.bind, hn]
      refine ⟨⟨?_, ?_⟩, ?_, ?_⟩
      · rintro ⟨r, h⟩; cases h
      · rintro ⟨_, h⟩
        obtain ⟨w, hw⟩ := hacc.2 fun g hg => h mask f g rfl hg
        rw [hn] at hw
        cases hw
      · intro e' h
        cases h
        simp only [new, bind, Except.bind] at hn
        split at hn
        · next he => cases hn; exact asArray_error he
        · cases hn
      · intro r h; cases h
    | ok w =>
      obtain ⟨h1, h2, h3, h4, h5, _⟩ := new_masked hn
      have hs : w.array.shape = d.shape := by
        simp only [new, bind, Except.bind] at hn
        split at hn
        · cases hn
        · next he =>
          have := asArray_masked he
          subst this
          cases hn
          rfl
      simp only [duplicate, bind, Except.bind, hn, hs]
      split
      · next hr =>
        refine ⟨⟨?_, ?_⟩, ?_, ?_⟩
        · rintro ⟨r, h⟩; cases h
        · rintro ⟨h, _⟩; exact absurd h hr
        · intro e h; cases h; rfl
        · intro r h; cases h
      · next hr =>
        refine ⟨⟨fun _ => ⟨Classical.byContradiction hr, ?_⟩, fun _ => ⟨_, rfl⟩⟩,
          (fun e h => nomatch h), ?_⟩
        · intro mask' f' g h hg
          cases h
          exact hacc.1 ⟨w, hn⟩ g hg
        · intro r h
          cases h
          exact ⟨h1, h2, h3, h4, hs, (fun h => nomatch h), (fun _ _ h => by cases h; exact h5)⟩

/-- C59: `fill` makes all the values missing if the fill value is a number; without fill value
nothing changes.  Name, dimensions, shape and fill value are kept. -/
theorem C59_fill (n : Num V) (v : Var V) :
    (fillVar v).name = v.name ∧ (fillVar v).dims = v.dims ∧ (fillVar v).fill = v.fill ∧
    (fillVar v).array.shape = v.array.shape ∧ (v.fill = none → fillVar v = v) ∧
    ∀ f, v.fill = some f → ∀ idx, Inside v.array.shape idx →
      (valuesOf n (fillVar v)).get idx = some (if n.eqv f f = true then none else some f) := by
  obtain ⟨name, delayed, dims, array, fill, props⟩ := v
  cases fill with
  | none => exact ⟨rfl, rfl, rfl, rfl, fun _ => rfl, by intro f h; cases h⟩
  | some f =>
    refine ⟨rfl, rfl, rfl, rfl, (fun h => nomatch h), ?_⟩
    intro g hg idx hi
    cases hg
    simp [fillVar, valuesOf, masked, Chunk.values, full, (inBounds_iff _ _).2 hi]

/-- C59: indexing a variable (`v[key]`) gives the same values, missing or not, as indexing
`v.values`, in memory and with dask. -/
theorem C59_item (n : Num V) (v : Var V) (key : List Ix) :
    item n v key = getitem 0 key (valuesOf n v) := by
  unfold item
  split
  · rfl
  · simp only [valuesOf, masked_map, getitem_map, bind, Except.bind]
    cases getitem 0 key v.array <;> rfl

/-- C59: selecting with `isel` and taking the values commute, exceptions included. -/
theorem C59_isel (n : Num V) (v : Var V) (key : List Ix) :
    (v.isel key).map (valuesOf n) = getitem 0 key (valuesOf n v) := by
  simp only [Var.isel, valuesOf, masked_map, getitem_map, bind, Except.bind]
  cases getitem 0 key v.array with
  | error e => rfl
  | ok a => simp only [Except.map, valuesOf, masked_map]

/-- C59: the same for `delete`. -/
theorem C59_delete (n : Num V) (v : Var V) (ixs : Indexer) (dim : String) (ax : Nat)
    (h : v.dims.idxOf? dim = some ax) :
    (deleteVar ixs dim v).map (valuesOf n) = delete ax ixs (valuesOf n v) := by
  simp only [deleteVar, h, valuesOf, masked_map, delete_map, bind, Except.bind]
  cases delete ax ixs v.array with
  | error e => rfl
  | ok a => simp only [Except.map, valuesOf, masked_map]

/-- C59, full statement for `concat`: the values of the result are the values of the operands
put together. -/
def C59_concat_full : Prop :=
  ∀ (V : Type) (n : Num V) (v : Var V) (others : List (Var V)) (dim : String) (ax : Nat)
    (r : Var V), v.dims.idxOf? dim = some ax → concatVar v others dim = .ok r →
    ∀ a, concatenate ax ((v :: others).map (valuesOf n)) = .ok a → valuesOf n r = a

/-- C59: when the operands have the same fill value, concatenating and taking the values
commute.  Missing: operands with different fill values, which are accepted
(`C59_concat_counterexample`). -/
theorem C59_concat_partial (n : Num V) (v : Var V) (others : List (Var V)) (dim : String)
    (ax : Nat) (r : Var V) (hax : v.dims.idxOf? dim = some ax)
    (hfill : ∀ w ∈ others, w.fill = v.fill) (h : concatVar v others dim = .ok r) (a : Arr (Option V))
    (ha : concatenate ax ((v :: others).map (valuesOf n)) = .ok a) : valuesOf n r = a := by
  have hmap : (v :: others).map (valuesOf n) = ((v :: others).map (·.array)).map
      (mapArr (shown n v.fill)) := by
    rw [List.map_map]
    apply List.map_congr_left
    intro w hw
    have hw' : w.fill = v.fill := by
      rcases List.mem_cons.1 hw with rfl | hw
      · rfl
      · exact hfill w hw
    simp only [valuesOf, masked_map, hw', Function.comp_apply]
  rw [hmap, concatenate_map] at ha
  simp only [concatVar, hax] at h
  split at h
  · cases h
  split at h
  · cases h
  simp only [List.map_cons] at ha
  cases hc : concatenate ax (v.array :: others.map (·.array)) with
  | error e => rw [hc] at ha; cases ha
  | ok b =>
    rw [hc] at ha h
    cases ha
    cases h
    simp only [valuesOf, masked_map]

/-- A missing value of the second operand is read as the number 9, and its number 0 is
missing. -/
theorem C59_concat_counterexample : ¬ C59_concat_full := by
  intro h
  have := congrArg (fun a => a.get [1]) (h Nat natNum ⟨"v", false, ["x"], full [1] 0, some 0, 0⟩
    [⟨"v", false, ["x"], full [1] 9, some 9, 0⟩] "x" 0 _ (by decide) rfl _ rfl)
  revert this
  decide

/-- A variable with two elements, all equal to `x`, and the fill value 0. -/
def pairOf (x : Nat) : Var Nat := ⟨"v", false, ["x"], full [2] x, some 0, 0⟩

/-- The hypotheses of `C59_concat_partial` are met by two variables of two elements. -/
example : ∃ r a, concatVar (pairOf 0) [pairOf 4] "x" = .ok r ∧
    concatenate 0 ([pairOf 0, pairOf 4].map (valuesOf natNum)) = .ok a ∧
    valuesOf natNum r = a ∧ a.get [1] = some none ∧ a.get [2] = some (some 4) :=
  ⟨_, _, rfl, rfl, C59_concat_partial natNum (pairOf 0) [pairOf 4] "x" 0 _ (by decide)
    (by intro w hw; rw [List.mem_singleton.1 hw]; rfl) rfl _ rfl, rfl, rfl⟩

/-- C59: selecting in a dataset selects in the values of each of its variables. -/
theorem C59_dataset_isel (n : Num V) (ds ds' : Dataset V) (slices : List (String × Ix))
    (h : isel ds slices = .ok ds') (v' : Var V) (hv : v' ∈ ds'.vars) :
    ∃ v ∈ ds.vars, v.name = v'.name ∧ v.dims = v'.dims ∧
      getitem 0 (v.dims.map fun d => match slices.lookup d with
        | none => .slice .all
        | some ix => ix) (valuesOf n v) = .ok (valuesOf n v') := by
  unfold isel at h
  split at h
  · cases h
  simp only [bind, Except.bind] at h
  split at h
  · cases h
  · next vars hvars =>
    rw [(mk_spec _ _ _ _ _ _ h).2.1] at hv
    rcases foldl_setVar_mem _ _ _ hv with hv | hv
    · obtain ⟨v, hvm, hve⟩ := mapPy_mem _ _ _ hvars v' hv
      have hval := C59_isel n v (v.dims.map (sliceOf slices))
      rw [hve] at hval
      refine ⟨v, hvm, ?_, ?_, hval.symm⟩
      all_goals
        simp only [Var.isel, bind, Except.bind] at hve
        split at hve
        · cases hve
        · cases hve; rfl
    · cases hv

/-- C59: concatenating datasets concatenates the values of each variable, when the variables of
its name have the same fill value and agree on the other dimensions.  Missing: the other fill
values (`C59_concat_counterexample`) and shapes (`C43_concat_counterexample`). -/
theorem C59_dataset_concat_partial (n : Num V) (ds ds' : Dataset V) (others : List (Dataset V))
    (dim : String) (h : concat ds others dim = .ok ds') (v' : Var V) (hv : v' ∈ ds'.vars)
    (hfill : ∀ v ∈ ds.vars, v.name = v'.name → ∀ o ∈ others, ∀ w, getVar o.vars v.name = some w →
      w.fill = v.fill) :
    ∃ v ∈ ds.vars, v.name = v'.name ∧ v.dims = v'.dims ∧ (dim ∉ v.dims → v' = v) ∧
      ∃ ws, mapPy (fun o => getVarE o.vars v.name) others = .ok ws ∧
        ∀ ax, v.dims.idxOf? dim = some ax → ∀ a,
          concatenate ax ((v :: ws).map (valuesOf n)) = .ok a → valuesOf n v' = a := by
  unfold concat at h
  split at h
  · cases h
  split at h
  · cases h
  simp only [bind, Except.bind] at h
  split at h
  · cases h
  · next vars hvars =>
    rw [(mk_spec _ _ _ _ _ _ h).2.1] at hv
    rcases foldl_setVar_mem _ _ _ hv with hv | hv
    · obtain ⟨v, hvm, hve⟩ := mapPy_mem _ _ _ hvars v' hv
      split at hve
      · cases hve
      · next ws hws =>
        have hnd : v.name = v'.name ∧ v.dims = v'.dims ∧ (dim ∉ v.dims → v' = v) := by
          simp only [concatVar] at hve
          split at hve
          · cases hve
          split at hve
          · cases hve
          split at hve
          · cases hve; exact ⟨rfl, rfl, fun _ => rfl⟩
          · next ax hax =>
            have hin : dim ∈ v.dims := List.mem_of_getElem? (idxOf?_getElem hax)
            split at hve
            · cases hve; exact ⟨rfl, rfl, fun h => absurd hin h⟩
            · cases hve; exact ⟨rfl, rfl, fun _ => rfl⟩
            · cases hve
        refine ⟨v, hvm, hnd.1, hnd.2.1, hnd.2.2, ws, hws, ?_⟩
        intro ax hax a ha
        refine C59_concat_partial n v ws dim ax v' hax ?_ hve a ha
        intro w hw
        obtain ⟨o, ho, hoe⟩ := mapPy_mem _ _ _ hws w hw
        simp only [getVarE] at hoe
        split at hoe
        · cases hoe
        · next w' hw' =>
          cases hoe
          exact hfill v hvm hnd.1 o ho w hw'
    · cases hv

/-- C59, full statement for `load`: the values that the partitions hold, missing or not, are the
values of the loaded dataset, one partition after the other. -/
def C59_load_full : Prop :=
  ∀ (P V : Type) (n : Num V) (o : Opts V) (st : Store P V) (listing : List P)
    (filters : P → Bool) (size : P → Nat) (other : String → Nat) (zds : Dataset V),
    Uniform o.dim size other st → (∀ iv, o.imm = some iv → GoodImm o.dim other st iv) →
    (∀ q ∈ listing, filters q = true → ∃ vars, st q = some vars) →
    load o st listing filters = .ok (some zds) →
    ∀ v' ∈ zds.vars, ∀ (k : Nat) q vars v, (listing.filter filters)[k]? = some q →
      st q = some vars → v ∈ vars → v.name = v'.name → ∀ ax : Nat, v.dims[ax]? = some o.dim →
      ∀ idx j, idx[ax]? = some j → j < size q →
        (valuesOf n v').get (idx.set ax ((((listing.filter filters).take k).map size).sum + j)) =
          (valuesOf n v).get idx

/-- C59: when the arrays of the same name have the same fill value in all the partitions, a load
returns their values, missing or not.  Missing: partitions with different fill values, which
`insert` accepts by default (`C59_load_counterexample`, `C59_insert_counterexample`). -/
theorem C59_load_partial (n : Num V) (o : Opts V) (st : Store P V) (listing : List P)
    (filters : P → Bool) (size : P → Nat) (other : String → Nat) (zds : Dataset V)
    (hu : Uniform o.dim size other st)
    (himm : ∀ iv, o.imm = some iv → GoodImm o.dim other st iv)
    (hst : ∀ q ∈ listing, filters q = true → ∃ vars, st q = some vars)
    (hfill : ∀ p q vs ws, st p = some vs → st q = some ws → ∀ v ∈ vs, ∀ w ∈ ws,
      v.name = w.name → v.fill = w.fill)
    (h : load o st listing filters = .ok (some zds)) (v' : Var V) (hv' : v' ∈ zds.vars)
    (k : Nat) (q : P) (vars : List (Var V)) (v : Var V)
    (hk : (listing.filter filters)[k]? = some q) (hq : st q = some vars) (hv : v ∈ vars)
    (hn : v.name = v'.name) (ax : Nat) (hax : v.dims[ax]? = some o.dim) (idx : List Nat) (j : Nat)
    (hj : idx[ax]? = some j) (hjs : j < size q) :
    (valuesOf n v').get (idx.set ax ((((listing.filter filters).take k).map size).sum + j)) =
      (valuesOf n v).get idx := by
  have hq' := List.mem_filter.1 (List.mem_of_getElem? hk)
  obtain ⟨z, hz, hw, _⟩ := C54_load o st listing filters size other hu hst himm
    ⟨q, hq'.1, hq'.2⟩
  rw [h] at hz
  cases hz
  have hval := ((hw.values v' hv' k q vars v hk hq hv hn).2.1 ax hax).2 idx j hj hjs
  have hf : v.fill = v'.fill := by
    rcases load_fill h v' hv' with ⟨q0, vs0, v0, _, e2, e3, e4, e5⟩ | ⟨w, hw1, hw2⟩
    · rw [← e5]
      exact hfill q q0 vars vs0 hq e2 v hv v0 e3 (hn.trans e4.symm)
    · cases hi : o.imm with
      | none => rw [hi] at hw1; simp at hw1
      | some iv =>
        rw [hi] at hw1
        exact absurd (hw2.trans hn.symm) ((himm iv hi).fresh q vars hq v hv w (by simpa using hw1))
  simp only [valuesOf, masked, Chunk.values, hval, hf]

namespace FillCase

/-- Partitions with one record; the fill value is 0 in the first and `f` in the second, and both
records are missing. -/
def parts (f : Nat) (p : Nat) : Option (List (Var Nat)) :=
  if p = 0 then some [⟨"z", true, ["x"], full [1] 0, some 0, 0⟩]
  else if p = 1 then some [⟨"z", true, ["x"], full [1] f, some f, 0⟩]
  else none

theorem cases_parts (f p : Nat) (vars : List (Var Nat)) (h : parts f p = some vars) :
    (p = 0 ∧ vars = [⟨"z", true, ["x"], full [1] 0, some 0, 0⟩]) ∨
    (p = 1 ∧ vars = [⟨"z", true, ["x"], full [1] f, some f, 0⟩]) := by
  unfold parts at h
  split at h
  · cases h; exact .inl ⟨‹_›, rfl⟩
  · split at h
    · cases h; exact .inr ⟨‹_›, rfl⟩
    · cases h

theorem uniform (f : Nat) : Uniform "x" (fun _ => 1) (fun _ => 0) (parts f) := by
  refine ⟨?_, ?_, ?_⟩
  · refine ⟨?_, ?_⟩
    · intro p vars h
      rcases cases_parts f p vars h with ⟨_, rfl⟩ | ⟨_, rfl⟩ <;>
        simp [GoodVars, full_arrOk]
    · intro p q vs ws hp hq
      rcases cases_parts f p vs hp with ⟨_, rfl⟩ | ⟨_, rfl⟩ <;>
        rcases cases_parts f q ws hq with ⟨_, rfl⟩ | ⟨_, rfl⟩ <;> simp
  · intro p q vs ws hp hq v hv
    rcases cases_parts f p vs hp with ⟨_, rfl⟩ | ⟨_, rfl⟩ <;>
      rcases cases_parts f q ws hq with ⟨_, rfl⟩ | ⟨_, rfl⟩ <;> simp_all
  · intro p vs hp v hv
    rcases cases_parts f p vs hp with ⟨_, rfl⟩ | ⟨_, rfl⟩ <;>
      (simp only [List.mem_singleton] at hv; subst hv; rfl)

def opts : Opts Nat := ⟨"x", true, none, none⟩

end FillCase

/-- The missing value of the second partition is read as the number 9. -/
theorem C59_load_counterexample : ¬ C59_load_full := by
  intro h
  have := h Nat Nat natNum FillCase.opts (FillCase.parts 9) [0, 1] (fun _ => true) (fun _ => 1)
    (fun _ => 0) _ (FillCase.uniform 9) (by intro iv hi; cases hi)
    (by
      intro q hq _
      simp only [List.mem_cons, List.not_mem_nil, or_false] at hq
      rcases hq with rfl | rfl
      · exact ⟨_, rfl⟩
      · exact ⟨_, rfl⟩) rfl _ (List.mem_cons_self ..) 1 1 _ _ rfl rfl
    (List.mem_cons_self ..) rfl 0 rfl [0] 0 rfl (by decide)
  revert this
  decide

/-- The hypotheses of `C59_load_partial` are met when the fill values are the same. -/
example : ∃ zds v', load FillCase.opts (FillCase.parts 0) [0, 1] (fun _ => true) = .ok (some zds) ∧
    v' ∈ zds.vars ∧ (valuesOf natNum v').get [1] = some none := by
  refine ⟨_, _, rfl, List.mem_cons_self .., ?_⟩
  refine (C59_load_partial natNum FillCase.opts (FillCase.parts 0) [0, 1] (fun _ => true)
    (fun _ => 1) (fun _ => 0) _ (FillCase.uniform 0) (by intro iv hi; cases hi) ?_ ?_ rfl _
    (List.mem_cons_self ..) 1 1 _ _ rfl rfl (List.mem_cons_self ..) rfl 0 rfl [0] 0 rfl
    (by decide)).trans rfl
  · intro q hq _
    simp only [List.mem_cons, List.not_mem_nil, or_false] at hq
    rcases hq with rfl | rfl
    · exact ⟨_, rfl⟩
    · exact ⟨_, rfl⟩
  · intro p q vs ws hp hq v hv w hw _
    rcases FillCase.cases_parts 0 p vs hp with ⟨_, rfl⟩ | ⟨_, rfl⟩ <;>
      rcases FillCase.cases_parts 0 q ws hq with ⟨_, rfl⟩ | ⟨_, rfl⟩ <;>
      (rw [List.mem_singleton.1 hv, List.mem_singleton.1 hw])

namespace FillCase

def metas : List (VarMeta Int) := [⟨"key", ["x"], none, 0⟩, ⟨"z", ["x"], some 0, 0⟩]

def obj : Sch.Obj Int :=
  { axis := "key", keys := ["key"], dims := ["x"], metas := metas, dim := "x",
    imm := false, readOnly := false }

/-- One record of the partition `key`; `z` has the value and the fill value `f`. -/
def record (key f : Int) : Dataset Int :=
  { dims := [("x", 1)],
    vars := [⟨"key", true, ["x"], full [1] key, none, 0⟩, ⟨"z", true, ["x"], full [1] f, some f, 0⟩],
    attrs := [], chunks := [], limit := 1, delayed := true }

def empty : Sch.Files (List Int) Int :=
  { config := .ok (Sch.Config.mk "key" ["key"] ["x"] metas), parts := fun _ => none, imm := none }

/-- The insertion of a dataset, without validation. -/
def inserted (ds : Dataset Int) (fs : Sch.Files (List Int) Int) :
    Dataset Int × Sch.Files (List Int) Int × Py (List (List Int)) :=
  Sch.insert PipeCase.world obj .never false none none ds fs

def intNum : Num Int := ⟨fun a b => decide (a = b), fun _ => 0⟩

end FillCase

/-- C59: `insert` accepts, without validation, a dataset whose fill value is not the one of the
collection.  Both records inserted here are missing; after the load the second one is the
number 9. -/
theorem C59_insert_counterexample :
    (FillCase.inserted (FillCase.record 1 0) FillCase.empty).2.2 = .ok [[1]] ∧
    (FillCase.inserted (FillCase.record 2 9)
      (FillCase.inserted (FillCase.record 1 0) FillCase.empty).2.1).2.2 = .ok [[2]] ∧
    (∀ key f, ∃ v, getVar (FillCase.record key f).vars "z" = some v ∧
      (valuesOf FillCase.intNum v).get [0] = some none) ∧
    ∃ zds v, Sch.load PipeCase.world FillCase.obj (fun _ _ => true) true none (fun _ => true) none
        (FillCase.inserted (FillCase.record 2 9)
          (FillCase.inserted (FillCase.record 1 0) FillCase.empty).2.1).2.1 = .ok (some zds) ∧
      getVar zds.vars "z" = some v ∧ (valuesOf FillCase.intNum v).get [0] = some none ∧
      (valuesOf FillCase.intNum v).get [1] = some (some 9) := by
  refine ⟨rfl, rfl, ?_, _, _, rfl, rfl, rfl, rfl⟩
  intro key f
  refine ⟨_, rfl, ?_⟩
  simp [valuesOf, masked, Chunk.values, full, inBounds, FillCase.intNum]

end Verif
