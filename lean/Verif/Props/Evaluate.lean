import Verif.Lemmas.Evaluate
import Verif.Props.Variable

/-!
C63: the evaluation of a delayed dataset.

`Dataset.persist` (with or without compression) and `Dataset.rechunk`, in any number and any
order, keep the description, the values and the missing values of every variable, and the
attributes of the dataset; they do not raise if the sizes of blocks asked for are not zero.
`to_dict` then returns these values.  `compute` returns the same data in memory if the fill
values are values of the type of the elements; otherwise it raises as soon as the dataset was
persisted.  The method `persist` of a variable breaks the variable.
-/

namespace Verif

open Nd Ds Vr Ev Spec

variable {V : Type}

/-- The method `persist` is called on variables of the dataset. -/
def Spec.Known (ds : Dataset V) : Ev.Op → Prop
  | .persistVar n => n ∈ ds.vars.map (·.name)
  | _ => True

/-- C63, in full: the steps do not raise, the data stays the same, and `compute` returns it. -/
def C63_full : Prop :=
  ∀ (V : Type) (lib : Lib V), Usual lib → ∀ (grid : String → List (List Nat)) (ds : Dataset V),
    Lazy grid ds → ∀ ops : List Ev.Op, (∀ o ∈ ops, Positive o) → (∀ o ∈ ops, Known ds o) →
    ∃ l, run lib ops (ofDataset grid ds) = .ok l ∧ Pairs (SameLazy lib) ds.vars l.vars ∧
      ∃ r, compute lib l = .ok r ∧ Pairs (SameEager lib) ds.vars r.vars

/-- C63, without the method of the variables: the steps do not raise. -/
theorem C63_accepted_partial (lib : Lib V) (hu : Usual lib) (grid : String → List (List Nat))
    (ds : Dataset V) (hl : Lazy grid ds) (ops : List Ev.Op) (hn : ∀ o ∈ ops, NotVar o)
    (hp : ∀ o ∈ ops, Positive o) : ∃ l, run lib ops (ofDataset grid ds) = .ok l :=
  (inv_run hu hl.consistent hl.arrays ops hn (inv_start lib hl)).2 hp

/-- C63, without the method of the variables: after any steps that do not raise, the variables
are those of the start in the same order, with the same description, values and missing values;
the attributes and the sizes of chunks are the same, and no dimension has another size. -/
theorem C63_values_partial (lib : Lib V) (hu : Usual lib) (grid : String → List (List Nat))
    (ds : Dataset V) (hl : Lazy grid ds) (ops : List Ev.Op) (hn : ∀ o ∈ ops, NotVar o)
    (l : LDataset V) (h : run lib ops (ofDataset grid ds) = .ok l) :
    Pairs (SameLazy lib) ds.vars l.vars ∧ l.attrs = ds.attrs ∧ l.chunks = ds.chunks ∧
      l.limit = ds.limit ∧ ∀ d n, l.dims.lookup d = some n → ds.dims.lookup d = some n := by
  have hi := (inv_run hu hl.consistent hl.arrays ops hn (inv_start lib hl)).1 l h
  exact ⟨pairs_mono _ _ hi.vars fun _ _ _ hv => rep_same hv.rep, hi.attrs, hi.chunks, hi.limit,
    hi.dims⟩

/-- C63: `dask.persist` and `dask.compute` of a variable of the dataset, after any such steps,
give a variable of the same description, values and missing values. -/
theorem C63_dask (lib : Lib V) (hu : Usual lib) (grid : String → List (List Nat))
    (ds : Dataset V) (hl : Lazy grid ds) (ops : List Ev.Op) (hn : ∀ o ∈ ops, NotVar o)
    (l : LDataset V) (h : run lib ops (ofDataset grid ds) = .ok l)
    (auto : List Nat → List (List Nat)) (ha : ∀ s, (auto s).map List.sum = s) :
    Pairs (fun w v => (∃ v', v.daskPersist lib = .ok v' ∧ SameLazy lib w v') ∧
      ∃ v', v.daskCompute lib auto = .ok v' ∧ SameLazy lib w v') ds.vars l.vars := by
  have hi := (inv_run hu hl.consistent hl.arrays ops hn (inv_start lib hl)).1 l h
  refine pairs_mono _ _ hi.vars fun w _ v hv => ⟨?_, ?_⟩
  · obtain ⟨v', e, hr⟩ := rep_daskPersist hv.rep
    exact ⟨v', e, rep_same hr⟩
  · obtain ⟨v', e, hr⟩ := rep_daskCompute hv.rep ha
    exact ⟨v', e, rep_same hr⟩

theorem notEqual_self (n : Num V) (f : V) : Chunk.notEqual n.ty n.eqv f f = false := by
  unfold Chunk.notEqual
  cases n.eqv f f <;> simp

theorem new_result {lib : Lib V} (hu : Usual lib) {p : Bool} {w : Var V} {v : LVar V}
    (h : VarInv lib p w v) (hc : p = true → ∀ f, w.fill = some f → lib.conv f = f) :
    ∃ u, new lib.num false v.name (v.body.result lib) v.dims v.fill v.props = .ok u ∧
      SameEager lib w u ∧ u.array.shape = w.array.shape ∧ (p = false → u.array = w.array) := by
  have hr := h.rep
  have plain : v.body.result lib = ⟨w.array, none⟩ → ∃ u,
      new lib.num false v.name (v.body.result lib) v.dims v.fill v.props = .ok u ∧
      SameEager lib w u ∧ u.array.shape = w.array.shape ∧ (p = false → u.array = w.array) := by
    intro e
    refine ⟨⟨v.name, false, v.dims, w.array, v.fill, v.props⟩, ?_, ?_, rfl, fun _ => rfl⟩
    · simp [e, new, Chunk.asArray, bind, Except.bind]
    · refine ⟨hr.name, hr.dims, hr.fill, hr.props, rfl, ?_⟩
      simp only [valuesOf, hr.fill]
  cases hp : p with
  | false =>
    obtain ⟨a, e⟩ := h.fresh hp
    rw [hp] at plain
    refine plain ?_
    have := hr.raw
    rw [e] at this ⊢
    simp only [Body.raw] at this
    simp only [Body.result, Body.raw, this]
  | true =>
    rw [hp] at plain
    rcases Option.eq_none_or_eq_some v.fill with hf | ⟨f, hf⟩
    · refine plain ?_
      have hk := hr.kind
      have hraw := hr.raw
      cases hb : v.body with
      | plain a => rw [hb] at hraw; simp only [Body.result, hraw]
      | tuple b => exact absurd hb (hk.1 b)
      | masked a m g =>
        obtain ⟨f, hf', _⟩ := hk.2.2 a m g hb
        rw [hf] at hf'; cases hf'
      | compressed s g q =>
        have := hk.2.1 s g q hb
        rw [hf] at this
        subst this
        rw [hb] at hraw
        simp only [Body.result, hraw]
    · obtain ⟨a, m, e⟩ := h.persisted hp f hf
      have hcf : lib.conv f = f := hc hp f (by rw [← hr.fill]; exact hf)
      rw [hcf] at e
      have hraw : a = w.array := by have := hr.raw; rw [e] at this; exact this
      subst hraw
      let arr : Arr V :=
        { shape := w.array.shape
          get := fun idx => if m idx = true then (w.array.get idx).map fun _ => f
            else w.array.get idx }
      refine ⟨⟨v.name, false, v.dims, arr, some f, v.props⟩, ?_, ?_, rfl, fun hp => (nomatch hp)⟩
      · simp [e, hf, arr, new, Body.result, Chunk.asArray, notEqual_self, bind, Except.bind]
      · have hwf : w.fill = some f := by rw [← hr.fill]; exact hf
        refine ⟨hr.name, hr.dims, hwf.symm, hr.props, rfl, ?_⟩
        simp only [valuesOf, masked, hwf, arr]
        congr 1
        funext idx
        simp only [Chunk.values]
        cases hx : w.array.get idx with
        | none => cases m idx <;> simp
        | some x =>
          cases hm : m idx with
          | false => simp
          | true =>
            obtain ⟨y, g, hg, hy, he⟩ := hr.hidden idx (by rw [e]; exact hm)
            rw [hf] at hg; cases hg
            rw [hx] at hy; cases hy
            simp [he, hu.refl _ _ he]

/-- C63, for fill values of the type of the elements: `compute` returns a dataset in memory with
the same variables, attributes and sizes of chunks. -/
theorem C63_compute_partial (lib : Lib V) (hu : Usual lib) (grid : String → List (List Nat))
    (ds : Dataset V) (hl : Lazy grid ds) (ops : List Ev.Op) (hn : ∀ o ∈ ops, NotVar o)
    (hc : ∀ w ∈ ds.vars, ∀ f, w.fill = some f → lib.conv f = f)
    (l : LDataset V) (h : run lib ops (ofDataset grid ds) = .ok l) :
    ∃ r, compute lib l = .ok r ∧ Pairs (SameEager lib) ds.vars r.vars ∧ Consistent r ∧
      r.delayed = false ∧ r.attrs = ds.attrs ∧ r.chunks = ds.chunks ∧ r.limit = ds.limit := by
  have hi := (inv_run hu hl.consistent hl.arrays ops hn (inv_start lib hl)).1 l h
  obtain ⟨vs, e1, h1⟩ := pairs_mapPy
    (S := fun w u => SameEager lib w u ∧ u.array.shape = w.array.shape)
    (f := fun v => new lib.num false v.name (v.body.result lib) v.dims v.fill v.props) _ _ hi.vars
    (by
      intro w hw v hv
      obtain ⟨u, h1, h2, h3, _⟩ := new_result hu hv fun _ f hf => hc w hw f hf
      exact ⟨u, h1, h2, h3⟩)
  have hnames : vs.map (·.name) = ds.vars.map (·.name) :=
    pairs_names _ _ h1 fun _ _ hr => hr.1.name
  obtain ⟨dims, e2, _⟩ := mk_ok vs l.attrs l.chunks l.limit false ds.dims
    (by rw [hnames]; exact hl.consistent.names)
    (by intro v hv; obtain ⟨w, _, hr⟩ := pairs_mem _ _ h1 v hv; exact hr.1.eager)
    (by
      intro v hv
      obtain ⟨w, hw, hr⟩ := pairs_mem _ _ h1 v hv
      have := hl.consistent.sizes w hw
      simp only [Agrees, hr.1.dims, hr.2]
      exact this)
  refine ⟨_, ?_, pairs_mono _ _ h1 fun _ _ _ hr => hr.1, (mk_spec _ _ _ _ _ _ e2).1, rfl, hi.attrs,
    hi.chunks, hi.limit⟩
  simp only [compute, e1, bind, Except.bind]
  exact e2

/-- C63: if the dataset was only rechunked, `compute` returns the arrays themselves, whatever
the fill values are. -/
theorem C63_compute_fresh (lib : Lib V) (hu : Usual lib) (grid : String → List (List Nat))
    (ds : Dataset V) (hl : Lazy grid ds) (ops : List (String → List Chunk.ChunkSpec))
    (l : LDataset V) (h : run lib (ops.map .rechunk) (ofDataset grid ds) = .ok l) :
    ∃ r, compute lib l = .ok r ∧ r.delayed = false ∧
      Pairs (fun w u => u = { w with delayed := false }) ds.vars r.vars := by
  have hp : persists (ops.map .rechunk) = false := by
    simp [persists]
  have hi := (inv_run hu hl.consistent hl.arrays (ops.map .rechunk)
    (by intro o ho; obtain ⟨s, _, rfl⟩ := List.mem_map.1 ho; trivial) (inv_start lib hl)).1 l h
  rw [hp] at hi
  obtain ⟨vs, e1, h1⟩ := pairs_mapPy
    (S := fun w u => u = { w with delayed := false })
    (f := fun v => new lib.num false v.name (v.body.result lib) v.dims v.fill v.props) _ _ hi.vars
    (by
      intro w hw v hv
      obtain ⟨u, h1, h2, _, h4⟩ := new_result hu hv fun hp => (nomatch hp)
      refine ⟨u, h1, ?_⟩
      obtain ⟨n, d, ds, a, f, p⟩ := u
      obtain ⟨wn, wd, wds, wa, wf, wp⟩ := w
      have := h4 rfl
      have := h2.name; have := h2.dims; have := h2.fill; have := h2.props; have := h2.eager
      simp_all)
  have hnames : vs.map (·.name) = ds.vars.map (·.name) :=
    pairs_names _ _ h1 fun _ _ hr => by rw [hr]
  obtain ⟨dims, e2, _⟩ := mk_ok vs l.attrs l.chunks l.limit false ds.dims
    (by rw [hnames]; exact hl.consistent.names)
    (by intro v hv; obtain ⟨w, _, hr⟩ := pairs_mem _ _ h1 v hv; rw [hr])
    (by
      intro v hv
      obtain ⟨w, hw, hr⟩ := pairs_mem _ _ h1 v hv
      have := hl.consistent.sizes w hw
      rw [hr]
      exact this)
  have e3 : compute lib l = .ok ⟨dims, vs, l.attrs, l.chunks, l.limit, false⟩ := by
    simp only [compute, e1, bind, Except.bind]
    exact e2
  exact ⟨_, e3, rfl, h1⟩

theorem new_raises {lib : Lib V} {w : Var V} {v : LVar V} (h : VarInv lib true w v) {f : V}
    (hf : w.fill = some f) (hne : Chunk.notEqual lib.num.ty lib.num.eqv f (lib.conv f) = true) :
    new lib.num false v.name (v.body.result lib) v.dims v.fill v.props = .error .valueError := by
  have hv : v.fill = some f := by rw [h.rep.fill]; exact hf
  obtain ⟨a, m, e⟩ := h.persisted rfl f hv
  simp [e, hv, new, Body.result, Chunk.asArray, hne, bind, Except.bind]

theorem new_error {n : Num V} {d : Bool} {name : String} {i : Chunk.Input V} {dims : List String}
    {fill : Option V} {props : Nat} {e : PyErr}
    (h : new n d name i dims fill props = .error e) : e = .valueError := by
  simp only [new, bind, Except.bind] at h
  split at h
  · next hr => cases h; exact asArray_error hr
  · cases h

theorem mapPy_news {lib : Lib V} (ws : List (Var V)) (vs : List (LVar V))
    (h : Pairs (VarInv lib true) ws vs) (w : Var V) (hw : w ∈ ws) (f : V) (hf : w.fill = some f)
    (hne : Chunk.notEqual lib.num.ty lib.num.eqv f (lib.conv f) = true) :
    mapPy (fun v => new lib.num false v.name (v.body.result lib) v.dims v.fill v.props) vs =
      .error .valueError := by
  induction ws generalizing vs with
  | nil => cases hw
  | cons u ws ih =>
    cases vs with
    | nil => exact h.elim
    | cons v vs =>
      simp only [mapPy, bind, Except.bind]
      rcases List.mem_cons.1 hw with rfl | hw
      · rw [new_raises h.1 hf hne]
      · cases e : new lib.num false v.name (v.body.result lib) v.dims v.fill v.props with
        | error err => rw [new_error e]
        | ok r => simp only [ih vs h.2 hw]

/-- C63: once the dataset was persisted, a fill value that numpy converts to another type or
another value makes `compute` raise `ValueError`. -/
theorem C63_compute_raises (lib : Lib V) (hu : Usual lib) (grid : String → List (List Nat))
    (ds : Dataset V) (hl : Lazy grid ds) (ops : List Ev.Op) (hn : ∀ o ∈ ops, NotVar o)
    (c : Bool) (hp : Ev.Op.persist c ∈ ops) (w : Var V) (hw : w ∈ ds.vars) (f : V)
    (hf : w.fill = some f)
    (hne : Chunk.notEqual lib.num.ty lib.num.eqv f (lib.conv f) = true)
    (l : LDataset V) (h : run lib ops (ofDataset grid ds) = .ok l) :
    compute lib l = .error .valueError := by
  have hi := (inv_run hu hl.consistent hl.arrays ops hn (inv_start lib hl)).1 l h
  have : persists ops = true := by
    simp only [persists, List.any_eq_true]
    exact ⟨_, hp, rfl⟩
  rw [this, Bool.or_true] at hi
  simp only [compute, mapPy_news _ _ hi.vars w hw f hf hne, bind, Except.bind]

/-! ### to_dict -/

theorem pairs_filter {α β : Type} {R : α → β → Prop} (p : α → Bool) (q : β → Bool) (ws : List α)
    (vs : List β) (h : Pairs R ws vs) (hpq : ∀ w v, R w v → q v = p w) :
    Pairs R (ws.filter p) (vs.filter q) := by
  induction ws generalizing vs with
  | nil =>
    cases vs with
    | nil => trivial
    | cons _ _ => exact h.elim
  | cons w ws ih =>
    cases vs with
    | nil => exact h.elim
    | cons v vs =>
      have := hpq w v h.1
      cases hp : p w with
      | true =>
        rw [List.filter_cons_of_pos hp, List.filter_cons_of_pos (by rw [this, hp])]
        exact ⟨h.1, ih vs h.2⟩
      | false =>
        rw [List.filter_cons_of_neg (by simp [hp]), List.filter_cons_of_neg (by simp [this, hp])]
        exact ih vs h.2

theorem pairs_eq {α β : Type} {g : α → β} (ws : List α) (vs : List β)
    (h : Pairs (fun w v => v = g w) ws vs) : vs = ws.map g := by
  have := pairs_names (f := g) (g := id) ws vs h fun _ _ h => h
  simpa using this

theorem data_values {lib : Lib V} {w : Var V} {v : LVar V} (h : Rep lib w v) :
    ∃ b, v.data lib = .ok b ∧
      ({ v with body := b, fill := none } : LVar V).values lib = valuesOf lib.num w := by
  obtain ⟨b, hb, hr, hm⟩ := rep_data h
  refine ⟨b, hb, ?_⟩
  rcases Option.eq_none_or_eq_some v.fill with hf | ⟨f, hf⟩
  · have := (rep_same hr).values
    simp only [LVar.values, hf] at this ⊢
    exact this
  · obtain ⟨a, m, e⟩ := hm f hf
    subst e
    have hraw := hr.raw
    have hwf : w.fill = some f := by rw [← h.fill]; exact hf
    simp only [Body.raw] at hraw
    simp only [LVar.values, Body.raw, Body.hidden, hraw, valuesOf, masked, hwf]
    congr 1
    funext idx
    simp only [Chunk.values]
    cases hx : w.array.get idx with
    | none => rfl
    | some x =>
      simp only [Option.map_some]
      cases he : lib.num.eqv x f with
      | true =>
        have := hr.shown a m _ rfl idx x f hf hx he
        simp [this]
      | false =>
        rcases Bool.eq_false_or_eq_true (m idx) with hmi | hmi
        · obtain ⟨y, g, hg, hy, he'⟩ := hr.hidden idx hmi
          simp only [hf] at hg
          cases hg
          rw [hx] at hy; cases hy
          rw [he] at he'; cases he'
        · simp [hmi]

/-- The names that are asked for: all without list. -/
def Spec.Asked (names : Option (List String)) (n : String) : Prop :=
  ∀ l, names = some l → n ∈ l

instance (names : Option (List String)) (n : String) : Decidable (Spec.Asked names n) :=
  match names with
  | none => .isTrue fun _ h => (nomatch h)
  | some l => if h : n ∈ l then .isTrue (by intro _ e; cases e; exact h)
    else .isFalse fun g => h (g l rfl)

theorem wanted_asked (names : Option (List String)) (all : List String)
    (n : String) (hn : n ∈ all) : n ∈ wanted names all ↔ names = some [] ∨ Asked names n := by
  cases names with
  | none => exact ⟨fun _ => .inr fun _ h => (nomatch h), fun _ => hn⟩
  | some l =>
    cases l with
    | nil => exact ⟨fun _ => .inl rfl, fun _ => hn⟩
    | cons a t =>
      exact ⟨fun h => .inr fun _ e => by cases e; exact h, fun h => h.elim nofun fun h => h _ rfl⟩

/-- C63: after any steps, `to_dict` returns the variables of the start that are asked for, with
their values and missing values; an empty selection asks for all. -/
theorem C63_to_dict (lib : Lib V) (hu : Usual lib) (grid : String → List (List Nat))
    (ds : Dataset V) (hl : Lazy grid ds) (ops : List Ev.Op) (hn : ∀ o ∈ ops, NotVar o)
    (l : LDataset V) (h : run lib ops (ofDataset grid ds) = .ok l)
    (names : Option (List String)) :
    toDict lib names l = .ok ((ds.vars.filter fun w =>
      decide (names = some [] ∨ Asked names w.name)).map fun w => (w.name, valuesOf lib.num w)) := by
  have hi := (inv_run hu hl.consistent hl.arrays ops hn (inv_start lib hl)).1 l h
  have hnames : l.vars.map (·.name) = ds.vars.map (·.name) :=
    pairs_names _ _ hi.vars fun _ _ hr => hr.rep.name
  have hf := pairs_filter (fun w : Var V => decide (w.name ∈ wanted names (l.vars.map (·.name))))
    (fun v : LVar V => decide (v.name ∈ wanted names (l.vars.map (·.name)))) _ _ hi.vars
    (by intro w v hr; simp only [hr.rep.name])
  obtain ⟨vs, e, hv⟩ := pairs_mapPy
    (S := fun (w : Var V) (u : String × Arr (Option V)) => u = (w.name, valuesOf lib.num w))
    (f := fun v => do
      let b ← LVar.data lib v
      .ok (v.name, ({ v with body := b, fill := none } : LVar V).values lib)) _ _ hf (by
      intro w hw v hr
      obtain ⟨b, hb, hval⟩ := data_values hr.rep
      exact ⟨_, by simp only [hb, bind, Except.bind]; rfl, by rw [hval, hr.rep.name]⟩)
  simp only [toDict]
  rw [e, pairs_eq _ _ hv]
  congr 2
  apply List.filter_congr
  intro w hw
  have := wanted_asked names (l.vars.map (·.name)) w.name
    (by rw [hnames]; exact List.mem_map.2 ⟨w, hw, rfl⟩)
  simp only [this]

/-! ### Cases -/

namespace EvalCase

/-- Numbers, without conversion of the fill values; zarr cuts into chunks of size 1. -/
def natLib : Lib Nat := ⟨natNum, id, fun a b => decide (a = b), fun s => s.map fun _ => 1⟩

/-- Typed numbers: numpy converts the fill values to its type. -/
def typedLib : Lib (Nat × Nat) :=
  ⟨typed, fun f => (1, f.2), fun a b => decide (a = b), fun s => s.map fun _ => 1⟩

theorem natUsual : Usual natLib := by
  refine ⟨?_, ?_, ?_⟩
  · intro x y h; simp [natLib, natNum]
  · intro s; simp [natLib]
  · intro s c h
    simp only [natLib, List.mem_map] at h
    obtain ⟨_, _, rfl⟩ := h
    decide

theorem typedUsual : Usual typedLib := by
  refine ⟨?_, ?_, ?_⟩
  · intro x y h; simp [typedLib, typed]
  · intro s; simp [typedLib]
  · intro s c h
    simp only [typedLib, List.mem_map] at h
    obtain ⟨_, _, rfl⟩ := h
    decide

/-- The variable `z` holds `g 0`, `g 1` and `g 2`, cut into blocks of two and one. -/
def one (V : Type) (g : Nat → V) (fill : V) : Dataset V :=
  { dims := [("x", 3)], vars := [⟨"z", true, ["x"], tabulate [3] fun idx => g idx.sum, some fill, 7⟩],
    attrs := [("a", "b")], chunks := [], limit := 1, delayed := true }

def grid : String → List (List Nat) := fun _ => [[2, 1]]

theorem one_lazy (V : Type) (g : Nat → V) (fill : V) : Lazy grid (one V g fill) := by
  refine ⟨⟨by simp [one], by simp [one], ?_, ?_⟩, rfl, ?_, ?_⟩
  all_goals
    intro v hv
    rw [List.mem_singleton.1 hv]
  · rfl
  · intro i d hd
    cases i with
    | zero => cases hd; exact ⟨3, rfl, rfl⟩
    | succ i => cases hd
  · exact tabulate_arrOk _ _
  · rfl

/-- Persist with compression, cut into blocks of one element, persist again. -/
def ops : List Ev.Op := [.persist true, .rechunk fun _ => [.size 1], .persist false]

theorem ops_notVar : ∀ o ∈ ops, NotVar o := by
  intro o ho
  simp only [ops, List.mem_cons, List.not_mem_nil, or_false] at ho
  rcases ho with rfl | rfl | rfl <;> trivial

theorem ops_positive : ∀ o ∈ ops, Positive o := by
  intro o ho
  simp only [ops, List.mem_cons, List.not_mem_nil, or_false] at ho
  rcases ho with rfl | rfl | rfl
  · trivial
  · intro _; simp
  · trivial

end EvalCase

/-- The steps of the case succeed, and show the missing value and the other ones. -/
example : ∃ l v, run EvalCase.natLib EvalCase.ops (ofDataset EvalCase.grid
      (EvalCase.one Nat (fun i => i * i) 0)) = .ok l ∧ l.vars = [v] ∧
    (v.values EvalCase.natLib).get [0] = some none ∧
    (v.values EvalCase.natLib).get [1] = some (some 1) ∧
    (v.values EvalCase.natLib).get [2] = some (some 4) := by
  obtain ⟨l, hl⟩ := C63_accepted_partial EvalCase.natLib EvalCase.natUsual EvalCase.grid _
    (EvalCase.one_lazy Nat (fun i => i * i) 0) EvalCase.ops EvalCase.ops_notVar
    EvalCase.ops_positive
  have hp := (C63_values_partial EvalCase.natLib EvalCase.natUsual EvalCase.grid _
    (EvalCase.one_lazy Nat (fun i => i * i) 0) EvalCase.ops EvalCase.ops_notVar l hl).1
  cases hv : l.vars with
  | nil => rw [hv] at hp; exact hp.elim
  | cons v t =>
    rw [hv] at hp
    cases t with
    | cons _ _ => exact hp.2.elim
    | nil =>
      refine ⟨l, v, hl, hv, ?_, ?_, ?_⟩ <;> rw [hp.1.values] <;> rfl

/-- `C63_dask`: blocks of one element. -/
example : ∀ s : List Nat, (s.map fun n => [n]).map List.sum = s := by
  intro s
  simp [List.map_map, Function.comp_def]

/-- The steps can be followed by `compute`. -/
example : ∃ l r, run EvalCase.natLib EvalCase.ops (ofDataset EvalCase.grid
      (EvalCase.one Nat (fun i => i * i) 0)) = .ok l ∧ compute EvalCase.natLib l = .ok r := by
  obtain ⟨l, hl⟩ := C63_accepted_partial EvalCase.natLib EvalCase.natUsual EvalCase.grid _
    (EvalCase.one_lazy Nat (fun i => i * i) 0) EvalCase.ops EvalCase.ops_notVar
    EvalCase.ops_positive
  obtain ⟨r, hr, _⟩ := C63_compute_partial EvalCase.natLib EvalCase.natUsual EvalCase.grid _
    (EvalCase.one_lazy Nat (fun i => i * i) 0) EvalCase.ops EvalCase.ops_notVar
    (fun _ _ _ _ => rfl) l hl
  exact ⟨l, r, hl, hr⟩

/-- Only rechunked, then computed. -/
example : ∃ l r, run EvalCase.typedLib ([fun _ => [Chunk.ChunkSpec.size 2]].map Ev.Op.rechunk)
      (ofDataset EvalCase.grid (EvalCase.one (Nat × Nat) (fun i => (1, i)) (0, 0))) = .ok l ∧
    compute EvalCase.typedLib l = .ok r := by
  refine ⟨_, _, rfl, rfl⟩

/-- `to_dict` of the case. -/
example : ∃ l r, run EvalCase.natLib EvalCase.ops (ofDataset EvalCase.grid
      (EvalCase.one Nat (fun i => i * i) 0)) = .ok l ∧
    toDict EvalCase.natLib (some ["y", "z"]) l = .ok [("z", r)] := by
  obtain ⟨l, hl⟩ := C63_accepted_partial EvalCase.natLib EvalCase.natUsual EvalCase.grid _
    (EvalCase.one_lazy Nat (fun i => i * i) 0) EvalCase.ops EvalCase.ops_notVar
    EvalCase.ops_positive
  exact ⟨l, _, hl, C63_to_dict EvalCase.natLib EvalCase.natUsual EvalCase.grid _
    (EvalCase.one_lazy Nat (fun i => i * i) 0) EvalCase.ops EvalCase.ops_notVar l hl
    (some ["y", "z"])⟩

/-- A fill value given as a number of Python: `persist`, then `compute`, raises. -/
theorem C63_counterexample : ¬ C63_full := by
  intro h
  obtain ⟨l, hl, _, r, hr, _⟩ := h _ EvalCase.typedLib EvalCase.typedUsual EvalCase.grid _
    (EvalCase.one_lazy (Nat × Nat) (fun i => (1, i)) (0, 0)) EvalCase.ops EvalCase.ops_positive
    (by
      intro o ho
      simp only [EvalCase.ops, List.mem_cons, List.not_mem_nil, or_false] at ho
      rcases ho with rfl | rfl | rfl <;> trivial)
  have := C63_compute_raises EvalCase.typedLib EvalCase.typedUsual EvalCase.grid _
    (EvalCase.one_lazy (Nat × Nat) (fun i => (1, i)) (0, 0)) EvalCase.ops EvalCase.ops_notVar false
    (by simp [EvalCase.ops]) _ (List.mem_cons_self ..) (0, 0) rfl (by decide) l hl
  rw [hr] at this
  cases this

/-- The method `persist` of a variable: afterwards the variable has no shape, and its values have
one more dimension. -/
theorem C63_persist_counterexample (lib : Lib V) (grid : String → List (List Nat))
    (ds : Dataset V) (w : Var V) (hw : w ∈ ds.vars) :
    ∃ l, run lib [.persistVar w.name] (ofDataset grid ds) = .ok l ∧
      ∃ v ∈ l.vars, v.name = w.name ∧ v.body.shape = .error .attributeError ∧
        (v.values lib).shape = 1 :: w.array.shape ∧ ¬ SameLazy lib w v := by
  have hc : ∃ v ∈ (ofDataset grid ds).vars, v.name = w.name :=
    ⟨_, List.mem_map.2 ⟨w, hw, rfl⟩, rfl⟩
  have hr : run lib [.persistVar w.name] (ofDataset grid ds) =
      .ok { ofDataset grid ds with vars := (ofDataset grid ds).vars.map fun v =>
        if v.name = w.name then v.persist else v } := by
    simp only [run, step, persistVar, hc, if_true, bind, Except.bind]
  refine ⟨_, hr, LVar.persist ⟨w.name, w.dims, .plain w.array, grid w.name, w.fill, w.props⟩, ?_,
    rfl, rfl, rfl, fun h => (nomatch h.shape)⟩
  refine List.mem_map.2 ⟨_, List.mem_map.2 ⟨w, hw, rfl⟩, ?_⟩
  simp

end Verif
