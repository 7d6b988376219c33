import Verif.Lemmas.UpdateEnd
import Verif.Props.UpdateLoad

/-! C86: a load after an update that may have failed or been interrupted. -/

namespace Verif

open Spec Nd Ds Upd Ld

variable {P V : Type} [DecidableEq P]

omit [DecidableEq P] in
/-- A store with the partitions and the variables of `st`, each with values of the same shape
that are those of `st` or that `W` allows, can be loaded. -/
theorem mixed_loads {o : Opts V} {st st' : Store P V} {listing : List P} {filters : P → Bool}
    {size : P → Nat} {other : String → Nat} {W : P → String → Arr V → Prop}
    (hu : Uniform o.dim size other st)
    (himm : ∀ iv, o.imm = some iv → GoodImm o.dim other st iv)
    (hst : ∀ q ∈ listing, filters q = true → ∃ vars, st q = some vars)
    (hsel : ∃ q ∈ listing, filters q = true)
    (hsame : ∃ names, SameStore names st st') (hm : Mixed st W st')
    (hW : ∀ p n a, W p n a → ArrOk a) :
    ∃ zds, load o st' listing filters = .ok (some zds) ∧
      ∀ (k : Nat) q vs, (listing.filter filters)[k]? = some q → st q = some vs →
        ∀ v ∈ vs, Chosen o.sel v.name → ∃ a,
          ReadsAs o.dim size (listing.filter filters) zds k q v.name v.dims a ∧
          a.shape = v.array.shape ∧ (a = v.array ∨ W q v.name a) := by
  obtain ⟨names, hsame⟩ := hsame
  have hback : ∀ p ws, st' p = some ws → ∃ vs, st p = some vs ∧ SameVars names vs ws := by
    intro p ws hws
    have hp := hsame p
    rw [hws] at hp
    cases hs : st p with
    | none => rw [hs] at hp; exact hp.elim
    | some vs => rw [hs] at hp; exact ⟨vs, rfl, hp⟩
  have hfwd : ∀ p vs, st p = some vs → ∃ ws, st' p = some ws ∧ SameVars names vs ws := by
    intro p vs hvs
    have hp := hsame p
    rw [hvs] at hp
    cases hs : st' p with
    | none => rw [hs] at hp; exact hp.elim
    | some ws => rw [hs] at hp; exact ⟨ws, rfl, hp⟩
  have hu' : Uniform o.dim size other st' := by
    refine uniform_same hu (fun p => ⟨names, hsame p⟩) ?_
    intro p ws hws w hwm
    rcases hm p ws hws w hwm with ⟨vs, hvs, v, hv, _, ha⟩ | h
    · rw [← ha]; exact ((hu.good.1 p vs hvs).2 v hv).1
    · exact hW _ _ _ h
  have himm' : ∀ iv, o.imm = some iv → GoodImm o.dim other st' iv := by
    intro iv hiv
    refine ⟨(himm iv hiv).names, ?_, (himm iv hiv).shapes⟩
    intro p ws hws v hv w hwm
    obtain ⟨vs, hvs, hs⟩ := hback p ws hws
    obtain ⟨v0, hv0, he⟩ := sameVars_origin hs v hv
    rw [← he.1]
    exact (himm iv hiv).fresh p vs hvs v0 hv0 w hwm
  obtain ⟨zds, hz, hwin, _, _⟩ := C54_load o st' listing filters size other hu'
    (fun q hq hfq => by
      obtain ⟨vs, hvs⟩ := hst q hq hfq
      obtain ⟨ws, hws, _⟩ := hfwd q vs hvs
      exact ⟨ws, hws⟩) himm' hsel
  refine ⟨zds, hz, ?_⟩
  intro k q vs hk hvs v hv hch
  obtain ⟨ws, hws, hs⟩ := hfwd q vs hvs
  obtain ⟨w, hwm, he⟩ := sameVars_image hs v hv
  have hch' : Chosen o.sel w.name := by rw [← he.1]; exact hch
  obtain ⟨v', hv', hn⟩ := hwin.present q (List.mem_of_getElem? hk) ws hws w hwm hch'
  obtain ⟨e1, e2, e3⟩ := hwin.values v' hv' k q ws w hk hws hwm hn.symm
  refine ⟨w.array, ?_, he.2.2.2.2.2.1.symm, ?_⟩
  · rw [he.1, he.2.2.1]
    exact ⟨v', hv', hn, e1, e2, e3⟩
  · rcases hm q ws hws w hwm with ⟨vs', hvs', x, hx, hxn, hxa⟩ | h
    · rw [hvs] at hvs'
      cases hvs'
      have h1 := stored_mem hvs (hu.good.1 q vs hvs).1 hx
      have h2 := stored_mem hvs (hu.good.1 q vs hvs).1 hv
      rw [hxn, ← he.1, h2] at h1
      left
      rw [← hxa]
      exact (Option.some.inj h1).symm
    · right
      rw [he.1]
      exact h

/-- C86: whatever the result `r` of an update, with or without overlap, with arrays or dask
arrays, a load of any selection succeeds; each variable has its shape, and the values stored
before if its partition was not selected or the callback never returns it. -/
theorem C86_loads (c : Cfg P V) (o : Opts V) (depth : Int) (f : Callback V (Dict V))
    (isLazy : Bool) (known vars : List String) (workers : Int) (st st' : Store P V) (r : Py Unit)
    (listing : List P) (filters : P → Bool) (size : P → Nat) (other : String → Nat)
    (hu : Uniform o.dim size other st) (hci : c.imm = o.imm) (hf : MapsArrays f)
    (himm : ∀ iv, o.imm = some iv → GoodImm o.dim other st iv)
    (hia : ∀ iv, o.imm = some iv → ∀ w ∈ iv, ArrOk w.array)
    (hst : ∀ q ∈ listing, filters q = true → ∃ vars, st q = some vars)
    (hsel : ∃ q ∈ listing, filters q = true)
    (h : update c depth f isLazy known vars workers st = (st', r)) :
    ∃ zds, load o st' listing filters = .ok (some zds) ∧
      StillReads o.dim size o.sel c.parts f st (listing.filter filters) zds := by
  let W : P → String → Arr V → Prop := fun p n a =>
    p ∈ c.parts ∧ ArrOk a ∧ ∃ zds ind d, f zds ind = .ok d ∧ n ∈ d.map (·.1)
  have hmix : (∃ names, SameStore names st st') ∧ Mixed st W st' := by
    rcases update_cases c depth f isLazy known vars workers st with
      ⟨e, h'⟩ | ⟨_, _, h'⟩ | ⟨_, c', _, _, _, h4, _, _, _, h'⟩
    · rw [h] at h'; cases h'; exact ⟨⟨[], SameStore.refl _ _⟩, Mixed.start _ _⟩
    · rw [h] at h'; cases h'; exact ⟨⟨[], SameStore.refl _ _⟩, Mixed.start _ _⟩
    · rw [h] at h'
      refine ⟨updateParts_sig h'.symm, ?_⟩
      have := Mixed.parts (st0 := st) (W := W) (c := c') (f := f) (isLazy := isLazy) c.parts ?_ st
        (Mixed.start st W)
      · rw [← h'] at this; exact this
      · intro p hp s l hs hl x hx a ha
        refine ⟨hp, items_arrays hf ?_ (by rw [h4, hci]; exact hia) hl x hx a ha⟩
        intro q ws hws w hwm
        rcases hs q ws hws w hwm with ⟨vs, hvs, v, hv, _, he⟩ | hw
        · rw [← he]; exact ((hu.good.1 q vs hvs).2 v hv).1
        · exact hw.2.1
  obtain ⟨zds, hz, hv⟩ := mixed_loads hu himm hst hsel hmix.1 hmix.2 fun _ _ _ hw => hw.2.1
  refine ⟨zds, hz, ?_⟩
  intro k q vs hk hvs v hvm hch
  obtain ⟨a, h1, h2, h3⟩ := hv k q vs hk hvs v hvm hch
  refine ⟨a, h1, h2, ?_⟩
  intro hno
  rcases h3 with h3 | ⟨hq, _, shown, ind, d, hd, hn⟩
  · exact h3
  · rcases hno with hno | hno
    · exact absurd hq hno
    · exact absurd hn (hno shown ind d hd)

/-- The arrays that the callback returns for one of the partitions `updated` as stored in
`st`. -/
def ComputedFrom (c : Cfg P V) (f : Callback V (Dict V)) (st : Store P V) (updated : List P)
    (p : P) (n : String) (a : Arr V) : Prop :=
  p ∈ updated ∧ ∃ zds d, loadDataset c st p = .ok zds ∧ f zds none = .ok d ∧ (n, a) ∈ d

omit [DecidableEq P] in
theorem computed_shown {c : Cfg P V} {st : Store P V} {size : P → Nat} {other : String → Nat}
    (hu : Uniform c.dim size other st)
    (himm : ∀ iv, c.imm = some iv → GoodImm c.dim other st iv) {q : P} {vs : List (Var V)}
    (hvs : st q = some vs) :
    ∃ shown, loadDataset c st q = .ok shown ∧
      PartShown c.sel c.delayed (c.imm.getD []) vs shown := by
  obtain ⟨shown, hl, s1, s2, s3⟩ := C33_alone c st size other q hu vs hvs himm
  refine ⟨shown, hl, s1, ?_, ?_⟩
  · intro v hv hch
    cases hi : c.imm with
    | none => rw [hi] at hv; simp at hv
    | some iv => rw [hi] at hv; exact s2 iv hi v hv hch
  · intro v' hv'
    obtain ⟨c1, v, c2, c3⟩ := s3 v' hv'
    refine ⟨c1, v, c2, c3.imp id ?_⟩
    rintro ⟨iv, hiv, hv⟩
    rw [hiv]
    exact hv

omit [DecidableEq P] in
theorem items_computed [DecidableEq P] {c : Cfg P V} (hd : c.depth = 0)
    {f : Callback V (Dict V)} {st : Store P V}
    {updated : List P} {p : P} {l : List (String × Py (Arr V))} (hp : p ∈ updated)
    (h : items c f st p = .ok l) :
    ∀ x ∈ l, ∀ a, x.2 = .ok a → ComputedFrom c f st updated p x.1 a := by
  simp only [items, hd, if_true, bind, Except.bind] at h
  split at h
  · cases h
  · next zds hz =>
    split at h
    · cases h
    · next d hfd =>
      cases h
      intro x hx a ha
      obtain ⟨y, hy, rfl⟩ := List.mem_map.1 hx
      cases ha
      exact ⟨hp, zds, d, hz, hfd, hy⟩

omit [DecidableEq P] in
/-- What is loaded from a store with old and new values. -/
theorem mixed_oldOrNew {c : Cfg P V} {o : Opts V} {f : Callback V (Dict V)} {st st' : Store P V}
    {updated listing : List P} {filters : P → Bool} {size : P → Nat} {other : String → Nat}
    (hu : Uniform o.dim size other st) (hdim : c.dim = o.dim) (hci : c.imm = o.imm)
    (hf : KeepsArrays f)
    (himm : ∀ iv, o.imm = some iv → GoodImm o.dim other st iv)
    (hia : ∀ iv, o.imm = some iv → ∀ w ∈ iv, ArrOk w.array)
    (hst : ∀ q ∈ listing, filters q = true → ∃ vars, st q = some vars)
    (hsel : ∃ q ∈ listing, filters q = true)
    (hsame : ∃ names, SameStore names st st')
    (hm : Mixed st (ComputedFrom c f st updated) st') :
    ∃ zds, load o st' listing filters = .ok (some zds) ∧
      OldOrNew o.dim size o.sel (o.imm.getD []) c.sel c.delayed updated f st
        (listing.filter filters) zds := by
  obtain ⟨zds, hz, hv⟩ := mixed_loads hu himm hst hsel hsame hm (by
    rintro p n a ⟨_, zds, d, hl, hd, hx⟩
    refine hf zds d ?_ hd _ hx
    refine loadDataset_arrays ?_ (by rw [hci]; exact hia) hl
    intro q ws hws w hwm
    exact ((hu.good.1 q ws hws).2 w hwm).1)
  refine ⟨zds, hz, ?_⟩
  intro k q vs hk hvs
  obtain ⟨shown, hl, hs⟩ := computed_shown (c := c) (by rw [hdim]; exact hu)
    (by rw [hci, hdim]; exact himm) hvs
  rw [hci] at hs
  refine ⟨shown, hs, ?_⟩
  intro v hvm hch
  obtain ⟨a, h1, _, h3⟩ := hv k q vs hk hvs v hvm hch
  rcases h3 with rfl | ⟨hq, shown', d, hl', hd, hx⟩
  · exact .inl h1
  · rw [hl] at hl'
    cases hl'
    exact .inr ⟨d, a, hq, hd, hx, h1⟩

/-- C86: after an update without overlap, whatever its result, each variable of each partition
has the values stored before or those computed from the partition as it was before.  The
callback returns the arrays themselves or at most one variable: see `C31_lazy_counterexample`
for several dask arrays. -/
theorem C86_values (c : Cfg P V) (o : Opts V) (f : Callback V (Dict V)) (isLazy : Bool)
    (known vars : List String) (workers : Int) (st st' : Store P V) (r : Py Unit)
    (listing : List P) (filters : P → Bool) (size : P → Nat) (other : String → Nat)
    (hu : Uniform o.dim size other st) (hdim : c.dim = o.dim) (hci : c.imm = o.imm)
    (hnd : c.parts.Nodup) (hf : KeepsArrays f)
    (hlazy : isLazy = false ∨ ∀ zds ind d, f zds ind = .ok d → d.length ≤ 1)
    (himm : ∀ iv, o.imm = some iv → GoodImm o.dim other st iv)
    (hia : ∀ iv, o.imm = some iv → ∀ w ∈ iv, ArrOk w.array)
    (hst : ∀ q ∈ listing, filters q = true → ∃ vars, st q = some vars)
    (hsel : ∃ q ∈ listing, filters q = true)
    (h : update c 0 f isLazy known vars workers st = (st', r)) :
    ∃ zds, load o st' listing filters = .ok (some zds) ∧
      OldOrNew o.dim size o.sel (o.imm.getD []) c.sel c.delayed c.parts f st
        (listing.filter filters) zds := by
  have hmix : (∃ names, SameStore names st st') ∧ Mixed st (ComputedFrom c f st c.parts) st' := by
    rcases update_cases c 0 f isLazy known vars workers st with
      ⟨e, h'⟩ | ⟨_, _, h'⟩ | ⟨_, c', h1, _, h3, h4, _, _, h5, h'⟩
    · rw [h] at h'; cases h'; exact ⟨⟨[], SameStore.refl _ _⟩, Mixed.start _ _⟩
    · rw [h] at h'; cases h'; exact ⟨⟨[], SameStore.refl _ _⟩, Mixed.start _ _⟩
    · rw [h] at h'
      refine ⟨updateParts_sig h'.symm, ?_⟩
      have hd0 : c'.depth = 0 := by rw [h1]; rfl
      have heager : updateParts c' f false st c.parts = (st', r) := by
        rcases hlazy with hl | hl
        · rw [← hl]; exact h'.symm
        · cases isLazy with
          | false => exact h'.symm
          | true => rw [← updateParts_single hl]; exact h'.symm
      have := Mixed.once (st0 := st) (W := ComputedFrom c f st c.parts) (f := f) hd0 c.parts hnd ?_ st
        (fun _ _ => rfl) (Mixed.start _ _)
      · rw [heager] at this; exact this
      · intro p hp l hl x hx a ha
        obtain ⟨_, zds, d, g1, g2⟩ := items_computed hd0 hp hl x hx a ha
        refine ⟨hp, zds, d, ?_, g2⟩
        rw [← g1]
        simp only [loadDataset, h3, h4, h5 rfl]
  exact mixed_oldOrNew hu hdim hci hf himm hia hst hsel hmix.1 hmix.2

/-! ### Several workers, stopped at any moment -/

/-- What holds during a run. -/
structure RunMixed (c : Cfg P V) (f : Callback V (Dict V)) (st : Store P V)
    (updated : List P) (m : Machine P V) : Prop where
  same : ∃ names, SameStore names st m.store
  mixed : Mixed st (ComputedFrom c f st updated) m.store
  idle : ∀ p, m.loc p = .idle → m.store p = st p
  writing : ∀ p l, m.loc p = .writing l → ∀ x ∈ l, ∀ a, x.2 = .ok a →
    ComputedFrom c f st updated p x.1 a

theorem RunMixed.step {c : Cfg P V} {f : Callback V (Dict V)} {st : Store P V}
    {updated : List P} {m : Machine P V} (hd : c.depth = 0) (h : RunMixed c f st updated m)
    (p : P) (hp : p ∈ updated) : RunMixed c f st updated (m.step c f p) := by
  cases hl : m.loc p with
  | idle =>
    cases hi : items c f m.store p with
    | error e =>
      simp only [Machine.step, hl, hi]
      refine ⟨h.same, h.mixed, fun q hq => ?_, fun q l hq => ?_⟩
      · simp only at hq
        split at hq
        · cases hq
        · exact h.idle q hq
      · simp only at hq
        split at hq
        · cases hq
        · exact h.writing q l hq
    | ok l' =>
      simp only [Machine.step, hl, hi]
      refine ⟨h.same, h.mixed, fun q hq => ?_, fun q l hq => ?_⟩
      · simp only at hq
        split at hq
        · cases hq
        · exact h.idle q hq
      · simp only at hq
        split at hq
        · next hqp =>
          subst hqp
          cases hq
          rw [items_local c hd f q (h.idle q hl)] at hi
          exact items_computed hd hp hi
        · exact h.writing q l hq
  | writing l =>
    cases l with
    | nil =>
      simp only [Machine.step, hl]
      refine ⟨h.same, h.mixed, fun q hq => ?_, fun q l hq => ?_⟩
      · simp only at hq
        split at hq
        · cases hq
        · exact h.idle q hq
      · simp only at hq
        split at hq
        · cases hq
        · exact h.writing q l hq
    | cons x t =>
      have hx := h.writing p _ hl
      cases hw : writeItem m.store p x with
      | error e =>
        simp only [Machine.step, hl, hw]
        refine ⟨h.same, h.mixed, fun q hq => ?_, fun q l hq => ?_⟩
        · simp only at hq
          split at hq
          · cases hq
          · exact h.idle q hq
        · simp only at hq
          split at hq
          · cases hq
          · exact h.writing q l hq
      | ok s =>
        simp only [Machine.step, hl, hw]
        obtain ⟨w1, w2, _⟩ := writeItem_spec hw
        obtain ⟨names, hs⟩ := h.same
        refine ⟨⟨names ++ [x.1], (hs.mono fun n hn => by simp [hn]).trans
          (w2.mono fun n hn => by simp at hn; simp [hn])⟩,
          h.mixed.item (hx x (List.mem_cons_self ..)) hw, fun q hq => ?_, fun q l hq => ?_⟩
        · simp only at hq
          split at hq
          · cases hq
          · next hqp => exact (w1 q hqp).trans (h.idle q hq)
        · simp only at hq
          split at hq
          · next hqp =>
            subst hqp
            cases hq
            exact fun y hy => hx y (List.mem_cons_of_mem _ hy)
          · exact h.writing q l hq
  | done => simp only [Machine.step, hl]; exact h
  | failed => simp only [Machine.step, hl]; exact h

/-- C86: the same at any moment of an update by several workers, whose actions interleave in any
order; in particular if the processes are stopped there. -/
theorem C86_stopped (c : Cfg P V) (o : Opts V) (f : Callback V (Dict V)) (st : Store P V)
    (sched : List P) (listing : List P) (filters : P → Bool) (size : P → Nat)
    (other : String → Nat) (hu : Uniform o.dim size other st) (hdim : c.dim = o.dim)
    (hci : c.imm = o.imm) (hd : c.depth = 0) (hf : KeepsArrays f)
    (himm : ∀ iv, o.imm = some iv → GoodImm o.dim other st iv)
    (hia : ∀ iv, o.imm = some iv → ∀ w ∈ iv, ArrOk w.array)
    (hst : ∀ q ∈ listing, filters q = true → ∃ vars, st q = some vars)
    (hsel : ∃ q ∈ listing, filters q = true) :
    ∃ zds, load o (Machine.run c f (.start st) sched).store listing filters = .ok (some zds) ∧
      OldOrNew o.dim size o.sel (o.imm.getD []) c.sel c.delayed sched f st
        (listing.filter filters) zds := by
  have hrun : ∀ (l : List P) (m : Machine P V), (∀ p ∈ l, p ∈ sched) →
      RunMixed c f st sched m → RunMixed c f st sched (l.foldl (Machine.step c f) m) := by
    intro l
    induction l with
    | nil => exact fun _ _ h => h
    | cons p t ih =>
      exact fun m hl h => ih _ (fun q hq => hl q (List.mem_cons_of_mem _ hq))
        (h.step hd p (hl p (List.mem_cons_self ..)))
  have h := hrun sched (.start st) (fun _ h => h) ⟨⟨[], SameStore.refl _ _⟩, Mixed.start _ _, fun _ _ => rfl,
    fun p l h => by cases h⟩
  exact mixed_oldOrNew hu hdim hci hf himm hia hst hsel h.same h.mixed

namespace UpdateEndCase

open UpdateLoadCase

/-- A callback that changes the values of a variable, and raises for a partition with several
records. -/
def onlyShort : Callback Nat (Dict Nat) := fun zds _ => do
  let x ← arrayOf zds "x"
  if x.shape = [1] then .ok [("x", full x.shape 7)] else .error .runtimeError

theorem onlyShort_spec {zds : Dataset Nat} {ind : Option (Nat × Nat)} {d : Dict Nat}
    (h : onlyShort zds ind = .ok d) : ∃ x, arrayOf zds "x" = .ok x ∧
      d = [("x", full x.shape 7)] := by
  simp only [onlyShort, bind, Except.bind] at h
  split at h
  · cases h
  · next x hx =>
    split at h
    · cases h; exact ⟨x, hx, rfl⟩
    · cases h

theorem onlyShort_maps : MapsArrays onlyShort := by
  intro zds ind d _ h y hy
  obtain ⟨x, _, rfl⟩ := onlyShort_spec h
  simp only [List.mem_singleton] at hy
  subst hy
  exact full_arrOk _ _

/-- The values of a loaded dataset. -/
def loadedValues (r : Py (Option (Dataset Nat))) : Py (Option (List (List (Option Nat)))) :=
  r.map fun z => z.map fun z => z.vars.map fun v => (List.range 3).map fun j => v.array.get [j]

/-- The hypotheses of `C86_loads` and of `C86_values` are met by an update that fails at the
second partition: the first one has its new value, the second one its old values. -/
example : ∃ st' zds zds', update (plain 0 ["p", "q"]) 0 onlyShort false ["x"] [] 1 twoParts =
      (st', .error .runtimeError) ∧
    load opts st' ["p", "q"] (fun _ => true) = .ok (some zds) ∧
    load opts st' ["p", "q"] (fun _ => true) = .ok (some zds') ∧
    loadedValues (load opts st' ["p", "q"] (fun _ => true)) =
      .ok (some [[some 7, some 2, some 3]]) ∧
    StillReads "d" sizeTwo none ["p", "q"] onlyShort twoParts ["p", "q"] zds ∧
    OldOrNew "d" sizeTwo none [] none true ["p", "q"] onlyShort twoParts ["p", "q"] zds' := by
  let r := update (plain 0 ["p", "q"]) 0 onlyShort false ["x"] [] 1 twoParts
  have hr : r = (r.1, .error .runtimeError) := by
    have : r.2 = .error .runtimeError := by rfl
    rw [← this]
  obtain ⟨zds, h1, h2⟩ := C86_loads (plain 0 ["p", "q"]) opts 0 onlyShort false ["x"] [] 1
    twoParts r.1 _ ["p", "q"] (fun _ => true) sizeTwo (fun _ => 2) twoParts_uniform rfl
    onlyShort_maps (fun _ hi => by cases hi) (fun _ hi => by cases hi) two_exist
    ⟨"p", by simp, rfl⟩ hr
  obtain ⟨zds', h3, h4⟩ := C86_values (plain 0 ["p", "q"]) opts onlyShort false ["x"] [] 1
    twoParts r.1 _ ["p", "q"] (fun _ => true) sizeTwo (fun _ => 2) twoParts_uniform rfl rfl
    (by decide) (fun zds d ha h => onlyShort_maps zds none d ha h) (.inl rfl)
    (fun _ hi => by cases hi) (fun _ hi => by cases hi) two_exist ⟨"p", by simp, rfl⟩ hr
  exact ⟨r.1, zds, zds', hr, h1, h3, by rfl, h2, h4⟩

/-- The hypotheses of `C86_stopped` are met by two workers stopped after they loaded their
partitions and one of them wrote a variable. -/
example : ∃ zds,
    load opts (Machine.run (plain 0 ["p", "q"]) sevens (.start twoParts) ["q", "p", "q"]).store
      ["p", "q"] (fun _ => true) = .ok (some zds) ∧
    loadedValues (load opts (Machine.run (plain 0 ["p", "q"]) sevens (.start twoParts)
      ["q", "p", "q"]).store ["p", "q"] (fun _ => true)) =
      .ok (some [[some 1, some 7, some 7]]) ∧
    OldOrNew "d" sizeTwo none [] none true ["q", "p", "q"] sevens twoParts ["p", "q"] zds := by
  obtain ⟨zds, h1, h2⟩ := C86_stopped (plain 0 ["p", "q"]) opts sevens twoParts ["q", "p", "q"]
    ["p", "q"] (fun _ => true) sizeTwo (fun _ => 2) twoParts_uniform rfl rfl rfl (by
      intro zds d _ h y hy
      obtain ⟨x, _, rfl⟩ := sevens_spec h
      simp only [List.mem_singleton] at hy
      subst hy
      exact full_arrOk _ _) (fun _ hi => by cases hi) (fun _ hi => by cases hi) two_exist
    ⟨"p", by simp, rfl⟩
  exact ⟨zds, h1, by rfl, h2⟩

end UpdateEndCase

end Verif
