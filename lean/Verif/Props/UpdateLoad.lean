import Verif.Lemmas.UpdateLoad
import Verif.Props.Chunks

/-! C84: a load after an update. -/

namespace Verif

open Spec Nd Ds Upd Ld

/-- C84, full statement: after a successful update without overlap, a load of any selection of
partitions and of variables succeeds, and returns the values computed by the callback where it
returned some, and elsewhere the values stored before. -/
def C84_full : Prop :=
  ∀ (P V : Type) [DecidableEq P] (c : Cfg P V) (o : Opts V) (f : Callback V (Dict V))
    (isLazy : Bool) (known vars : List String) (workers : Int) (st st' : Store P V)
    (listing : List P) (filters : P → Bool) (size : P → Nat) (other : String → Nat),
    Uniform o.dim size other st → c.dim = o.dim → c.imm = o.imm → c.parts.Nodup → Keys f →
    KeepsArrays f → (∀ iv, o.imm = some iv → GoodImm o.dim other st iv) →
    (∀ iv, o.imm = some iv → ∀ w ∈ iv, ArrOk w.array) →
    (∀ q ∈ listing, filters q = true → ∃ vars, st q = some vars) →
    (∃ q ∈ listing, filters q = true) →
    update c 0 f isLazy known vars workers st = (st', .ok ()) →
    ∃ zds, load o st' listing filters = .ok (some zds) ∧
      ReadBack o.dim size o.sel (o.imm.getD []) c.sel c.delayed c.parts f st
        (listing.filter filters) zds

variable {P V : Type} [DecidableEq P]

/-- What a successful update leaves: in each partition the variables with the values returned
by the callback, and arrays of the same shapes everywhere. -/
theorem update_keeps (c : Cfg P V) (imm : Option (List (Var V))) (dim : String)
    (f : Callback V (Dict V)) (isLazy : Bool)
    (known vars : List String) (workers : Int) (st st' : Store P V)
    (size : P → Nat) (other : String → Nat)
    (hu : Uniform dim size other st) (hdim : c.dim = dim) (hci : c.imm = imm)
    (hnd : c.parts.Nodup) (hk : Keys f) (hf : KeepsArrays f)
    (hlazy : isLazy = false ∨ ∀ zds ind d, f zds ind = .ok d → d.length ≤ 1)
    (hret : vars ≠ [] ∨ ∀ zds ind d, f zds ind = .ok d → d ≠ [])
    (himm : ∀ iv, imm = some iv → GoodImm dim other st iv)
    (hia : ∀ iv, imm = some iv → ∀ w ∈ iv, ArrOk w.array)
    (h : update c 0 f isLazy known vars workers st = (st', .ok ())) :
    (∀ p ∈ c.parts, ∀ vs, st p = some vs → ∃ shown d ws,
      PartShown c.sel c.delayed (imm.getD []) vs shown ∧ f shown none = .ok d ∧
      st' p = some ws ∧ SameVars (d.map (·.1)) vs ws ∧
      ∀ w ∈ ws, ∀ a, (w.name, a) ∈ d → w.array = a) ∧
    (∀ p vs, st p = some vs → ∃ ws, st' p = some ws) ∧
    Uniform dim size other st' ∧ (∀ iv, imm = some iv → GoodImm dim other st' iv) := by
  have hw := update_written hnd hk hlazy hret h
  have ho := update_elsewhere h
  have hshown : ∀ q vs shown, st q = some vs → loadDataset c st q = .ok shown →
      PartShown c.sel c.delayed (imm.getD []) vs shown := by
    intro q vs shown hvs hl
    obtain ⟨shown', hl', s1, s2, s3⟩ := C33_alone c st size other q (by rw [hdim]; exact hu) vs hvs
      (by rw [hci, hdim]; exact himm)
    rw [hl] at hl'
    cases hl'
    refine ⟨s1, ?_, ?_⟩
    · intro v hv hch
      cases hi : imm with
      | none => rw [hi] at hv; simp at hv
      | some iv =>
        rw [hi] at hv
        exact s2 iv (by rw [hci, hi]) v hv hch
    · intro v' hv'
      obtain ⟨c1, v, c2, c3⟩ := s3 v' hv'
      refine ⟨c1, v, c2, c3.imp id ?_⟩
      rintro ⟨iv, hiv, hv⟩
      rw [hci] at hiv
      rw [hiv]
      exact hv
  have hsame : ∀ p, ∃ names, match st p, st' p with
      | none, none => True
      | some vs, some ws => SameVars names vs ws
      | _, _ => False := by
    intro p
    by_cases hp : p ∈ c.parts
    · obtain ⟨_, d, _, _, _, h4⟩ := hw p hp
      exact ⟨_, h4⟩
    · refine ⟨[], ?_⟩
      rw [ho p hp]
      exact SameStore.refl [] st p
  have hback : ∀ p ws, st' p = some ws → ∃ vs, st p = some vs ∧
      ws.map (·.name) = vs.map (·.name) := by
    intro p ws hws
    obtain ⟨names, hp⟩ := hsame p
    rw [hws] at hp
    cases hs : st p with
    | none => rw [hs] at hp; exact hp.elim
    | some vs => rw [hs] at hp; exact ⟨vs, rfl, sameVars_names hp⟩
  have hfwd : ∀ p vs, st p = some vs → ∃ ws, st' p = some ws := by
    intro p vs hvs
    obtain ⟨names, hp⟩ := hsame p
    rw [hvs] at hp
    cases hs : st' p with
    | none => rw [hs] at hp; exact hp.elim
    | some ws => exact ⟨ws, rfl⟩
  have hnodup : ∀ p ws, st' p = some ws → (ws.map (·.name)).Nodup := by
    intro p ws hws
    obtain ⟨vs, hvs, hn⟩ := hback p ws hws
    rw [hn]
    exact (hu.good.1 p vs hvs).1
  have hu' : Uniform dim size other st' := by
    refine uniform_same hu hsame ?_
    intro p ws hws w hwm
    by_cases hp : p ∈ c.parts
    · obtain ⟨zds, d, hl, hd, h3, h4⟩ := hw p hp
      obtain ⟨vs, hvs, _⟩ := hback p ws hws
      by_cases hn : w.name ∈ d.map (·.1)
      · obtain ⟨x, hx, hxn⟩ := List.mem_map.1 hn
        have h5 := h3 x hx
        rw [hxn, stored_mem hws (hnodup p ws hws) hwm] at h5
        have hok := hf zds d (by
          intro v' hv'
          obtain ⟨_, v, he, hv⟩ := (hshown p vs zds hvs hl).only v' hv'
          rw [he]
          rcases hv with hv | hv
          · exact ((hu.good.1 p vs hvs).2 v hv).1
          · cases hi : imm with
            | none => rw [hi] at hv; simp at hv
            | some iv => rw [hi] at hv; exact hia iv hi v hv) hd x hx
        rw [Option.some.inj h5]
        exact hok
      · rw [hvs, hws] at h4
        obtain ⟨v, hv, hs⟩ := sameVars_origin h4 w hwm
        rw [← hs.2.2.2.2.2.2 (by rw [hs.1]; exact hn)]
        exact ((hu.good.1 p vs hvs).2 v hv).1
    · rw [ho p hp] at hws
      exact ((hu.good.1 p ws hws).2 w hwm).1
  have himm' : ∀ iv, imm = some iv → GoodImm dim other st' iv := by
    intro iv hiv
    refine ⟨(himm iv hiv).names, ?_, (himm iv hiv).shapes⟩
    intro p ws hws v hv w hwm
    obtain ⟨vs, hvs, hn⟩ := hback p ws hws
    have hvn : v.name ∈ vs.map (·.name) := by rw [← hn]; exact List.mem_map.2 ⟨v, hv, rfl⟩
    obtain ⟨v0, hv0, he⟩ := List.mem_map.1 hvn
    rw [← he]
    exact (himm iv hiv).fresh p vs hvs v0 hv0 w hwm
  refine ⟨?_, hfwd, hu', himm'⟩
  intro p hp vs hvs
  obtain ⟨shown, d, hl, hd, h3, h4⟩ := hw p hp
  obtain ⟨ws, hws⟩ := hfwd p vs hvs
  rw [hvs, hws] at h4
  refine ⟨shown, d, ws, hshown p vs shown hvs hl, hd, hws, h4, ?_⟩
  intro w hwm a ha
  have h5 := h3 _ ha
  simp only at h5
  rw [stored_mem hws (hnodup p ws hws) hwm] at h5
  exact Option.some.inj h5

/-- C84: this holds for callbacks that return the arrays themselves or at most one variable, and
always at least one, or with the argument `variables`.  Missing: a callback that returns several
dask arrays (`C31_lazy_counterexample`) and one that returns nothing for the first partition
(`C84_counterexample`). -/
theorem C84_read_partial (c : Cfg P V) (o : Opts V) (f : Callback V (Dict V)) (isLazy : Bool)
    (known vars : List String) (workers : Int) (st st' : Store P V) (listing : List P)
    (filters : P → Bool) (size : P → Nat) (other : String → Nat)
    (hu : Uniform o.dim size other st) (hdim : c.dim = o.dim) (hci : c.imm = o.imm)
    (hnd : c.parts.Nodup) (hk : Keys f) (hf : KeepsArrays f)
    (hlazy : isLazy = false ∨ ∀ zds ind d, f zds ind = .ok d → d.length ≤ 1)
    (hret : vars ≠ [] ∨ ∀ zds ind d, f zds ind = .ok d → d ≠ [])
    (himm : ∀ iv, o.imm = some iv → GoodImm o.dim other st iv)
    (hia : ∀ iv, o.imm = some iv → ∀ w ∈ iv, ArrOk w.array)
    (hst : ∀ q ∈ listing, filters q = true → ∃ vars, st q = some vars)
    (hsel : ∃ q ∈ listing, filters q = true)
    (h : update c 0 f isLazy known vars workers st = (st', .ok ())) :
    ∃ zds, load o st' listing filters = .ok (some zds) ∧
      ReadBack o.dim size o.sel (o.imm.getD []) c.sel c.delayed c.parts f st
        (listing.filter filters) zds := by
  have ho := update_elsewhere h
  obtain ⟨hw, hfwd, hu', himm'⟩ := update_keeps c o.imm o.dim f isLazy known vars workers st st'
    size other hu hdim hci hnd hk hf hlazy hret himm hia h
  obtain ⟨zds, hz, hwin, _, _⟩ := C54_load o st' listing filters size other hu'
    (fun q hq hfq => by obtain ⟨vs, hvs⟩ := hst q hq hfq; exact hfwd q vs hvs) himm' hsel
  refine ⟨zds, hz, ?_⟩
  have hread : ∀ (k : Nat) q ws w, (listing.filter filters)[k]? = some q → st' q = some ws →
      w ∈ ws → Chosen o.sel w.name →
      ReadsAs o.dim size (listing.filter filters) zds k q w.name w.dims w.array := by
    intro k q ws w hk hws hwm hch
    obtain ⟨v', hv', hn⟩ := hwin.present q (List.mem_of_getElem? hk) ws hws w hwm hch
    obtain ⟨e1, e2, e3⟩ := hwin.values v' hv' k q ws w hk hws hwm hn.symm
    exact ⟨v', hv', hn, e1, e2, e3⟩
  intro k q vs hkq hvs
  constructor
  · intro hq v hv hch
    exact hread k q vs v hkq (by rw [ho q hq, hvs]) hv hch
  · intro hq
    obtain ⟨shown, d, ws, hs, hd, hws, h4, h3⟩ := hw q hq vs hvs
    refine ⟨shown, d, hs, hd, ?_⟩
    intro v hv hch
    obtain ⟨w, hwm, hs⟩ := sameVars_image h4 v hv
    have hr := hread k q ws w hkq hws hwm (by rw [← hs.1]; exact hch)
    rw [← hs.1, ← hs.2.2.1] at hr
    constructor
    · intro a ha
      rw [← h3 w hwm a (by rw [← hs.1]; exact ha)]
      exact hr
    · intro hn
      rw [hs.2.2.2.2.2.2 hn]
      exact hr

namespace UpdateLoadCase

/-- The whole content, without immutable variables. -/
def opts : Opts Nat := { dim := "d", delayed := true, sel := none, imm := none }

omit [DecidableEq P] in
theorem arrayOf_mem {zds : Dataset V} {n : String} {a : Arr V} (h : arrayOf zds n = .ok a) :
    ∃ w ∈ zds.vars, w.name = n ∧ w.array = a := by
  unfold arrayOf getVarE at h
  simp only [bind, Except.bind] at h
  split at h
  · cases h
  · next w hw =>
    split at hw
    · cases hw
    · next x hx =>
      cases hw
      cases h
      obtain ⟨h1, h2⟩ := getVar_some _ _ _ hx
      exact ⟨_, h1, h2, rfl⟩

omit [DecidableEq P] in
theorem arrayOf_shown {del : Bool} {imm vars : List (Var V)} {zds : Dataset V} {n : String}
    {a : Arr V} (hs : PartShown none del imm vars zds) (h : arrayOf zds n = .ok a) :
    ∃ v, v.name = n ∧ v.array = a ∧ (v ∈ vars ∨ v ∈ imm) := by
  obtain ⟨w, hw, hn, ha⟩ := arrayOf_mem h
  obtain ⟨_, v, rfl, hv⟩ := hs.only w hw
  exact ⟨v, hn, ha, hv⟩

theorem skipShort_spec {zds : Dataset Nat} {ind : Option (Nat × Nat)} {d : Dict Nat}
    (h : skipShort zds ind = .ok d) : ∃ x, arrayOf zds "x" = .ok x ∧
      d = if x.shape = [1] then [] else [("x", full x.shape 7)] := by
  simp only [skipShort, bind, Except.bind] at h
  split at h
  · cases h
  · next x hx => cases h; exact ⟨x, hx, rfl⟩

theorem skipShort_keys : Keys skipShort := by
  intro zds ind d h
  obtain ⟨x, _, rfl⟩ := skipShort_spec h
  split <;> simp

theorem skipShort_arrays : KeepsArrays skipShort := by
  intro zds d _ h y hy
  obtain ⟨x, _, rfl⟩ := skipShort_spec h
  split at hy
  · simp at hy
  · simp only [List.mem_singleton] at hy
    subst hy
    exact full_arrOk _ _

theorem two_exist : ∀ q ∈ ["p", "q"], (fun _ : String => true) q = true →
    ∃ vars, twoParts q = some vars := by
  intro q hq _
  simp only [List.mem_cons, List.not_mem_nil, or_false] at hq
  rcases hq with rfl | rfl
  · exact ⟨_, rfl⟩
  · exact ⟨_, rfl⟩

end UpdateLoadCase

open UpdateLoadCase

/-- C84 is violated when the callback returns no variable for the first selected partition and
the argument `variables` is not given: the update reports success, and the load returns the old
values of the other partitions. -/
theorem C84_counterexample : ¬ C84_full := by
  intro h
  let r := update (plain 0 ["p", "q"]) 0 skipShort false ["x"] [] 1 twoParts
  have hr : r = (r.1, .ok ()) := by
    have : r.2 = .ok () := by rfl
    rw [← this]
  obtain ⟨zds, hz, hb⟩ := h String Nat (plain 0 ["p", "q"]) opts skipShort false ["x"] [] 1
    twoParts r.1 ["p", "q"] (fun _ => true) sizeTwo (fun _ => 2) twoParts_uniform rfl rfl
    (by decide) skipShort_keys skipShort_arrays (fun _ hi => by cases hi)
    (fun _ hi => by cases hi) two_exist ⟨"p", by simp, rfl⟩ hr
  obtain ⟨shown, d, hs, hd, hv⟩ := (hb 1 "q" [dvar "x" [2, 3]] rfl rfl).2 (by simp [plain])
  obtain ⟨x, hx, rfl⟩ := skipShort_spec hd
  obtain ⟨v, _, hva, hvm⟩ := arrayOf_shown hs hx
  have hvm : v = dvar "x" [2, 3] := by
    rcases hvm with hvm | hvm
    · simpa using hvm
    · simp [opts] at hvm
  subst hvm
  subst hva
  obtain ⟨v', hv', _, _, h1, _⟩ := (hv (dvar "x" [2, 3]) (by simp) (fun _ hl => by cases hl)).1
    (full [2] 7) (List.mem_singleton.2 rfl)
  have h2 := (h1 0 rfl).2 [0] 0 rfl (by decide)
  have h3 : (load opts r.1 ["p", "q"] (fun _ => true)).map
      (fun z => z.map fun z => z.vars.map fun v => v.array.get [1]) = .ok (some [some 2]) := by rfl
  rw [hz] at h3
  simp only [Except.map, Option.map_some, Except.ok.injEq, Option.some.injEq] at h3
  have h4 : v'.array.get [1] ∈ zds.vars.map fun v => v.array.get [1] :=
    List.mem_map.2 ⟨v', hv', rfl⟩
  rw [h3, List.mem_singleton] at h4
  have h5 : v'.array.get [1] = some 7 := h2
  rw [h4] at h5
  cases h5

namespace UpdateLoadCase

/-- A callback that changes all the values of a variable. -/
def sevens : Callback Nat (Dict Nat) := fun zds _ => do
  let x ← arrayOf zds "x"
  .ok [("x", full x.shape 7)]

theorem sevens_spec {zds : Dataset Nat} {ind : Option (Nat × Nat)} {d : Dict Nat}
    (h : sevens zds ind = .ok d) : ∃ x, arrayOf zds "x" = .ok x ∧
      d = [("x", full x.shape 7)] := by
  simp only [sevens, bind, Except.bind] at h
  split at h
  · cases h
  · next x hx => cases h; exact ⟨x, hx, rfl⟩

/-- The hypotheses of `C84_read_partial` are met by an update of the second of two partitions,
and the load of both gives the old values and the new ones. -/
example : ∃ st' zds, update (plain 0 ["q"]) 0 sevens true ["x"] [] 1 twoParts = (st', .ok ()) ∧
    load opts st' ["p", "q"] (fun _ => true) = .ok (some zds) ∧
    ReadBack "d" sizeTwo none [] none true ["q"] sevens twoParts ["p", "q"] zds := by
  let r := update (plain 0 ["q"]) 0 sevens true ["x"] [] 1 twoParts
  have hr : r = (r.1, .ok ()) := by
    have : r.2 = .ok () := by rfl
    rw [← this]
  obtain ⟨zds, h1, h2⟩ := C84_read_partial (plain 0 ["q"]) opts sevens true ["x"] [] 1
    twoParts r.1 ["p", "q"] (fun _ => true) sizeTwo (fun _ => 2) twoParts_uniform rfl rfl
    (by decide) (by
      intro zds ind d h
      obtain ⟨x, _, rfl⟩ := sevens_spec h
      simp) (by
      intro zds d _ h y hy
      obtain ⟨x, _, rfl⟩ := sevens_spec h
      simp only [List.mem_singleton] at hy
      subst hy
      exact full_arrOk _ _)
    (.inr (by
      intro zds ind d h
      obtain ⟨x, _, rfl⟩ := sevens_spec h
      simp))
    (.inr (by
      intro zds ind d h
      obtain ⟨x, _, rfl⟩ := sevens_spec h
      simp))
    (fun _ hi => by cases hi) (fun _ hi => by cases hi) two_exist ⟨"p", by simp, rfl⟩ hr
  exact ⟨r.1, zds, hr, h1, h2⟩

end UpdateLoadCase

end Verif
