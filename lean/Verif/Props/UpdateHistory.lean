import Verif.Spec.UpdateHistory
import Verif.Props.UpdateLoad

/-! C84 for histories: a load after any number of updates. -/

namespace Verif

open Spec Nd Ds Upd Ld

/-- A call of `update` without overlap: what the collection resolved for it, and the arguments. -/
structure UpdCall (P V : Type) where
  c : Cfg P V
  f : Callback V (Dict V)
  isLazy : Bool
  known : List String
  vars : List String
  workers : Int

variable {P V : Type} [DecidableEq P]

/-- The calls, one after the other, all succeed. -/
def AllUpdated : List (UpdCall P V) → Store P V → Store P V → Prop
  | [], st, st' => st' = st
  | u :: t, st, st' => ∃ s, update u.c 0 u.f u.isLazy u.known u.vars u.workers st = (s, .ok ()) ∧
      AllUpdated t s st'

/-- The change that a call asks for. -/
def UpdCall.change (u : UpdCall P V) : Change P V :=
  { parts := u.c.parts, sel := u.c.sel, delayed := u.c.delayed, f := u.f }

/-- The calls of `C84_read_partial`. -/
structure UpdCall.Ok (imm : Option (List (Var V))) (dim : String) (u : UpdCall P V) : Prop where
  dim : u.c.dim = dim
  imm : u.c.imm = imm
  parts : u.c.parts.Nodup
  keys : Keys u.f
  arrays : KeepsArrays u.f
  eager : u.isLazy = false ∨ ∀ zds ind d, u.f zds ind = .ok d → d.length ≤ 1
  returns : u.vars ≠ [] ∨ ∀ zds ind d, u.f zds ind = .ok d → d ≠ []

omit [DecidableEq P] in
theorem revised_of_same {d : Dict V} {v w : Var V} (hs : SameVar (d.map (·.1)) v w)
    (h : ∀ a, (w.name, a) ∈ d → w.array = a) : Revised d v w :=
  ⟨hs.1.symm, hs.2.2.1.symm, hs.2.2.2.2.2.1.symm, fun a ha => h a (by rw [← hs.1]; exact ha),
    fun hn => (hs.2.2.2.2.2.2 hn).symm⟩

theorem updates_keep (imm : Option (List (Var V))) (dim : String) (size : P → Nat)
    (other : String → Nat) (us : List (UpdCall P V)) (hok : ∀ u ∈ us, u.Ok imm dim)
    (hia : ∀ iv, imm = some iv → ∀ w ∈ iv, ArrOk w.array) :
    ∀ st st' : Store P V, Uniform dim size other st →
    (∀ iv, imm = some iv → GoodImm dim other st iv) → AllUpdated us st st' →
    MadeInTurn (imm.getD []) (us.map UpdCall.change) st st' ∧ Uniform dim size other st' ∧
    (∀ iv, imm = some iv → GoodImm dim other st' iv) ∧
    ∀ p vs, st p = some vs → ∃ ws, st' p = some ws := by
  induction us with
  | nil =>
    intro st st' hu himm h
    cases h
    exact ⟨rfl, hu, himm, fun p vs h => ⟨vs, h⟩⟩
  | cons u t ih =>
    intro st st' hu himm h
    obtain ⟨s, h1, h2⟩ := h
    have hk := hok u (by simp)
    obtain ⟨k1, k2, k3, k4⟩ := update_keeps u.c imm dim u.f u.isLazy u.known u.vars u.workers st s
      size other hu hk.dim hk.imm hk.parts hk.keys hk.arrays hk.eager hk.returns himm hia h1
    obtain ⟨m1, m2, m3, m4⟩ := ih (fun v hv => hok v (by simp [hv])) s st' k3 k4 h2
    refine ⟨⟨s, ?_, m1⟩, m2, m3, ?_⟩
    · intro q
      refine ⟨fun hq => update_elsewhere h1 q hq, fun hq vs hvs => ?_⟩
      obtain ⟨shown, d, ws, e1, e2, e3, e4, e5⟩ := k1 q hq vs hvs
      refine ⟨shown, d, ws, e1, e2, e3, ?_, ?_⟩
      · intro v hv
        obtain ⟨w, hw, hs⟩ := sameVars_image e4 v hv
        exact ⟨w, hw, revised_of_same hs (e5 w hw)⟩
      · intro w hw
        obtain ⟨v, hv, hs⟩ := sameVars_origin e4 w hw
        exact ⟨v, hv, revised_of_same hs (e5 w hw)⟩
    · intro p vs hvs
      obtain ⟨ws, hws⟩ := k2 p vs hvs
      exact m4 p ws hws

/-- C84 for any number of updates: the load shows the content made from the first one by the
changes in turn, each callback being given the values left by the updates before it.  Missing:
the callbacks excluded from `C84_read_partial`. -/
theorem C84_history_partial (o : Opts V) (us : List (UpdCall P V)) (st st' : Store P V)
    (listing : List P) (filters : P → Bool) (size : P → Nat) (other : String → Nat)
    (hu : Uniform o.dim size other st) (hok : ∀ u ∈ us, u.Ok o.imm o.dim)
    (himm : ∀ iv, o.imm = some iv → GoodImm o.dim other st iv)
    (hia : ∀ iv, o.imm = some iv → ∀ w ∈ iv, ArrOk w.array)
    (hst : ∀ q ∈ listing, filters q = true → ∃ vars, st q = some vars)
    (hsel : ∃ q ∈ listing, filters q = true) (h : AllUpdated us st st') :
    ∃ content zds, MadeInTurn (o.imm.getD []) (us.map UpdCall.change) st content ∧
      load o st' listing filters = .ok (some zds) ∧
      ShowsContent o.dim size o.sel content (listing.filter filters) zds := by
  obtain ⟨m1, m2, m3, m4⟩ := updates_keep o.imm o.dim size other us hok hia st st' hu himm h
  obtain ⟨zds, hz, hwin, _, _⟩ := C54_load o st' listing filters size other m2
    (fun q hq hfq => by obtain ⟨vs, hvs⟩ := hst q hq hfq; exact m4 q vs hvs) m3 hsel
  refine ⟨st', zds, m1, hz, ?_⟩
  intro k q ws hk hws w hwm hch
  obtain ⟨v', hv', hn⟩ := hwin.present q (List.mem_of_getElem? hk) ws hws w hwm hch
  obtain ⟨e1, e2, e3⟩ := hwin.values v' hv' k q ws w hk hws hwm hn.symm
  exact ⟨v', hv', hn, e1, e2, e3⟩

/-- The callback that applies a function to each value of a variable, for instance
`lambda zds: {'x': zds.variables['x'].array + 1}`. -/
def mapVar (name : String) (g : V → V) : Callback V (Dict V) := fun zds _ => do
  let x ← arrayOf zds name
  .ok [(name, mapArr g x)]

omit [DecidableEq P] in
theorem mapVar_spec {name : String} {g : V → V} {zds : Dataset V} {ind : Option (Nat × Nat)}
    {d : Dict V} (h : mapVar name g zds ind = .ok d) :
    ∃ x, arrayOf zds name = .ok x ∧ d = [(name, mapArr g x)] := by
  simp only [mapVar, bind, Except.bind] at h
  split at h
  · cases h
  · next x hx => cases h; exact ⟨x, hx, rfl⟩

omit [DecidableEq P] in
theorem mapArr_ok (g : V → V) (a : Arr V) (h : ArrOk a) : ArrOk (mapArr g a) := by
  intro idx
  refine Iff.trans ?_ (h idx)
  simp only [mapArr]
  cases a.get idx with
  | none => simp
  | some v => simp

omit [DecidableEq P] in
theorem mapVar_arrays (name : String) (g : V → V) : KeepsArrays (mapVar name g) := by
  intro zds d hz h x hx
  obtain ⟨a, ha, rfl⟩ := mapVar_spec h
  simp only [List.mem_singleton] at hx
  subst hx
  obtain ⟨w, hw, _, rfl⟩ := UpdateLoadCase.arrayOf_mem ha
  exact mapArr_ok g _ (hz w hw)

/-- The partition holds the variable, once or with the same values. -/
def HoldsAs (vars : List (Var V)) (n : String) (dims : List String) (a : Arr V) : Prop :=
  (∃ v ∈ vars, v.name = n) ∧ ∀ v ∈ vars, v.name = n → v.dims = dims ∧ v.array = a

theorem applied_made (imm : List (Var V)) (name : String) (hfresh : ∀ w ∈ imm, w.name ≠ name)
    (us : List (UpdCall P V × (V → V))) (hus : ∀ u ∈ us, u.1.f = mapVar name u.2) (q : P)
    (n : String) (dims : List String) : ∀ (a b : Store P V) (vars : List (Var V)) (x : Arr V),
    MadeInTurn imm (us.map fun u => u.1.change) a b → a q = some vars → HoldsAs vars n dims x →
    ∃ ws, b q = some ws ∧ HoldsAs ws n dims
      (if n = name then mapArr (appliedTo q (us.map fun u => (u.1.c.parts, u.2))) x else x) := by
  induction us with
  | nil =>
    intro a b vars x h ha hx
    cases h
    refine ⟨vars, ha, ?_⟩
    split
    · have : mapArr (appliedTo q []) x = x := by
        simp only [mapArr, appliedTo]
        cases x
        simp only [Arr.mk.injEq, true_and]
        funext i
        exact Option.map_id'
      simpa only [List.map_nil, this] using hx
    · exact hx
  | cons u t ih =>
    intro a b vars x h ha hx
    obtain ⟨m, h1, h2⟩ := h
    have hstep : ∃ ws, m q = some ws ∧ HoldsAs ws n dims
        (if n = name ∧ q ∈ u.1.c.parts then mapArr u.2 x else x) := by
      by_cases hq : q ∈ u.1.c.parts
      · obtain ⟨shown, d, ws, e1, e2, e3, e4, e5⟩ := (h1 q).2 hq vars ha
        have e2 : mapVar name u.2 shown none = .ok d := by
          rw [← hus u (by simp)]; exact e2
        obtain ⟨y, hy, rfl⟩ := mapVar_spec e2
        obtain ⟨w0, hw0, hn0, hy0⟩ := UpdateLoadCase.arrayOf_mem hy
        obtain ⟨_, v0, rfl, hv0⟩ := e1.only w0 hw0
        have hv0 : v0 ∈ vars := hv0.resolve_right (fun hi => hfresh v0 hi hn0)
        refine ⟨ws, e3, ?_, ?_⟩
        · obtain ⟨v, hv, hvn⟩ := hx.1
          obtain ⟨w, hw, hr⟩ := e4 v hv
          exact ⟨w, hw, hr.1.trans hvn⟩
        · intro w hw hwn
          obtain ⟨v, hv, r1, r2, _, r4, r5⟩ := e5 w hw
          obtain ⟨x1, x2⟩ := hx.2 v hv (r1.symm.trans hwn)
          refine ⟨r2.trans x1, ?_⟩
          by_cases hnn : n = name
          · rw [if_pos ⟨hnn, hq⟩]
            rw [r4 (mapArr u.2 y) (by rw [← r1, hwn, hnn]; simp)]
            rw [← hy0]
            rw [(hx.2 v0 hv0 (by rw [hnn]; exact hn0)).2]
          · rw [if_neg (fun hc => hnn hc.1)]
            rw [r5 (by rw [← r1, hwn]; simpa using hnn), x2]
      · refine ⟨vars, by rw [(h1 q).1 hq, ha], ?_⟩
        rw [if_neg (fun hc => hq hc.2)]
        exact hx
    obtain ⟨ws, hws, hh⟩ := hstep
    obtain ⟨zs, hzs, hz⟩ := ih (fun v hv => hus v (by simp [hv])) m b ws _ h2 hws hh
    refine ⟨zs, hzs, ?_⟩
    suffices he : (if n = name then
        mapArr (appliedTo q ((u :: t).map fun u => (u.1.c.parts, u.2))) x else x) =
        (if n = name then mapArr (appliedTo q (t.map fun u => (u.1.c.parts, u.2)))
          (if n = name ∧ q ∈ u.1.c.parts then mapArr u.2 x else x)
        else (if n = name ∧ q ∈ u.1.c.parts then mapArr u.2 x else x)) by
      rw [he]; exact hz
    by_cases hn : n = name
    · simp only [hn, true_and, List.map_cons, appliedTo]
      by_cases hq : q ∈ u.1.c.parts
      · simp only [hq, if_true, mapArr, Option.map_map]
        rfl
      · simp only [hq, if_false]
    · simp only [hn, false_and, if_false]

/-- C84 for updates that apply a function to each value of a variable: after any number of them,
each on some partitions, the load succeeds, and shows for each partition the values to which the
functions of the updates of this partition were applied in turn, and the other variables as they
were. -/
theorem C84_applied (o : Opts V) (name : String) (us : List (UpdCall P V × (V → V)))
    (st st' : Store P V)
    (listing : List P) (filters : P → Bool) (size : P → Nat) (other : String → Nat)
    (hu : Uniform o.dim size other st)
    (hus : ∀ u ∈ us, u.1.f = mapVar name u.2 ∧ u.1.c.dim = o.dim ∧ u.1.c.imm = o.imm ∧
      u.1.c.parts.Nodup)
    (hfresh : ∀ iv, o.imm = some iv → ∀ w ∈ iv, w.name ≠ name)
    (himm : ∀ iv, o.imm = some iv → GoodImm o.dim other st iv)
    (hia : ∀ iv, o.imm = some iv → ∀ w ∈ iv, ArrOk w.array)
    (hst : ∀ q ∈ listing, filters q = true → ∃ vars, st q = some vars)
    (hsel : ∃ q ∈ listing, filters q = true) (h : AllUpdated (us.map (·.1)) st st') :
    ∃ zds, load o st' listing filters = .ok (some zds) ∧
      ∀ (k : Nat) (q : P) (vars : List (Var V)), (listing.filter filters)[k]? = some q →
        st q = some vars → ∀ v ∈ vars, Chosen o.sel v.name →
        ReadsAs o.dim size (listing.filter filters) zds k q v.name v.dims
          (if v.name = name then
            mapArr (appliedTo q (us.map fun u => (u.1.c.parts, u.2))) v.array
          else v.array) := by
  obtain ⟨content, zds, h1, h2, h3⟩ := C84_history_partial o (us.map (·.1)) st st' listing filters
    size other hu (by
      intro u hu'
      obtain ⟨x, hx, rfl⟩ := List.mem_map.1 hu'
      obtain ⟨x1, x2, x3, x4⟩ := hus x hx
      refine ⟨x2, x3, x4, ?_, ?_, .inr ?_, .inr ?_⟩
      · rw [x1]; intro zds ind d hd; obtain ⟨_, _, rfl⟩ := mapVar_spec hd; simp
      · rw [x1]; exact mapVar_arrays _ _
      · rw [x1]; intro zds ind d hd; obtain ⟨_, _, rfl⟩ := mapVar_spec hd; simp
      · rw [x1]; intro zds ind d hd; obtain ⟨_, _, rfl⟩ := mapVar_spec hd; simp)
    himm hia hst hsel h
  refine ⟨zds, h2, ?_⟩
  intro k q vars hk hq v hv hch
  have hnd := (hu.good.1 q vars hq).1
  have h1 : MadeInTurn (o.imm.getD []) (us.map fun u => u.1.change) st content := by
    rw [List.map_map] at h1; exact h1
  obtain ⟨ws, hws, ⟨w, hw, hwn⟩, hall⟩ := applied_made (o.imm.getD []) name (by
      cases hi : o.imm with
      | none => simp
      | some iv => exact hfresh iv hi) us (fun u hu => (hus u hu).1) q v.name v.dims st content
    vars v.array h1 hq ⟨⟨v, hv, rfl⟩, fun v' hv' hn => by
      have e1 := getVar_of_mem vars hnd v hv
      have e2 := getVar_of_mem vars hnd v' hv'
      rw [hn, e1] at e2
      rw [Option.some.inj e2]
      exact ⟨rfl, rfl⟩⟩
  have hr := h3 k q ws hk hws w hw (by rw [hwn]; exact hch)
  obtain ⟨a1, a2⟩ := hall w hw hwn
  rw [hwn, a1, a2] at hr
  exact hr

namespace UpdateHistoryCase

def add1 : UpdCall String Nat × (Nat → Nat) :=
  ({ c := plain 0 ["p", "q"], f := mapVar "x" (· + 1), isLazy := true, known := ["x"],
     vars := [], workers := 1 }, (· + 1))

def double : UpdCall String Nat × (Nat → Nat) :=
  ({ c := plain 0 ["q"], f := mapVar "x" (2 * ·), isLazy := false, known := ["x"],
     vars := ["x"], workers := 1 }, (2 * ·))

/-- The hypotheses of `C84_applied` are met by two updates: one is added to all the values, then
those of the second partition are doubled. -/
example : ∃ st' zds, AllUpdated [add1.1, double.1] twoParts st' ∧
    load UpdateLoadCase.opts st' ["p", "q"] (fun _ => true) = .ok (some zds) ∧
    ReadsAs "d" sizeTwo ["p", "q"] zds 1 "q" "x" ["d"]
      (mapArr (fun v => 2 * (v + 1)) (vec [2, 3])) ∧
    ReadsAs "d" sizeTwo ["p", "q"] zds 0 "p" "x" ["d"] (mapArr (fun v => v + 1) (vec [1])) := by
  let r := update add1.1.c 0 add1.1.f add1.1.isLazy add1.1.known add1.1.vars 1 twoParts
  have hr : r = (r.1, .ok ()) := by
    have : r.2 = .ok () := by rfl
    rw [← this]
  let s := update double.1.c 0 double.1.f double.1.isLazy double.1.known double.1.vars 1 r.1
  have hs : s = (s.1, .ok ()) := by
    have : s.2 = .ok () := by rfl
    rw [← this]
  have hall : AllUpdated ([add1, double].map (·.1)) twoParts s.1 := ⟨r.1, hr, s.1, hs, rfl⟩
  obtain ⟨zds, h1, h2⟩ := C84_applied UpdateLoadCase.opts "x" [add1, double] twoParts s.1
    ["p", "q"] (fun _ => true) sizeTwo (fun _ => 2) twoParts_uniform (by
      intro u hu
      simp only [List.mem_cons, List.not_mem_nil, or_false] at hu
      rcases hu with rfl | rfl
      · exact ⟨rfl, rfl, rfl, by decide⟩
      · exact ⟨rfl, rfl, rfl, by decide⟩)
    (fun _ hi => by cases hi) (fun _ hi => by cases hi) (fun _ hi => by cases hi)
    UpdateLoadCase.two_exist ⟨"p", by simp, rfl⟩ hall
  exact ⟨s.1, zds, hall, h1,
    h2 1 "q" _ rfl rfl (dvar "x" [2, 3]) (by simp) (fun _ hl => by cases hl),
    h2 0 "p" _ rfl rfl (dvar "x" [1]) (by simp) (fun _ hl => by cases hl)⟩

end UpdateHistoryCase

end Verif
