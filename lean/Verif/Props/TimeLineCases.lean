import Verif.Props.TimeLineDate
import Verif.Props.MergeDatasetCases

/-! Cases for C68: a collection of the hours of `x`, with the variable `z`, which has two
dimensions, and `lut`, which is not split. -/

namespace Verif

open Spec Nd Ds Sch TSD Cal

namespace LineCase

def metas : List (VarMeta Int) :=
  [⟨"x", ["x"], none, 0⟩, ⟨"z", ["x", "y"], none, 0⟩, ⟨"lut", ["y"], none, 0⟩]

def obj : Obj Int :=
  { axis := "x", keys := ["x"], dims := ["x", "y"], metas := metas, dim := "x",
    imm := true, readOnly := false }

def scheme : Pipe.Scheme Int :=
  { variables := ["x"], date := true, asKey := fun y => some (trunc 1 .hour y) }

def axis : Axis Int := { asTime := some, axis := "x", dim := "x" }

def world : World (List Int) Int :=
  { undef := fun _ => 0, noneValue := .ok (-1), serial := fun _ => true,
    emptyBag := .error .typeError,
    list := fun st => [[0], [1]].filter fun p => (st p).isSome,
    split := Pipe.splitDataset scheme, sameMeta := fun _ _ => true, broken := fun _ => false }

theorem byTime : ByTime axis scheme (trunc 1 .hour) :=
  C68_date 1 (by decide) .hour axis scheme rfl (by intro y t h; cases h; rfl)

/-- A dataset with the dates `ts`. -/
def at' (ts : List Int) (i : List Nat) : Int := (ts[i.sum]?).getD 0

def vars (ts : List Int) (shift : Int) : List (Var Int) :=
  [PipeCase.var "x" ["x"] [ts.length] (at' ts),
    PipeCase.var "z" ["x", "y"] [ts.length, 2] (fun i => shift + i.sum)]

def dataset (ts : List Int) (shift : Int) : Dataset Int :=
  { dims := [("x", ts.length), ("y", 2)],
    vars := vars ts shift ++ [PipeCase.var "lut" ["y"] [2] (fun i => 5 + i.sum)],
    attrs := [], chunks := [], limit := 1, delayed := true }

def files : Files (List Int) Int :=
  { config := .ok (Config.mk "x" ["x"] ["x", "y"] metas), parts := fun _ => none, imm := none }

theorem aligned : Aligned obj files := by
  refine ⟨by decide, ?_, ⟨_, rfl, rfl, rfl, rfl, List.Perm.refl _⟩, ?_, ?_, ?_, ?_,
    [], fun p h => absurd rfl h⟩
  · intro k hk
    exact ⟨⟨"x", ["x"], none, 0⟩, by simp [obj, metas], by
      simp only [obj, List.mem_singleton] at hk; exact hk.symm⟩
  · intro p vs h; cases h
  · simp [obj, metas]
  · rintro _ ⟨p, hp⟩; exact absurd rfl hp
  · intro iv h; cases h

theorem mem_vars {ts : List Int} {shift : Int} {v : Var Int} (hv : v ∈ (dataset ts shift).vars) :
    v = PipeCase.var "x" ["x"] [ts.length] (at' ts) ∨
    v = PipeCase.var "z" ["x", "y"] [ts.length, 2] (fun i => shift + i.sum) ∨
    v = PipeCase.var "lut" ["y"] [2] (fun i => 5 + i.sum) := by
  simpa [dataset, vars] using hv

theorem insertable (ts : List Int) (shift : Int) : Insertable obj (dataset ts shift) := by
  refine ⟨⟨by simp [dataset], by simp [dataset, vars, PipeCase.var], ?_, ?_⟩, ?_, ?_⟩
  · intro v hv
    rcases mem_vars hv with rfl | rfl | rfl <;> rfl
  · intro v hv i d hi
    rcases mem_vars hv with rfl | rfl | rfl <;>
      (match i, hi with
        | 0, hi => cases hi; exact ⟨_, rfl, rfl⟩
        | 1, hi => first | (cases hi; exact ⟨_, rfl, rfl⟩) | cases hi
        | i + 2, hi => cases hi)
  · intro v hv
    rcases mem_vars hv with rfl | rfl | rfl <;> rfl
  · intro v hv m hm he
    simp only [obj, metas, List.mem_cons, List.not_mem_nil, or_false] at hm
    rcases mem_vars hv with rfl | rfl | rfl <;> rcases hm with rfl | rfl | rfl <;>
      first | rfl | (simp [PipeCase.var] at he)

theorem arrOk (ts : List Int) (shift : Int) : ∀ v ∈ (dataset ts shift).vars, ArrOk v.array := by
  intro v hv
  rcases mem_vars hv with rfl | rfl | rfl <;> exact Vw.tabulate_arrOk _ _

theorem dims : ∀ m ∈ obj.metas, m.dims.Nodup := by
  intro m hm
  simp only [obj, metas, List.mem_cons, List.not_mem_nil, or_false] at hm
  rcases hm with rfl | rfl | rfl <;> decide

def signature : Signature Int := fun n =>
  if n = "x" then some (["x"], none, 0) else if n = "z" then some (["x", "y"], none, 0) else none

def sizes : String → Nat := fun _ => 2

theorem holds (ts : List Int) (shift : Int) :
    ∃ l, HoldsLine axis signature sizes (dataset ts shift).vars l ∧ l.map (·.1) = ts := by
  have hmem : ∀ v ∈ vars ts shift, v = PipeCase.var "x" ["x"] [ts.length] (at' ts) ∨
      v = PipeCase.var "z" ["x", "y"] [ts.length, 2] (fun i => shift + i.sum) := by
    intro v hv
    simpa [vars] using hv
  obtain ⟨l, hn, hl⟩ := holds_exists axis ts.length sizes (vars ts shift) (by
      simp [vars, PipeCase.var]) (by
      intro v hv
      rcases hmem v hv with rfl | rfl <;> exact Vw.tabulate_arrOk _ _) (by
      intro v hv
      rcases hmem v hv with rfl | rfl <;> simp [PipeCase.var, axis]) (by
      intro v hv
      rcases hmem v hv with rfl | rfl <;> rfl) _ List.mem_cons_self rfl rfl (by
      intro j y _ h
      cases h)
  have hsig : (fun m => (getVar (vars ts shift) m).map fun v => (v.dims, v.fill, v.props)) =
      signature := by
    funext m
    simp only [vars, getVar_cons, PipeCase.var, signature]
    by_cases h1 : m = "x"
    · subst h1; rfl
    · rw [if_neg (Ne.symm h1), if_neg h1]
      by_cases h2 : m = "z"
      · subst h2; rfl
      · rw [if_neg (Ne.symm h2), if_neg h2]
        rfl
  rw [hsig] at hl
  refine ⟨l, ⟨?_, hl, ?_⟩, ?_⟩
  · simp [dataset, vars, PipeCase.var]
  · intro v hv hd
    rcases mem_vars hv with rfl | rfl | rfl
    · exact absurd (by simp [PipeCase.var, axis]) hd
    · exact absurd (by simp [PipeCase.var, axis]) hd
    · rfl
  · apply List.ext_getElem?
    intro j
    rw [List.getElem?_map]
    by_cases hj : j < ts.length
    · obtain ⟨v, hv, hvn, _, hvt⟩ := hl.axis
      have hve : v = PipeCase.var "x" ["x"] [ts.length] (at' ts) := by
        rcases hmem v hv with rfl | rfl
        · rfl
        · revert hvn; simp [PipeCase.var, axis]
      subst hve
      have e : l[j]? = some l[j] := List.getElem?_eq_getElem (by omega)
      obtain ⟨y, y1, y2⟩ := hvt j _ e
      have := Vw.tabulate_get [ts.length] (at' ts) [j] ((inside_one _ j).2 hj)
      rw [show (PipeCase.var "x" ["x"] [ts.length] (at' ts)).array.get [j] = _ from this] at y1
      cases y1
      rw [e, Option.map_some, ← y2]
      simp [axis, at', hj]
    · rw [List.getElem?_eq_none (by omega), List.getElem?_eq_none (by omega)]
      rfl

/-- Two insertions, of the dates `a` and then `b`. -/
theorem filled (a b : List Int) (sa sb : Int) (ha : a.Pairwise (· < ·)) (hb : b.Pairwise (· < ·))
    (fs1 fs2 : Files (List Int) Int) (ka kb : List (List Int))
    (h1 : Sch.insert world obj .never true none (some (TSD.mergeTimeSeries axis none))
      (dataset a sa) files = (dataset a sa, fs1, .ok ka))
    (h2 : Sch.insert world obj .never true none (some (TSD.mergeTimeSeries axis none))
      (dataset b sb) fs1 = (dataset b sb, fs2, .ok kb))
    (hka : ∀ k ∈ ka, k ∈ [[0], [1]]) (hkb : ∀ k ∈ kb, k ∈ [[0], [1]]) :
    ∃ la lb, la.map (·.1) = a ∧ lb.map (·.1) = b ∧
      Filled world obj axis signature sizes files [⟨la, none, true⟩, ⟨lb, none, true⟩] fs2 ∧
      OrderedListing world fs2.parts := by
  obtain ⟨la, hla, hta⟩ := holds a sa
  obtain ⟨lb, hlb, htb⟩ := holds b sb
  refine ⟨la, lb, hta, htb, ?_, ?_⟩
  · exact .insert (.insert (.start files) .never true none none _ _ la _ (insertable a sa)
      (arrOk a sa) h1 hla (List.pairwise_map.1 (by rw [hta]; exact ha))) .never true none none _ _ lb
      _ (insertable b sb) (arrOk b sb) h2 hlb (List.pairwise_map.1 (by rw [htb]; exact hb))
  · have hal : Aligned obj fs1 := by
      have := C30_insert world .never true none (merge := some (TSD.mergeTimeSeries axis none))
        (fun f hf => by cases hf; exact C30_merge_time_series axis none) (fun _ => rfl)
        (insertable a sa) aligned
      rw [h1] at this
      exact this
    obtain ⟨_, _, p1, _⟩ := C22_dataset_partial world obj scheme rfl (fun _ => rfl) (fun _ => rfl)
      dims .never true none _ _ _ (insertable a sa) (arrOk a sa) files fs1 aligned ka h1 (.inl rfl)
    obtain ⟨_, _, p2, _⟩ := C22_dataset_partial world obj scheme rfl (fun _ => rfl) (fun _ => rfl)
      dims .never true none _ _ _ (insertable b sb) (arrOk b sb) fs1 fs2 hal kb h2 (.inl rfl)
    refine ⟨List.Pairwise.filter _ (by decide), fun k => ?_⟩
    simp only [world, List.mem_filter, ne_eq]
    constructor
    · rintro ⟨_, h⟩ he
      rw [he] at h
      cases h
    · intro hp
      refine ⟨Classical.byContradiction fun hc => hp ?_, Option.isSome_iff_ne_none.2 hp⟩
      rw [p2 k fun h => hc (hkb k h), p1 k fun h => hc (hka k h)]
      rfl

/-- The values of the variables that were loaded, along one dimension. -/
def shownVars (r : Py (Option (Dataset Int))) : Option (List (String × List Nat × List (Option Int))) :=
  match r with
  | .ok (some zds) => some (zds.vars.map fun v =>
      (v.name, v.array.shape, (List.range 6).map fun j => v.array.get [j]))
  | _ => none

/-- The times of the records that are loaded. -/
theorem times_of {zds : Dataset Int} {l : List (Int × Content Int)} {n : Nat}
    {c : List (Option Int)} {rest : List (String × List Nat × List (Option Int))}
    (h : HoldsLine axis signature sizes zds.vars l)
    (hs : zds.vars.map (fun v => (v.name, v.array.shape,
      (List.range 6).map fun j => v.array.get [j])) = ("x", [n], c) :: rest) (hn : n ≤ 6) :
    l.map (fun r => some r.1) = c.take n := by
  obtain ⟨hnd, hl, _⟩ := h
  obtain ⟨v, hv, hvn, hvd, hvt⟩ := hl.axis
  have hsh := hl.shapes v hv
  obtain ⟨hv, _⟩ := List.mem_filter.1 hv
  match hz : zds.vars, hs with
  | u :: us, hs =>
    simp only [List.map_cons, List.cons.injEq, Prod.mk.injEq] at hs
    obtain ⟨⟨e1, e2, rfl⟩, _⟩ := hs
    have hvu : v = u := eq_of_nodup_map hnd hv (by rw [hz]; simp) (by rw [hvn, e1]; rfl)
    subst hvu
    rw [hvd, e2] at hsh
    have hlen : n = l.length := by simpa [axis] using hsh
    apply List.ext_getElem?
    intro j
    by_cases hj : j < n
    · have e : l[j]? = some l[j] := List.getElem?_eq_getElem (by omega)
      obtain ⟨y, y1, y2⟩ := hvt j _ e
      cases y2
      simp [hj, e, y1, show j < 6 by omega]
    · rw [List.getElem?_eq_none (by simp; omega), List.getElem?_eq_none (by simp; omega)]

/-- An insertion of the dates `ts`. -/
def step (ts : List Int) (shift : Int) (fs : Files (List Int) Int) :
    Dataset Int × Files (List Int) Int × Py (List (List Int)) :=
  Sch.insert world obj .never true none (some (TSD.mergeTimeSeries axis none)) (dataset ts shift) fs

/-- The files after two insertions, and what is loaded. -/
def after (a b : List Int) : Files (List Int) Int := (step b 100 (step a 0 files).2.1).2.1

def loaded (a b : List Int) : Py (Option (Dataset Int)) :=
  Sch.load world obj (fun _ _ => true) false none (fun _ => true) none (after a b)

theorem shownVars_ok {r : Py (Option (Dataset Int))} {zds : Dataset Int} (h : r = .ok (some zds))
    {c : List (String × List Nat × List (Option Int))} (hc : shownVars r = some c) :
    zds.vars.map (fun v => (v.name, v.array.shape,
      (List.range 6).map fun j => v.array.get [j])) = c := by
  subst h
  exact Option.some.inj hc

end LineCase

open LineCase

/-- The dates 0, 5, 7, 4000, then 5, 3601: the first record of the date 5 is replaced, the records
of the two hours are loaded in the order of the dates. -/
example : ∃ fs la lb zds l,
    Filled world obj axis LineCase.signature LineCase.sizes LineCase.files
      [⟨la, none, true⟩, ⟨lb, none, true⟩] fs ∧
    la.map (·.1) = [0, 5, 7, 4000] ∧ lb.map (·.1) = [5, 3601] ∧
    Sch.load world obj (fun _ _ => true) false none (fun _ => true) none fs = .ok (some zds) ∧
    HoldsLine axis LineCase.signature LineCase.sizes zds.vars l ∧
    l.map (·.1) = [0, 5, 7, 3601, 4000] ∧ (∀ r ∈ lb, r ∈ l) := by
  obtain ⟨la, lb, hta, htb, hf, ho⟩ := LineCase.filled [0, 5, 7, 4000] [5, 3601] 0 100 (by decide) (by decide)
    _ _ [[0], [1]] [[0], [1]] rfl rfl (by simp) (by simp)
  have hshow : shownVars (loaded [0, 5, 7, 4000] [5, 3601]) = some
      [("x", [5], [some 0, some 5, some 7, some 3601, some 4000, none]),
       ("z", [5, 2], [none, none, none, none, none, none]),
       ("lut", [2], [some 5, some 6, none, none, none, none])] := by decide +kernel
  have htick : NoTick (trunc 1 .hour) [⟨la, none, true⟩, ⟨lb, none, true⟩] := by
    intro before s after hs r hr s' hs' a ha
    match before, hs with
    | [], hs =>
      simp only [List.nil_append, List.cons.injEq] at hs
      obtain ⟨rfl, rfl⟩ := hs
      simp only [List.mem_singleton] at hs'
      subst hs'
      have h1 : r.1 ∈ la.map (·.1) := List.mem_map_of_mem hr
      have h2 : a ∈ lb.map (·.1) :=
        (List.filter_sublist.map _).subset ha.1
      rw [hta] at h1
      rw [htb] at h2
      simp at h1 h2
      omega
    | [_], hs =>
      simp only [List.cons_append, List.nil_append, List.cons.injEq] at hs
      obtain ⟨_, _, rfl⟩ := hs
      cases hs'
    | _ :: _ :: b, hs => simp at hs
  rcases C68_content_partial world obj scheme axis LineCase.signature LineCase.sizes (trunc 1 .hour)
    byTime rfl (fun _ => rfl) (fun _ => rfl) LineCase.dims rfl LineCase.files _ LineCase.aligned
    (fun _ => rfl) rfl _ hf ho (by simp) htick (fun _ _ => true) false (fun _ => true) with
    ⟨h, _⟩ | ⟨zds, l, h1, h2, h3, h4⟩
  · have h : loaded [0, 5, 7, 4000] [5, 3601] = .ok none := h
    rw [h] at hshow
    cases hshow
  · refine ⟨_, la, lb, zds, l, hf, hta, htb, h1, h2, ?_, fun r hr => (h4 r).2 ⟨rfl, ?_⟩⟩
    · have := times_of h2 (shownVars_ok (r := loaded [0, 5, 7, 4000] [5, 3601]) h1 hshow) (by decide)
      have := congrArg (List.filterMap id) this
      simpa [List.filterMap_map, Function.comp_def, List.filterMap_eq_map'] using this
    · exact ⟨[⟨la, none, true⟩], _, [], rfl, hr, by simp⟩

/-- C68: the dates 0, 5, 6, 9, 4000, then 5: the record of the date 6 is lost. -/
theorem C68_counterexample : ¬ C68_full := by
  intro hfull
  obtain ⟨la, lb, hta, htb, hf, ho⟩ := LineCase.filled [0, 5, 6, 9, 4000] [5] 0 100 (by decide) (by decide)
    _ _ [[0], [1]] [[0]] rfl rfl (by simp) (by simp)
  have hshow : shownVars (loaded [0, 5, 6, 9, 4000] [5]) = some
      [("x", [4], [some 0, some 5, some 9, some 4000, none, none]),
       ("z", [4, 2], [none, none, none, none, none, none]),
       ("lut", [2], [some 5, some 6, none, none, none, none])] := by decide +kernel
  have hex : ∃ zds, loaded [0, 5, 6, 9, 4000] [5] = .ok (some zds) := by
    unfold shownVars at hshow
    split at hshow
    · next zds h => exact ⟨zds, h⟩
    · cases hshow
  obtain ⟨zds, hz⟩ := hex
  obtain ⟨l, h1, _, h3⟩ := hfull Int world obj scheme axis LineCase.signature LineCase.sizes
    (trunc 1 .hour) byTime rfl (fun _ => rfl) (fun _ => rfl) LineCase.dims rfl LineCase.files _
    LineCase.aligned (fun _ => rfl) rfl _ hf ho (by simp) (fun _ _ => true) false (fun _ => true)
    zds hz
  have ht := times_of h1 (shownVars_ok hz hshow) (by decide)
  have h6 : (6 : Int) ∈ la.map (·.1) := by rw [hta]; decide
  obtain ⟨r, hr, hr6⟩ := List.mem_map.1 h6
  have hl : r ∈ l := by
    refine (h3 r).2 ⟨rfl, [], _, [⟨lb, none, true⟩], rfl, hr, ?_⟩
    intro s' hs' _
    simp only [List.mem_singleton] at hs'
    subst hs'
    rintro ⟨_, b, hb, h⟩
    have : b ∈ lb.map (·.1) := (List.filter_sublist.map _).subset hb
    rw [htb] at this
    simp at this
    omega
  have : some r.1 ∈ l.map (fun r => some r.1) := List.mem_map_of_mem hl
  rw [ht, hr6] at this
  simp at this

end Verif
