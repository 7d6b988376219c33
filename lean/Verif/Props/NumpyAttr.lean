import Verif.Lemmas.NumpyAttr
import Verif.Props.ConfigText

/-! C82: attributes given as values of numpy. -/

namespace Verif

open Json (V Key Flt dump)
open Cft (Var Ds Conf Coll openFile writeConfig create)
open Na (Scalar Arg Tick attrOf sameMeta tolist)
open Spec

/-- C82, in full: what was written of an attribute is read as the value the user gave. -/
def C82_full : Prop :=
  ∀ (c : Coll) (name : String) (a : Arg), Metadata c.mem.ds → attrOf name a ∈ c.mem.ds.attrs →
    (writeConfig c).2 = .ok () → ∃ e, openFile (writeConfig c).1.file = .ok e ∧
      ∃ v, (name, v) ∈ e.ds.attrs ∧ HeldAs a v

/-- C82: an array can be written exactly if all its elements are booleans, numbers, texts or times
that numpy gives as numbers; the same for a scalar. -/
theorem C82_accepted (w : Nat) :
    (∀ s, (dump w (Na.encode (.scalar s))).2 = .ok () ↔ Simple s ∨ Counted s) ∧
    ∀ shape f, (dump w (Na.encode (.array shape f))).2 = .ok () ↔
      ∀ ix, InShape shape ix → Simple (f ix) ∨ Counted (f ix) := by
  refine ⟨fun s => ?_, fun shape f => ?_⟩
  · rw [(C79_accepted w _).1]
    exact Na.item_writable s
  · rw [(C79_accepted w _).1]
    refine (Na.tolist_writable shape f).trans ?_
    exact ⟨fun h ix hx => (Na.item_writable _).1 (h ix hx),
      fun h ix hx => (Na.item_writable _).2 (h ix hx)⟩

/-- C82: without dates and durations that numpy gives as numbers, the attributes of the dataset
and of every variable are read as the values that the user gave: an array of any shape as nested
lists of its elements. -/
theorem C82_held_partial (c : Coll) (hm : Metadata c.mem.ds) (hw : (writeConfig c).2 = .ok ()) :
    ∃ e, openFile (writeConfig c).1.file = .ok e ∧
      (∀ name a, attrOf name a ∈ c.mem.ds.attrs → NoCounted a →
        ∃ v, (name, v) ∈ e.ds.attrs ∧ HeldAs a v) ∧
      ∀ x ∈ c.mem.ds.vars, ∃ y ∈ e.ds.vars, y.name = x.name ∧
        ∀ name a, attrOf name a ∈ x.attrs → NoCounted a →
          ∃ v, (name, v) ∈ y.attrs ∧ HeldAs a v := by
  have hc := (Cft.writable_conf c.mem).1 ((C79_accepted 4 _).1.1 hw)
  obtain ⟨e, h1, h2⟩ := (C79_open c hm hc).2
  refine ⟨e, h1, ?_, ?_⟩
  · intro name a ha hn
    refine ⟨readAs (Na.encode a), ?_, Na.encode_held a (hc.ds.attrs _ ha) hn⟩
    exact h2.ds.attrs.mem_iff.2 (List.mem_map.2 ⟨_, ha, rfl⟩)
  · intro x hx
    obtain ⟨f, h3, h4⟩ := h2.ds.vars
    refine ⟨f x, h4.mem_iff.2 (List.mem_map.2 ⟨x, hx, rfl⟩), (h3 x hx).name, ?_⟩
    intro name a ha hn
    refine ⟨readAs (Na.encode a), ?_, Na.encode_held a ((hc.ds.vars x hx).attrs _ ha) hn⟩
    exact (h3 x hx).attrs.mem_iff.2 (List.mem_map.2 ⟨_, ha, rfl⟩)

/-- C82: a date to the nanosecond, and the other times that numpy gives as numbers, are read as
integers. -/
theorem C82_counted (c : Coll) (hm : Metadata c.mem.ds) (hw : (writeConfig c).2 = .ok ())
    (name : String) (s : Scalar) (hs : Counted s) (ha : attrOf name (.scalar s) ∈ c.mem.ds.attrs) :
    ∃ e i, openFile (writeConfig c).1.file = .ok e ∧ (name, .int i) ∈ e.ds.attrs ∧
      ¬ HeldAs (.scalar s) (.int i) := by
  have hc := (Cft.writable_conf c.mem).1 ((C79_accepted 4 _).1.1 hw)
  obtain ⟨e, h1, h2⟩ := (C79_open c hm hc).2
  obtain ⟨i, hi⟩ := Na.item_counted s hs
  refine ⟨e, i, h1, ?_, ?_⟩
  · refine h2.ds.attrs.mem_iff.2 (List.mem_map.2 ⟨_, ha, ?_⟩)
    simp only [attrOf, Na.encode, hi, readAs]
  · rw [HeldAs]
    cases s with
    | date u t => simp [StandsFor]
    | duration u t => simp [StandsFor]
    | _ => simp [Counted] at hs

/-- C82: a list or a tuple that holds, at any depth, an array or a scalar of numpy other than a
`float64` or a text is refused; the file that is written cannot be opened. -/
theorem C82_nested (c : Coll) (name : String) (a b : Arg) (h : HeldIn a b) (hf : Foreign a)
    (hb : attrOf name b ∈ c.mem.ds.attrs) :
    (writeConfig c).2 = .error .typeError ∧
      openFile (writeConfig c).1.file = .error .valueError := by
  have hbad : ¬ Writable (Na.encode b) := by
    have h1 : ¬ Writable (Na.inside b) :=
      Na.heldIn_bad h (by rw [Na.foreign_inside hf]; simp [Writable])
    cases h <;> exact h1
  have hc : ¬ Writable (Cft.encode c.mem) := fun hw =>
    hbad (((Cft.writable_conf c.mem).1 hw).ds.attrs _ hb)
  refine ⟨(C79_accepted 4 _).2.2 hc, ?_⟩
  have ht := C79_torn 4 _ (dump 4 (Cft.encode c.mem)).1 [] (by simp [Cft.encode]) (.inr hc)
  simp only [writeConfig, openFile, ht, bind, Except.bind]

/-- C82: the same for a scalar or an array that has a date, a duration, bytes or a complex
number. -/
theorem C82_refused (c : Coll) (name : String) (shape : List Nat) (f : List Nat → Scalar)
    (ix : List Nat) (hx : InShape shape ix) (hf : ¬ Simple (f ix) ∧ ¬ Counted (f ix))
    (hb : attrOf name (.array shape f) ∈ c.mem.ds.attrs) :
    (writeConfig c).2 = .error .typeError ∧
      openFile (writeConfig c).1.file = .error .valueError := by
  have hbad : ¬ Writable (Na.encode (.array shape f)) := by
    intro hw
    rcases (Na.item_writable _).1 ((Na.tolist_writable shape f).1 hw ix hx) with h | h
    · exact hf.1 h
    · exact hf.2 h
  have hc : ¬ Writable (Cft.encode c.mem) := fun hw =>
    hbad (((Cft.writable_conf c.mem).1 hw).ds.attrs _ hb)
  refine ⟨(C79_accepted 4 _).2.2 hc, ?_⟩
  have ht := C79_torn 4 _ (dump 4 (Cft.encode c.mem)).1 [] (by simp [Cft.encode]) (.inr hc)
  simp only [writeConfig, openFile, ht, bind, Except.bind]

/-- C82: two arrays without an empty dimension that give the same attribute have the same shape,
and the same values at every index. -/
theorem C82_injective_partial (s t : List Nat) (f g : List Nat → Scalar) (hs : 0 ∉ s) (ht : 0 ∉ t)
    (h : Na.encode (.array s f) = Na.encode (.array t g)) :
    s = t ∧ ∀ ix, InShape s ix → Na.item (f ix) = Na.item (g ix) := by
  change tolist s f = tolist t g at h
  have hst : s = t := by
    induction s generalizing t f g with
    | nil =>
      cases t with
      | nil => rfl
      | cons m t => exact absurd h (Na.item_scalar _ _)
    | cons n s ih =>
      cases t with
      | nil => exact absurd h.symm (Na.item_scalar _ _)
      | cons m t =>
        simp only [tolist, V.list.injEq] at h
        have hl := congrArg List.length h
        simp only [List.length_map, List.length_range] at hl
        subst hl
        have hn : n ≠ 0 := fun e => hs (by simp [e])
        have h0 : 0 < n := by omega
        have := congrArg (fun l => l[0]?) h
        simp only [List.getElem?_map, List.getElem?_range h0, Option.map_some,
          Option.some.injEq] at this
        rw [ih t _ _ (fun e => hs (by simp [e])) (fun e => ht (by simp [e])) this]
  subst hst
  refine ⟨rfl, fun ix hx => ?_⟩
  have h1 := Na.tolist_entry s f ix hx
  rw [h, Na.tolist_entry s g ix hx] at h1
  exact (Option.some.inj h1).symm

/-- C82: with an empty dimension, the dimensions after it are lost. -/
theorem C82_shape_lost (s t : List Nat) (f g : List Nat → Scalar) :
    Na.encode (.array (0 :: s) f) = Na.encode (.array (0 :: t) g) := rfl

/-- C82: metadata made of values that are read unchanged are equal to those that are opened
exactly if no value is, or holds, "not a number". -/
theorem C82_equal (c : Coll) (hm : Metadata c.mem.ds) (hu : EachConf Unaltered c.mem) :
    ∃ e, openFile (writeConfig c).1.file = .ok e ∧
      (sameMeta c.mem.ds e.ds = true ↔ EachDs NoNan c.mem.ds) := by
  have hw : EachConf Writable c.mem :=
    ⟨⟨fun a ha => (Json.readAs_unaltered _ (hu.ds.attrs a ha)).1,
      fun v hv => ⟨fun a ha => (Json.readAs_unaltered _ ((hu.ds.vars v hv).attrs a ha)).1,
        (Json.readAs_unaltered _ (hu.ds.vars v hv).compressor).1,
        (Json.readAs_unaltered _ (hu.ds.vars v hv).fill).1,
        fun x hx => (Json.readAs_unaltered _ ((hu.ds.vars v hv).filters x hx)).1⟩,
      fun a ha => (Json.readAs_unaltered _ (hu.ds.chunks a ha)).1⟩,
      (Json.readAs_unaltered _ hu.part).1⟩
  have := C79_text 4 (Cft.encode c.mem) ((Cft.writable_conf c.mem).2 hw)
  refine ⟨⟨c.mem.axis, Cft.readDs c.mem.ds, readAs c.mem.part⟩, ?_, ?_⟩
  · rw [writeConfig, openFile, this]
    exact Cft.decode_read c.mem hm
  · rw [sameMeta, Na.encodeDs_read hu.ds, Na.pyEq_self _ (Na.distinct_ds hu.ds), Na.noNan_ds]

namespace NumpyAttrCase

/-- The variable of the axis. -/
def time : Var := ⟨"time", "<i8", ["x"], [attrOf "range" (.array [2] fun
  | [0] => .int (-3)
  | _ => .int 7)], .null, .null, []⟩

/-- A collection with an attribute. -/
def coll (a : Arg) : Coll :=
  ⟨⟨"time", ⟨["x"], [time], [attrOf "a" a], [], 1⟩, .null⟩, ["year"], "x", [], none⟩

theorem coll_metadata (a : Arg) : Metadata (coll a).mem.ds := ⟨by simp [coll], by simp [coll]⟩

theorem coll_each (P : V → Prop) (a : Arg) (h0 : P .null) (ha : P (Na.encode a))
    (ht : P (.list [.int (-3), .int 7])) : EachConf P (coll a).mem := by
  refine ⟨⟨?_, ?_, by simp [coll]⟩, h0⟩
  · intro x hx
    simp only [coll, List.mem_singleton] at hx
    subst hx
    exact ha
  · intro v hv
    simp only [coll, List.mem_singleton] at hv
    subst hv
    refine ⟨?_, h0, h0, by simp [time]⟩
    intro x hx
    simp only [time, List.mem_singleton] at hx
    subst hx
    exact ht

theorem coll_written (a : Arg) (h : Writable (Na.encode a)) :
    (writeConfig (coll a)).2 = .ok () :=
  (C79_accepted 4 _).1.2 ((Cft.writable_conf _).2 (coll_each Writable a (by simp [Writable]) h
    (by simp [Writable, WritableElems])))

/-- A matrix of numbers and what is read of it. -/
def matrix : Arg := .array [2, 2] fun
  | [0, 0] => .int 1
  | [0, 1] => .float false .nan
  | [1, 0] => .bool true
  | _ => .date .second none

example : Na.encode matrix =
    .list [.list [.int 1, .float .nan], .list [.bool true, .null]] := rfl

/-- `C82_held_partial` applies to the matrix. -/
example : ∃ e, openFile (writeConfig (coll matrix)).1.file = .ok e ∧
    ∃ v, ("a", v) ∈ e.ds.attrs ∧ HeldAs matrix v := by
  have hn : NoCounted matrix := by
    intro ix hx
    match ix, hx with
    | [i, j], ⟨h1, h2, _⟩ =>
      match i, j, h1, h2 with
      | 0, 0, _, _ => exact fun h => h
      | 0, 1, _, _ => exact fun h => h
      | 1, 0, _, _ => exact fun h => h
      | 1, 1, _, _ => exact fun h => h
  obtain ⟨e, h1, h2, _⟩ := C82_held_partial (coll matrix) (coll_metadata _)
    (coll_written matrix (by
      show Writable (.list [.list [.int 1, .float .nan], .list [.bool true, .null]])
      simp [Writable, WritableElems]))
  exact ⟨e, h1, h2 "a" matrix (by simp [coll]) hn⟩

/-- `C82_equal`: with the matrix the metadata that are opened differ. -/
example : ∃ e, openFile (writeConfig (coll matrix)).1.file = .ok e ∧
    sameMeta (coll matrix).mem.ds e.ds = false := by
  obtain ⟨e, h1, h2⟩ := C82_equal (coll matrix) (coll_metadata _)
    (coll_each Unaltered matrix (by simp [Unaltered]) (by
      show Unaltered (.list [.list [.int 1, .float .nan], .list [.bool true, .null]])
      simp [Unaltered, UnalteredElems]) (by simp [Unaltered, UnalteredElems]))
  refine ⟨e, h1, ?_⟩
  cases h : sameMeta (coll matrix).mem.ds e.ds with
  | false => rfl
  | true =>
    have := (h2.1 h).attrs (attrOf "a" matrix) (by simp [coll])
    have hm : NoNan (.list [.list [.int 1, .float .nan], .list [.bool true, .null]]) := this
    simp [NoNan, NoNanElems] at hm

/-- `C82_nested`: a list of integers of numpy. -/
example : (writeConfig (coll (.list [.py (.int 1), .list [.scalar (.int 2)]]))).2 =
    .error .typeError :=
  (C82_nested (coll (.list [.py (.int 1), .list [.scalar (.int 2)]])) "a" (.scalar (.int 2))
    (.list [.py (.int 1), .list [.scalar (.int 2)]])
    (.listStep (b := .list [.scalar (.int 2)]) (by simp) (.list (by simp))) trivial
    (by simp [coll])).1

/-- `C82_refused`: an array of dates to the second. -/
example : (writeConfig (coll (.array [3] fun _ => .date .second (some 0)))).2 =
    .error .typeError :=
  (C82_refused (coll (.array [3] fun _ => .date .second (some 0))) "a" [3]
    (fun _ => .date .second (some 0)) [2] ⟨by decide, trivial⟩ ⟨fun h => h, fun h => h⟩
    (by simp [coll])).1

/-- `C82_injective_partial`: arrays that differ. -/
example : Na.encode (.array [2, 3] fun _ => .int 0) ≠ Na.encode (.array [3, 2] fun _ => .int 0) :=
  fun h => absurd (C82_injective_partial _ _ _ _ (by decide) (by decide) h).1 (by decide)

end NumpyAttrCase

open NumpyAttrCase in
/-- C82 is false in full: a date to the nanosecond is read as an integer. -/
theorem C82_counterexample : ¬ C82_full := by
  intro hfull
  let a : Arg := .scalar (.date .nano (some 951868799000000000))
  have hw : (writeConfig (coll a)).2 = .ok () := coll_written a (by
    show Writable (.int _)
    simp [Writable])
  obtain ⟨e, h1, v, h2, h3⟩ := hfull (coll a) "a" a (coll_metadata _) (by simp [coll]) hw
  rw [HeldAs] at h3
  cases v <;> simp [StandsFor] at h3

end Verif
