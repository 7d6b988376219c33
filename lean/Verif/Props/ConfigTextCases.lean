import Verif.Props.ConfigText

/-! C79: the counterexamples, and cases that meet the hypotheses of the theorems. -/

namespace Verif

open Json (V Key dump load)
open Cft (Var Ds Conf Coll Call ViewConf openFile openViewFile writeConfig create calls during
  addVariable dropVariable)
open Spec

namespace ConfigTextCase

def time : Var := ⟨"time", "<i8", ["num_lines"], [("long_name", .str "date")], .null, .null, []⟩

def ssh : Var :=
  ⟨"ssh", "<f8", ["num_lines", "num_pixels"],
    [("valid_range", .list [.float (.dec true 1 (5, []) none), .int 2]), ("flags", .tuple [.int 1])],
    .dict [(.str "id", .str "zlib"), (.str "level", .int 1)], .float .nan, []⟩

/-- An attribute that is a date: `Attribute._encode` makes `datetime.datetime` of it. -/
def dated : Var := ⟨"epoch", "<f8", ["num_lines"], [("since", .other)], .null, .int 0, []⟩

def conf : Conf :=
  ⟨"time", ⟨["num_lines", "num_pixels"], [time, ssh], [("title", .str "a \"quoted\" title")],
    [("num_pixels", .int 10)], 1000⟩, .dict [(.str "id", .str "Date"), (.str "resolution", .str "D")]⟩

def coll : Coll := (create conf ["year"] "num_lines" []).1

def view : ViewConf :=
  ⟨"/views", .list [.list [.list [.str "year", .int 2000]]], conf.ds, "/data",
    .dict [(.str "protocol", .str "file")]⟩

theorem conf_metadata : Metadata conf.ds := ⟨by decide +kernel, by decide⟩

theorem time_writable : EachVar Writable time :=
  ⟨by simp [time, Writable], trivial, trivial, by simp [time]⟩

theorem ssh_writable : EachVar Writable ssh :=
  ⟨by simp [ssh, Writable, WritableElems], by simp [ssh, Writable, WritablePairs], trivial,
    by simp [ssh]⟩

theorem conf_writable : EachConf Writable conf := by
  refine ⟨⟨by simp [conf, Writable], ?_, by simp [conf, Writable]⟩,
    by simp [conf, Writable, WritablePairs]⟩
  intro v hv
  simp only [conf, List.mem_cons, List.not_mem_nil, or_false] at hv
  rcases hv with rfl | rfl
  · exact time_writable
  · exact ssh_writable

theorem dated_refused : ¬ EachVar Writable dated := fun h => by
  have := h.attrs ("since", .other) (by simp [dated])
  simp [Writable] at this

/-- `C79_broken` and `C79_repaired`: the collection refuses the date, is lost, and is repaired. -/
theorem lost : openFile (addVariable coll dated false false).1.file = .error .valueError :=
  (C79_broken coll dated false false [] (by decide +kernel) (by decide +kernel) (by decide +kernel)
    dated_refused (by simp)).2

example : (dropVariable (addVariable coll dated false false).1 "epoch" false).2 = .ok () :=
  (C79_repaired coll dated false false conf_metadata conf_writable (by decide +kernel)
    (by decide +kernel) (by decide +kernel) dated_refused (by decide +kernel) (by decide)).1

/-- `C79_broken` with other calls after the one that failed. -/
example : openFile (calls (addVariable coll dated false false).1
    [.drop "ssh" false, .add { ssh with name := "swh" } false false]).file = .error .valueError :=
  (C79_broken coll dated false false _ (by decide +kernel) (by decide +kernel) (by decide +kernel)
    dated_refused (by simp [dated])).2

/-- `C79_open` -/
theorem opened : ∃ e, openFile coll.file = .ok e ∧ LoadedConf conf e :=
  (C79_open ⟨conf, ["year"], "num_lines", [], none⟩ conf_metadata conf_writable).2

/-- `C79_variables` applies to the file of this collection. -/
example : ∃ t e, coll.file = some t ∧ openFile (some t) = .ok e ∧
    (e.ds.vars.map (·.name)).Nodup := by
  obtain ⟨e, h, _⟩ : ∃ e, openFile coll.file = .ok e ∧ LoadedConf conf e := opened
  cases hf : coll.file with
  | none => rw [hf] at h; cases h
  | some t =>
    rw [hf] at h
    exact ⟨t, e, rfl, h, (C79_variables t e h).1⟩

/-- `C79_order` and `C79_pairs` apply to the file of this collection. -/
example : ∃ t e, coll.file = some t ∧ openFile (some t) = .ok e ∧
    (e.ds.vars.map (·.name)).Pairwise (· ≤ ·) ∧ ∃ x y l, Json.load t = .ok x ∧
      Cft.field "dataset" x = .ok y ∧ (Cft.field "attrs" y).bind Cft.asList = .ok l ∧
      l.length = e.ds.attrs.length := by
  obtain ⟨e, h, ho, _⟩ := C79_order ⟨conf, ["year"], "num_lines", [], none⟩ conf_metadata
    conf_writable
  cases hf : coll.file with
  | none =>
    rw [show (writeConfig ⟨conf, ["year"], "num_lines", [], none⟩).1.file = coll.file from rfl,
      hf] at h
    cases h
  | some t =>
    rw [show (writeConfig ⟨conf, ["year"], "num_lines", [], none⟩).1.file = coll.file from rfl,
      hf] at h
    obtain ⟨x, y, l, h1, h2, h3, h4, _⟩ := C79_pairs t e h
    exact ⟨t, e, rfl, h, ho, x, y, l, h1, h2, h3, h4⟩

/-- `C79_fields`: only the axis. -/
example : openFile (some (dump 4 (.dict [(.str "axis", .str "time")])).1) = .error .keyError :=
  (C79_fields _ [(.str "axis", .str "time")]
    (C79_exact 4 (.dict [(.str "axis", .str "time")]) ⟨⟨_, rfl⟩, by simp, trivial, trivial⟩).2).2.1
    "time" rfl rfl

/-- `C79_history_partial` with calls that succeed and calls that fail. -/
example : ∃ e, openFile (calls coll [.drop "ssh" false, .add ssh false false, .drop "ssh" true,
      .add { ssh with name := "swh" } true false]).file = .ok e ∧
    LoadedConf (calls coll [.drop "ssh" false, .add ssh false false, .drop "ssh" true,
      .add { ssh with name := "swh" } true false]).mem e :=
  C79_history_partial conf ["year"] "num_lines" [] _ conf_metadata conf_writable (by
    intro v a b h
    simp only [List.mem_cons, Call.add.injEq, reduceCtorEq, List.not_mem_nil, or_false,
      false_or] at h
    rcases h with ⟨rfl, -⟩ | ⟨rfl, -⟩
    · exact ssh_writable
    · exact ⟨ssh_writable.attrs, ssh_writable.compressor, trivial, ssh_writable.filters⟩)

/-- `C79_view` -/
example : ∃ e, openViewFile (some (dump 4 (Cft.encodeView view)).1) = .ok e ∧ LoadedView view e :=
  (C79_view view conf_metadata conf_writable.ds (by simp [view, Writable, WritableElems])
    (by simp [view, Writable, WritablePairs])).2

/-- `C79_unchanged`: without the tuple, the configuration is unaltered. -/
theorem conf_unaltered :
    EachConf Unaltered { conf with ds := { conf.ds with vars := [time] } } := by
  refine ⟨⟨by simp [conf, Unaltered], ?_, by simp [conf, Unaltered]⟩,
    by simp [conf, Unaltered, UnalteredPairs]⟩
  intro v hv
  simp only [List.mem_cons, List.not_mem_nil, or_false] at hv
  subst hv
  exact ⟨by simp [time, Unaltered], trivial, trivial, by simp [time]⟩

/-- The tuple of an attribute becomes a list: `C79_unchanged` needs its hypothesis. -/
example : readAs (.tuple [.int 1]) = .list [.int 1] := rfl

/-- A text as it is written, and read. -/
def small : V := .dict [(.str "a", .tuple [.int (-12), .null]), (.int 3, .str "x\ny\"z")]

example : String.ofList (dump 2 small).1 =
    "{\n  \"a\": [\n    -12,\n    null\n  ],\n  \"3\": \"x\\ny\\\"z\"\n}" := by decide +kernel

example : String.ofList (dump 0 (.str "\x1f\x7fé")).1 = "\"\\u001f\\u007f\\u00e9\"" := by
  decide +kernel

example : load (dump 2 small).1 =
    .ok (.dict [(.str "a", .list [.int (-12), .null]), (.str "3", .str "x\ny\"z")]) := by
  rw [C79_text 2 small (by simp [small, Writable, WritableElems, WritablePairs])]
  rfl

/-- Two keys that have the same text: the last value is read. -/
example : load (dump 2 (.dict [(.int 3, .null), (.str "3", .bool true)])).1 =
    .ok (.dict [(.str "3", .bool true)]) := by
  rw [C79_text 2 _ (by simp [Writable, WritablePairs])]
  rfl

/-- `C79_exact` -/
example : Unaltered (.dict [(.str "a", .list [.int (-12), .float .nan]), (.str "b", .null)]) := by
  simp [Unaltered, UnalteredElems, UnalteredPairs]

/-- `C79_torn`: the text stops at a value refused, and every part of it is refused. -/
def wrong : V := .dict [(.str "a", .list [.int 1, .other])]

example : String.ofList (dump 2 wrong).1 = "{\n  \"a\": [\n    1,\n    " := by decide +kernel

example (p q : List Char) (h : (dump 2 wrong).1 = p ++ q) : load p = .error .valueError :=
  C79_torn 2 _ p q h (.inr (by simp [Writable, WritablePairs, WritableElems]))

/-- `C79_longer`: the end of an older and longer text. -/
example : load ((dump 2 (.dict [(.str "a", .int 1)])).1 ++ "}".toList) = .error .valueError :=
  C79_longer 2 _ _ (by simp [Writable, WritablePairs]) ⟨'}', by simp, by decide⟩

end ConfigTextCase

open ConfigTextCase

/-- C79: the full statement fails: the date destroys the file. -/
theorem C79_counterexample : ¬ C79_full := by
  intro h
  obtain ⟨e, h1, -⟩ := h conf ["year"] "num_lines" [] [.add dated false false] conf_metadata
    conf_writable
  have := lost
  change openFile (addVariable coll dated false false).1.file = .ok e at h1
  rw [this] at h1
  cases h1

theorem add_ok (c : Coll) (v : Var) (h : EachConf Writable (Cft.withNew v c.mem))
    (h1 : c.dim ∈ v.dims) (h2 : v.name ∉ c.mem.ds.vars.map (·.name))
    (h3 : ∀ d ∈ v.dims, d ∈ c.mem.ds.dims) : (addVariable c v false false).2 = .ok () := by
  have hw : (writeConfig { c with mem := Cft.withNew v c.mem }).2 = .ok () :=
    (C79_accepted _ _).1.2 ((Cft.writable_conf _).2 h)
  rw [addVariable, if_neg (by simpa using h1), if_neg h2, if_neg (by simpa using h3)]
  rcases hx : writeConfig { c with mem := Cft.withNew v c.mem } with ⟨c', r⟩
  rw [hx] at hw
  simp only at hw
  subst hw
  rfl

theorem during_empty (c : Coll) : during c (some []) :=
  .inr ⟨[], (dump 4 (Cft.encode c.mem)).1, (List.nil_append _).symm, rfl⟩

/-- C79: a process stopped while it adds a variable leaves a collection that cannot be opened,
though nothing is wrong with the variable: the file is emptied before it is written. -/
theorem C79_crash_counterexample :
    ∃ (c : Coll) (v : Var) (f : Option (List Char)), (addVariable c v false false).2 = .ok () ∧
      (∃ e, openFile c.file = .ok e) ∧ during { c with mem := Cft.withNew v c.mem } f ∧
      openFile f = .error .valueError := by
  refine ⟨coll, { ssh with name := "swh" }, some [], ?_, ?_, ?_, rfl⟩
  · have hw : EachVar Writable { ssh with name := "swh" } :=
      ⟨ssh_writable.attrs, ssh_writable.compressor, trivial, ssh_writable.filters⟩
    have hc : EachConf Writable (Cft.withNew { ssh with name := "swh" } coll.mem) := by
      refine ⟨⟨conf_writable.ds.attrs, ?_, conf_writable.ds.chunks⟩, conf_writable.part⟩
      intro v hv
      rcases List.mem_append.1 hv with hv | hv
      · exact conf_writable.ds.vars v hv
      · exact List.mem_singleton.1 hv ▸ hw
    exact add_ok coll _ hc (by decide +kernel) (by decide +kernel) (by decide +kernel)
  · obtain ⟨e, h, -⟩ := (C79_open ⟨conf, ["year"], "num_lines", [], none⟩ conf_metadata
      conf_writable).2
    exact ⟨e, h⟩
  · exact during_empty _

end Verif
