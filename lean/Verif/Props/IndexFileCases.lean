import Verif.Props.IndexFile

/-! C67 on an index of the passes of the cycles. -/

namespace Verif

namespace IxFile

open Spec Ix

/-- The columns of the class. -/
def dtype : List (String × String) := [("start", "int64"), ("stop", "int64"), ("pass", "uint16")]

/-- The keys of the partitioning. -/
def schema : List (String × String) := [("cycle", "int64")]

def info : List (String × String) := [("attribute", "value")]

/-- The rows of the passes of a cycle. -/
def rows (cycle : Int) (passes : List (List Int)) : List (String × Int) × Data :=
  ([("cycle", cycle)], ⟨["start", "stop", "pass"], passes⟩)

theorem apart : KeysApart dtype schema := by unfold KeysApart; decide +kernel

theorem good (l : List (List (String × Int) × Data))
    (h : ∃ rs : List (Int × List (List Int)), l = rs.map (fun r => rows r.1 r.2) ∧
      (rs.map (·.1)).Nodup ∧ ∀ r ∈ rs, ∀ v ∈ r.2, v.length = 3) : GoodRows dtype schema l := by
  obtain ⟨rs, rfl, hn, hr⟩ := h
  refine ⟨?_, ?_⟩
  · rw [List.map_map]
    rw [List.Nodup, List.pairwise_map] at hn ⊢
    refine hn.imp ?_
    intro a b hab e
    apply hab
    simpa [rows] using e
  · intro x hx
    obtain ⟨r, hr', rfl⟩ := List.mem_map.1 hx
    exact ⟨rfl, rfl, hr r hr'⟩

def first : List (List (String × Int) × Data) := [rows 1 [[0, 2, 7], [2, 5, 8]]]

def second : List (List (String × Int) × Data) := [rows 1 [[0, 3, 7], [3, 6, 8]], rows 2 [[0, 4, 7]]]

theorem first_good : GoodRows dtype schema first :=
  good _ ⟨[(1, [[0, 2, 7], [2, 5, 8]])], rfl, by decide, by decide⟩

theorem second_good : GoodRows dtype schema second :=
  good _ ⟨[(1, [[0, 3, 7], [3, 6, 8]]), (2, [[0, 4, 7]])], rfl, by decide, by decide⟩

/-- Two objects are created, each is queried and updated; one is opened. -/
def calls : List Call :=
  [.create 0 info, .create 1 info, .table 0, .update 0 (.ok first),
    .query 1 [("pass", [7])] none none true, .update 0 (.error .keyError), .reopen 2]

theorem calls_allowed : AllowedCalls dtype schema info World.start calls :=
  ⟨rfl, rfl, by show _ ≠ none; decide, ⟨by decide, fun l h => by cases h; exact first_good⟩,
    by show _ ≠ none; decide +kernel, ⟨by decide +kernel, fun l h => by cases h⟩, trivial, trivial⟩

end IxFile

open IxFile Spec Ix

/-- The hypotheses of `C67_answer` are met: with the second pass masked, the first one is selected. -/
example : ∃ g p, (World.start.run dtype schema calls).file = some g ∧
    openFile dtype (some g) = .ok p ∧ g.table.rows.length = 2 ∧
    ("start" ∈ dtype.map (·.1) ∧ "stop" ∈ dtype.map (·.1)) ∧
    (queryObj p (some g) [("pass", [7, 8])] (some "and") (some [true, false]) true).2 =
      .ok [([("cycle", 1)], (0, 2))] :=
  ⟨_, _, rfl, rfl, by decide +kernel, by decide +kernel, by decide +kernel⟩

/-- The hypotheses of `C67_reopen_partial` are met, by the update of an object that has already read
the table; the index that is opened has two cycles. -/
example : ∃ o o' f p, (World.start.run dtype schema calls).objs 1 = some o ∧
    o.cache ≠ none ∧
    updateObj o (World.start.run dtype schema calls).file (.ok second) = ((o', some f), .ok ()) ∧
    openFile dtype (some f) = .ok p ∧ p.keys = ["cycle"] ∧ p.info = info ∧
    (queryObj p (some f) [("pass", [7])] none none true).2 =
      (queryObj o' (some f) [("pass", [7])] none none true).2 ∧
    (queryObj p (some f) [("pass", [7])] none none true).2 =
      .ok [([("cycle", 1)], (0, 3)), ([("cycle", 2)], (0, 4))] := by
  have ho : ∃ o, (World.start.run dtype schema calls).objs 1 = some o ∧ o.cache ≠ none :=
    ⟨_, rfl, by decide +kernel⟩
  obtain ⟨o, ho, hcache⟩ := ho
  obtain ⟨o', f, p, h1, h2, h3, _, _, _, h7, _, _, _, h11⟩ := C67_reopen_partial apart
    (by decide) calls calls_allowed 1 o ho second second_good ⟨_, List.mem_cons_self, by decide⟩
  refine ⟨o, o', f, p, ho, hcache, h1, h2, h3, h7, h11 _ _ _ _, ?_⟩
  rw [h11]
  cases ho
  cases h1
  rfl

/-- The hypotheses of `C67_shared_partial` and of `C67_open` are met. -/
example : computedRows [("cycle", 1)] (rowsIn (World.start.run dtype schema calls).file) =
      [[("start", 0), ("stop", 2), ("pass", 7), ("cycle", 1)],
        [("start", 2), ("stop", 5), ("pass", 8), ("cycle", 1)]] ∧
    (∃ p, openFile dtype (World.start.run dtype schema calls).file = .ok p) :=
  ⟨by decide +kernel, (C67_open apart (by decide) calls calls_allowed).1
    ⟨.update 0 (.ok first), by simp [calls], [("cycle", 1)],
      ⟨["start", "stop", "pass"], [[0, 2, 7], [2, 5, 8]]⟩, 0, first, rfl, by simp [first, rows],
      by decide⟩⟩

/-- C67 as stated, for the object that is opened. -/
def C67_full : Prop :=
  ∀ (dtype schema info : List (String × String)), schema ≠ [] → (dtype.map (·.1)).Nodup →
    (schema.map (·.1)).Nodup → ∀ (l : List (List (String × Int) × Data)),
    GoodRows dtype schema l → (∃ x ∈ l, x.2.rows ≠ []) →
    ∃ o f p, updateObj (create dtype schema info) none (.ok l) = ((o, some f), .ok ()) ∧
      openFile dtype (some f) = .ok p ∧
      ∀ columns op mask only, (queryObj p (some f) columns op mask only).2 =
        (queryObj o (some f) columns op mask only).2

/-- The class declares a column, `cycle`, that is also a key of the partitioning. -/
theorem C67_counterexample : ¬ C67_full := by
  intro h
  obtain ⟨o, f, p, h1, h2, h3⟩ := h [("start", "int64"), ("stop", "int64"), ("cycle", "int64")]
    [("cycle", "int64")] [] (by decide) (by decide +kernel) (by decide)
    [([("cycle", 1)], ⟨["start", "stop", "cycle"], [[0, 5, 1]]⟩)]
    ⟨by decide, by decide +kernel⟩ ⟨_, List.mem_cons_self, by decide⟩
  have h4 := h3 [("cycle", [1])] none none true
  cases h1
  cases h2
  revert h4
  decide +kernel

/-- The object of `C67_counterexample` that is opened answers nothing, to every query. -/
theorem C67_key_in_dtype (dtype : List (String × String)) (f : File)
    (hf : ∀ n ∈ f.types.map (·.1), n ∈ dtype.map (·.1)) :
    ∃ p, openFile dtype (some f) = .ok p ∧
      ∀ columns op mask only, (queryObj p (some f) columns op mask only).2 = .ok [] := by
  refine ⟨_, rfl, ?_⟩
  intro columns op mask only
  have hk : (f.types.map (·.1)).filter (fun n => decide (n ∉ dtype.map (·.1))) = [] := by
    rw [List.filter_eq_nil_iff]
    intro n hn
    simpa using hf n hn
  simp only [queryObj, query, Obj.state, hk, if_pos]

/-- C67 as stated, for the objects that are not the one that is updated. -/
def C67_fresh_full : Prop :=
  ∀ (dtype schema info : List (String × String)), KeysApart dtype schema → schema ≠ [] →
    ∀ (calls : List Call), AllowedCalls dtype schema info World.start calls →
    ∀ i o p, (World.start.run dtype schema calls).objs i = some o →
      openFile dtype (World.start.run dtype schema calls).file = .ok p →
      ∀ columns op mask only,
        (queryObj o (World.start.run dtype schema calls).file columns op mask only).2 =
          (queryObj p (World.start.run dtype schema calls).file columns op mask only).2

/-- An object that has been queried does not see the next update of another object. -/
theorem C67_fresh_counterexample : ¬ C67_fresh_full := by
  intro h
  have ha : AllowedCalls dtype schema info World.start (calls ++ [.update 0 (.ok second)]) :=
    ⟨rfl, rfl, by show _ ≠ none; decide, ⟨by decide, fun l h => by cases h; exact first_good⟩,
      by show _ ≠ none; decide +kernel, ⟨by decide +kernel, fun l h => by cases h⟩, trivial,
      ⟨by decide +kernel, fun l h => by cases h; exact second_good⟩, trivial⟩
  have h1 := h dtype schema info apart (by decide) _ ha 1 _ _ rfl rfl [("pass", [7])] none none true
  revert h1
  decide +kernel

/-- An object that has neither read nor written the table sees the updates of the others. -/
theorem C67_fresh_partial {dtype schema info : List (String × String)}
    (hd : KeysApart dtype schema) (hne : schema ≠ []) (calls : List Call)
    (hc : AllowedCalls dtype schema info World.start calls) (i : Nat) (o p : Obj)
    (ho : (World.start.run dtype schema calls).objs i = some o) (hcache : o.cache = none)
    (hp : openFile dtype (World.start.run dtype schema calls).file = .ok p)
    (columns : List (String × List Int)) (op : Option String) (mask : Option (List Bool))
    (only : Bool) :
    (queryObj o (World.start.run dtype schema calls).file columns op mask only).2 =
      (queryObj p (World.start.run dtype schema calls).file columns op mask only).2 := by
  have h := index_run hd hne calls _ (index_start dtype schema info) hc
  obtain ⟨o1, o2, _⟩ := h.objs i o ho
  obtain ⟨p1, p2, _, p4⟩ := openFile_inv hd h p hp
  simp only [queryObj, Obj.state, o1, o2, hcache, p1, p2, p4]

/-- The hypotheses of `C67_fresh_partial` are met: an object that was created, and not used, before
the updates of another. -/
example : ∃ o p, (World.start.run dtype schema [.create 0 info, .create 1 info,
      .update 0 (.ok first)]).objs 1 = some o ∧ o.cache = none ∧
    openFile dtype (World.start.run dtype schema [.create 0 info, .create 1 info,
      .update 0 (.ok first)]).file = .ok p ∧
    AllowedCalls dtype schema info World.start [.create 0 info, .create 1 info,
      .update 0 (.ok first)] :=
  ⟨_, _, rfl, rfl, rfl, rfl, rfl, ⟨by decide, fun l h => by cases h; exact first_good⟩, trivial⟩

/-- C67 as stated, for the metadata: an index opened after an update by an object has the metadata
of this object. -/
def C67_metadata_full : Prop :=
  ∀ (dtype schema : List (String × String)) (m : List (String × String)) (f : Option File)
    (l : List (List (String × Int) × Data)) (o' : Obj) (g : File) (p : Obj),
    updateObj (create dtype schema m) f (.ok l) = ((o', some g), .ok ()) →
    (∃ x ∈ l, x.2.rows ≠ []) → openFile dtype (some g) = .ok p → p.info = m

/-- A second index is created with other metadata on the same file: they are dropped. -/
theorem C67_metadata_counterexample : ¬ C67_metadata_full := by
  intro h
  have h1 := h dtype schema [("attribute", "other")]
    (World.start.run dtype schema calls).file second _ _ _ rfl ⟨_, List.mem_cons_self, by decide⟩ rfl
  revert h1
  decide +kernel

end Verif
