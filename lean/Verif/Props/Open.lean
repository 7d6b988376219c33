import Verif.Lemmas.Open

/-! C60: opening a collection gives back the collection that was created. -/

namespace Verif

open Spec Opn Meta
open Config (Handler Cfg)

variable {F : Type}

/-! ### Creation -/

/-- C60: creating a collection where something exists raises `ValueError` and changes
nothing. -/
theorem C60_create_exists (w : World F) (axis : String) (ds : Ds) (handler : Handler)
    (path : String) (disk : Disk F) (d : Dir F) (h : disk path = some d) :
    createCollection w axis ds handler path disk = (disk, .error .valueError) := by
  unfold createCollection
  rw [h]

theorem writeConfig_new (w : World F) (c : Coll) (disk : Disk F) (h : disk c.dir = none) :
    writeConfig w c true disk =
      if w.serial c.metadata then
        (put disk c.dir { coll := .ok { axis := c.axis, dataset := c.metadata.getConfig,
                                        partitioning := Config.getConfig c.handler },
                          view := .absent, parts := [] }, .ok ())
      else (put disk c.dir { coll := .torn, view := .absent, parts := [] },
        .error .typeError) := by
  unfold writeConfig
  rw [h]
  dsimp only [emptyDir]

/-- C60: a successful creation writes the configuration in a new directory without partition,
changes nothing else, and gives a collection open for writing. -/
theorem C60_create_effect (w : World F) (axis : String) (ds : Ds) (handler : Handler)
    (path : String) (disk disk' : Disk F) (c : Coll)
    (h : createCollection w axis ds handler path disk = (disk', .ok c)) :
    disk path = none ∧ (∀ p, p ≠ path → disk' p = disk p) ∧
      disk' path = some { coll := .ok { axis := axis, dataset := ds.getConfig,
                                        partitioning := Config.getConfig handler },
                          view := .absent, parts := [] } ∧
      c.axis = axis ∧ c.metadata = ds ∧ c.handler = handler ∧ c.dir = path ∧ c.mode = "w" ∧
      (∀ k ∈ handler.variables, ∃ v ∈ ds.vars, v.name = k) ∧
      ∃ a ∈ ds.vars, a.name = axis ∧ ∃ rest, a.dims = c.dim :: rest := by
  unfold createCollection at h
  cases hd : disk path with
  | some d => rw [hd] at h; cases h
  | none =>
    rw [hd] at h
    dsimp only at h
    unfold collInit at h
    cases hr : readOnlyInit axis ds handler path (some "w") with
    | error e => rw [hr] at h; cases h
    | ok c0 =>
      rw [hr] at h
      obtain ⟨h1, h2, h3, h4, h5, h6, h7, a, rest, ha, had⟩ := (readOnlyInit_ok _ _ _ _ _ _).1 hr
      have hm : c0.mode = "w" := h5
      dsimp only at h
      rw [if_neg (by rw [hm]; decide), writeConfig_new w c0 disk (by rw [h4]; exact hd)] at h
      by_cases hs : w.serial c0.metadata = true
      · rw [if_pos hs] at h
        cases h
        refine ⟨rfl, ?_, ?_, h1, h2, h3, h4, hm, ?_, a, List.mem_of_find?_eq_some ha, ?_,
          rest, had⟩
        · intro p hp
          unfold put
          rw [if_neg (by rw [h4]; exact hp)]
        · unfold put
          rw [if_pos h4.symm, h1, h2, h3]
        · intro k hk
          obtain ⟨v, hv, hn⟩ := List.mem_map.1 (h7 k hk)
          exact ⟨v, hv, hn⟩
        · simpa using List.find?_some ha
      · rw [if_neg hs] at h
        cases h

/-- C60, full statement for a creation that fails: nothing is left behind. -/
def C60_create_error_full : Prop :=
  ∀ (F : Type) (w : World F) (axis : String) (ds : Ds) (handler : Handler) (path : String)
    (disk disk' : Disk F) (e : PyErr),
    createCollection w axis ds handler path disk = (disk', .error e) → disk' = disk

/-- C60: a creation that fails leaves nothing behind if the metadata can be written as JSON.
Missing: metadata that cannot. -/
theorem C60_create_error_partial (w : World F) (axis : String) (ds : Ds) (handler : Handler)
    (path : String) (disk disk' : Disk F) (e : PyErr) (hs : w.serial ds = true)
    (h : createCollection w axis ds handler path disk = (disk', .error e)) : disk' = disk := by
  unfold createCollection at h
  cases hd : disk path with
  | some d => rw [hd] at h; cases h; rfl
  | none =>
    rw [hd] at h
    dsimp only at h
    unfold collInit at h
    cases hr : readOnlyInit axis ds handler path (some "w") with
    | error e => rw [hr] at h; cases h; rfl
    | ok c0 =>
      rw [hr] at h
      obtain ⟨h1, h2, h3, h4, h5, _⟩ := (readOnlyInit_ok _ _ _ _ _ _).1 hr
      have hm : c0.mode = "w" := h5
      dsimp only at h
      rw [if_neg (by rw [hm]; decide), writeConfig_new w c0 disk (by rw [h4]; exact hd), h2,
        if_pos hs] at h
      cases h

/-- C60: with metadata that cannot be written as JSON the creation raises `TypeError` and
leaves a directory with a configuration that cannot be read: neither a second creation nor
opening succeeds. -/
theorem C60_create_torn (w : World F) (axis : String) (ds : Ds) (handler : Handler)
    (path : String) (disk : Disk F) (c : Coll) (hd : disk path = none)
    (hr : readOnlyInit axis ds handler path (some "w") = .ok c) (hs : w.serial ds = false) :
    ∃ disk', createCollection w axis ds handler path disk = (disk', .error .typeError) ∧
      (∀ p, p ≠ path → disk' p = disk p) ∧ (∃ d, disk' path = some d) ∧
      (∀ axis' ds' handler', createCollection w axis' ds' handler' path disk' =
        (disk', .error .valueError)) ∧
      ∀ mode, openCollection w path mode disk' = (disk', .error .valueError) := by
  obtain ⟨h1, h2, h3, h4, h5, _⟩ := (readOnlyInit_ok _ _ _ _ _ _).1 hr
  have hm : c.mode = "w" := h5
  let d : Dir F := { coll := .torn, view := .absent, parts := [] }
  have hp : put disk path d path = some d := by unfold put; rw [if_pos rfl]
  refine ⟨put disk path d, ?_, ?_, ⟨d, hp⟩, ?_, ?_⟩
  · unfold createCollection
    rw [hd]
    dsimp only
    unfold collInit
    rw [hr]
    dsimp only
    rw [if_neg (by rw [hm]; decide), writeConfig_new w c disk (by rw [h4]; exact hd), h2,
      if_neg (by rw [hs]; decide), h4]
  · intro p hne
    unfold put
    rw [if_neg hne]
  · intro axis' ds' handler'
    exact C60_create_exists w axis' ds' handler' path _ d hp
  · intro mode
    unfold openCollection
    rw [hp]

/-! ### Opening -/

/-- C60: opening a collection never changes the directories, in any mode, whether it succeeds
or not. -/
theorem C60_open_unchanged (w : World F) (path : String) (mode : Option String)
    (disk : Disk F) : (openCollection w path mode disk).1 = disk := by
  unfold openCollection
  split
  · rfl
  · next d hd =>
    split
    · rfl
    · rfl
    · next c hc =>
      split
      · rfl
      · next handler _ =>
        unfold collInit
        split
        · rfl
        · next c' hr =>
          obtain ⟨_, _, _, h4, _⟩ := (readOnlyInit_ok _ _ _ _ _ _).1 hr
          split
          · rfl
          · have : writeConfig w c' true disk = (disk, .ok ()) := by
              unfold writeConfig
              rw [h4, hd]
              dsimp only
              rw [hc]
              rfl
            rw [this]

/-- C60: an empty mode is the same as no mode: the collection is opened for reading. -/
theorem C60_empty_mode (w : World F) (path : String) (disk : Disk F) :
    openCollection w path (some "") disk = openCollection w path (some "r") disk ∧
      openCollection w path none disk = openCollection w path (some "r") disk := ⟨rfl, rfl⟩

/-- C60: opening raises `ValueError` where there is no collection, or with a mode that is
neither `r` nor `w` (nor empty). -/
theorem C60_open_refused (w : World F) (path : String) (mode : Option String) (disk : Disk F) :
    ((∀ d, disk path = some d → d.coll = .absent ∨ d.coll = .torn) →
      openCollection w path mode disk = (disk, .error .valueError)) ∧
    (∀ m, mode = some m → m ≠ "" → m ≠ "r" → m ≠ "w" →
      ∃ e, openCollection w path mode disk = (disk, .error e)) := by
  constructor
  · intro h
    unfold openCollection
    cases hd : disk path with
    | none => rfl
    | some d =>
      dsimp only
      rcases h d hd with h | h <;> rw [h]
  · rintro m rfl h1 h2 h3
    cases ho : openCollection w path (some m) disk with
    | mk disk' r =>
      have hu := C60_open_unchanged w path (some m) disk
      rw [ho] at hu
      cases r with
      | error e => exact ⟨e, by rw [show disk' = disk from hu]⟩
      | ok c =>
        exfalso
        unfold openCollection at ho
        split at ho
        · cases ho
        · split at ho
          · cases ho
          · cases ho
          · split at ho
            · cases ho
            · unfold collInit at ho
              split at ho
              · cases ho
              · next c' hr =>
                obtain ⟨_, _, _, _, h5, h6, _⟩ := (readOnlyInit_ok _ _ _ _ _ _).1 hr
                have e1 : modeOr (some m) "r" = m := by simp [modeOr, h1]
                have e2 : modeOr (some m) "w" = m := by simp [modeOr, h1]
                rw [e1, e2] at h5
                rw [h5] at h6
                rcases h6 with h6 | h6
                · exact h2 h6
                · exact h3 h6

/-! ### Round trip -/

/-- C60, full statement: a collection that was created is opened with the same axis, metadata
and partitioning, in its directory, with the mode that was asked (read-only by default), and
nothing is written. -/
def C60_full : Prop :=
  ∀ (F : Type) (w : World F) (axis : String) (ds : Ds) (handler : Handler) (path : String)
    (disk disk' : Disk F) (c : Coll), WellFormed ds → Constructible handler →
    createCollection w axis ds handler path disk = (disk', .ok c) →
    ∀ mode, mode = none ∨ mode = some "r" ∨ mode = some "w" →
      ∃ c', openCollection w path mode disk' = (disk', .ok c') ∧ SameColl c' c ∧
        c'.dir = path ∧ c'.mode = mode.getD "r"

theorem created_valid (w : World F) (axis : String) (ds : Ds) (handler : Handler)
    (path : String) (disk disk' : Disk F) (c : Coll) (hwf : WellFormed ds)
    (hc : Constructible handler)
    (h : createCollection w axis ds handler path disk = (disk', .ok c)) : Valid c := by
  obtain ⟨_, _, _, h1, h2, h3, h4, _, h5, a, ha, han, rest, had⟩ :=
    C60_create_effect w axis ds handler path disk disk' c h
  refine ⟨h2.symm ▸ hwf, h3.symm ▸ hc, ?_, ?_⟩
  · intro k hk
    rw [h3] at hk
    obtain ⟨v, hv, hn⟩ := h5 k hk
    rw [h2]
    exact List.mem_map.2 ⟨v, hv, hn⟩
  · refine ⟨a, rest, ?_, had⟩
    rw [h1, h2]
    have hne : ds.vars.find? (fun v => decide (v.name = axis)) ≠ none := by
      intro hc
      rw [List.find?_eq_none] at hc
      exact hc a ha (by simpa using han)
    obtain ⟨b, hb⟩ := Option.ne_none_iff_exists'.1 hne
    have hbn : b.name = axis := by simpa using List.find?_some hb
    rw [hb, sameVar_unique hwf.1 (List.mem_of_find?_eq_some hb) ha (hbn.trans han.symm)]

theorem mode_getD (mode : Option String)
    (h : mode = none ∨ mode = some "r" ∨ mode = some "w") : modeOr mode "r" = mode.getD "r" := by
  rcases h with rfl | rfl | rfl <;> rfl

/-- C60: a collection that was created can always be opened, with the same axis, the same
dimension and keys of partitioning, and the same metadata up to the tuples, which become
lists; the partitioning is the same if it is a `Date`, or a `Sequence` with the default data
types.  Wherever the directory is: a collection can be moved.  Missing for C60: tuples, and
the data types of a `Sequence`. -/
theorem C60_open_partial (w : World F) (axis : String) (ds : Ds) (handler : Handler)
    (path : String) (disk disk' : Disk F) (c : Coll) (hwf : WellFormed ds)
    (hc : Constructible handler)
    (h : createCollection w axis ds handler path disk = (disk', .ok c))
    (disk2 : Disk F) (place : String) (h2 : disk2 place = disk' path)
    (mode : Option String) (hm : mode = none ∨ mode = some "r" ∨ mode = some "w") :
    ∃ c', openCollection w place mode disk2 = (disk2, .ok c') ∧ c'.axis = axis ∧
      SameMeta c'.metadata (listed ds) ∧ (NoTuple ds → SameMeta c'.metadata ds) ∧
      c'.dim = c.dim ∧ c'.dir = place ∧ c'.mode = mode.getD "r" ∧
      c'.handler.cls = handler.cls ∧ c'.handler.variables = handler.variables ∧
      Config.keys c'.handler = Config.keys handler ∧
      ((∃ v r, Config.mkDate v r = .ok handler) ∨ (∃ v, Config.mkSequence v none = .ok handler) →
        c'.handler = handler) := by
  have hv := created_valid w axis ds handler path disk disk' c hwf hc h
  obtain ⟨_, _, hdir, e1, e2, e3, _⟩ := C60_create_effect w axis ds handler path disk disk' c h
  obtain ⟨c', g1, g2, g3, g4, g5, g6, g7⟩ := open_stored w c hv disk2 place _ (h2.trans hdir)
    (by rw [e1, e2, e3]) mode hm
  obtain ⟨h', k1, k2, k3, k4, k5⟩ := stored_handler handler hc
  rw [e3, k1] at g4
  have g4' := Except.ok.inj g4
  subst g4'
  have hmeta := stored_meta ds hwf
  refine ⟨c', g1, g2.trans e1, by rw [g3, e2]; exact hmeta, ?_, g5, g6,
    g7.trans (mode_getD mode hm), k2, k3, k4, k5⟩
  intro hnt
  rw [g3, e2]
  rw [listed_of_noTuple ds hnt] at hmeta
  exact hmeta

/-- C60, round trip: the full statement holds without tuples in the attributes, for a `Date`
or a `Sequence` with the default data types. -/
theorem C60_round_trip_partial (w : World F) (axis : String) (ds : Ds) (handler : Handler)
    (path : String) (disk disk' : Disk F) (c : Coll) (hwf : WellFormed ds) (hnt : NoTuple ds)
    (hh : (∃ v r, Config.mkDate v r = .ok handler) ∨
      (∃ v, Config.mkSequence v none = .ok handler))
    (h : createCollection w axis ds handler path disk = (disk', .ok c))
    (mode : Option String) (hm : mode = none ∨ mode = some "r" ∨ mode = some "w") :
    ∃ c', openCollection w path mode disk' = (disk', .ok c') ∧ SameColl c' c ∧
      c'.dir = path ∧ c'.mode = mode.getD "r" := by
  have hc : Constructible handler := by
    rcases hh with ⟨v, r, hm⟩ | ⟨v, hm⟩
    · exact .inr ⟨v, r, hm⟩
    · exact .inl ⟨v, none, hm⟩
  obtain ⟨_, _, _, e1, e2, e3, _⟩ := C60_create_effect w axis ds handler path disk disk' c h
  obtain ⟨c', g1, g2, _, g3, g4, g5, g6, _, _, _, g7⟩ :=
    C60_open_partial w axis ds handler path disk disk' c hwf hc h disk' path rfl mode hm
  exact ⟨c', g1, ⟨g2.trans e1.symm, e2 ▸ g3 hnt, (g7 hh).trans e3.symm, g4⟩, g5, g6⟩

/-- C60: a renamed collection is opened in its new place, and is not found in the old one. -/
theorem C60_renamed (w : World F) (axis : String) (ds : Ds) (handler : Handler)
    (path place : String) (disk disk' : Disk F) (c : Coll) (hwf : WellFormed ds)
    (hc : Constructible handler) (hne : place ≠ path)
    (h : createCollection w axis ds handler path disk = (disk', .ok c)) (mode : Option String)
    (hm : mode = none ∨ mode = some "r" ∨ mode = some "w") :
    (∃ c', openCollection w place mode (renamed disk' path place) =
        (renamed disk' path place, .ok c') ∧ c'.axis = axis ∧
      SameMeta c'.metadata (listed ds) ∧ c'.dim = c.dim ∧ c'.dir = place) ∧
    openCollection w path mode (renamed disk' path place) =
      (renamed disk' path place, .error .valueError) := by
  constructor
  · obtain ⟨c', g1, g2, g3, _, g4, g5, _⟩ := C60_open_partial w axis ds handler path disk disk' c
      hwf hc h (renamed disk' path place) place (by unfold renamed; rw [if_pos rfl]) mode hm
    exact ⟨c', g1, g2, g3, g4, g5⟩
  · refine (C60_open_refused w path mode _).1 ?_
    intro d hd
    unfold renamed at hd
    rw [if_neg (fun e => hne e.symm), if_pos rfl] at hd
    cases hd

/-! ### Cases -/

namespace OpenCase

/-- Metadata with an axis and a variable. -/
def ds : Ds :=
  mkDs ["num_lines"] [⟨"time", "<M8[ns]", ["num_lines"], [("b", .scalar "1")], none, none, []⟩,
    ⟨"ssh", "<f8", ["num_lines"], [("a", .list ["2"])], none, none, []⟩] [("t", .scalar "u")] []
    none

/-- Metadata with a tuple in the attributes. -/
def dsTuple : Ds := { ds with attrs := [("range", .tuple ["0", "1"])] }

def monthly : Handler := ⟨.date, ["time"], ["uint16", "uint8"], some "M"⟩

def bySsh : Handler := ⟨.sequence, ["ssh"], ["int8"], none⟩

/-- Everything can be stored. -/
def world : World Nat where
  serial := fun _ => true
  pickles := fun f => f != 0
  keep := fun f p => f != 2 || p == "a"
  sound := fun _ p => p != "bad"

def noJson : World Nat := { world with serial := fun d => d.attrs.isEmpty }

def empty : Disk Nat := fun _ => none

def created : Disk Nat × Py Coll := createCollection world "time" ds monthly "/c" empty

theorem created_ok : created = (put empty "/c"
    { coll := .ok { axis := "time", dataset := ds.getConfig,
                    partitioning := Config.getConfig monthly }, view := .absent, parts := [] },
    .ok { axis := "time", metadata := ds, handler := monthly, dir := "/c", dim := "num_lines",
          mode := "w" }) := by
  rfl

theorem ds_wf : WellFormed ds := by
  refine ⟨by decide, by decide, ?_, by decide⟩
  decide

theorem dsTuple_wf : WellFormed dsTuple := by
  refine ⟨by decide, by decide, ?_, by decide⟩
  decide

theorem ds_noTuple : NoTuple ds := by
  constructor
  · intro a ha t
    simp only [ds, mkDs, List.mem_singleton] at ha
    subst ha
    simp
  · intro v hv a ha t
    have e : ds.vars = [⟨"time", "<M8[ns]", ["num_lines"], [("b", .scalar "1")], none, none, []⟩,
      ⟨"ssh", "<f8", ["num_lines"], [("a", .list ["2"])], none, none, []⟩] := by decide
    rw [e] at hv
    simp only [List.mem_cons, List.not_mem_nil, or_false] at hv
    rcases hv with rfl | rfl <;> (simp only [List.mem_singleton] at ha; subst ha; simp)

theorem monthly_date : ∃ v r, Config.mkDate v r = .ok monthly := ⟨["time"], "M", by decide⟩

example : ∃ c', openCollection world "/c" none created.1 = (created.1, .ok c') ∧
    c'.axis = "time" ∧ c'.mode = "r" ∧ c'.handler = monthly := by
  obtain ⟨c', h1, h2, _, h4⟩ := C60_round_trip_partial world "time" ds monthly "/c" empty created.1
    _ ds_wf ds_noTuple (.inl monthly_date) created_ok none (.inl rfl)
  exact ⟨c', h1, h2.axis, h4, h2.handler⟩

example : ∃ c', openCollection world "/d" (some "w") (renamed created.1 "/c" "/d") =
    (renamed created.1 "/c" "/d", .ok c') ∧ c'.dir = "/d" := by
  obtain ⟨⟨c', h1, _, _, _, h2⟩, _⟩ := C60_renamed world "time" ds monthly "/c" "/d" empty created.1
    _ ds_wf (.inr monthly_date) (by decide) created_ok (some "w") (.inr (.inr rfl))
  exact ⟨c', h1, h2⟩

example : createCollection world "time" ds monthly "/c" created.1 =
    (created.1, .error .valueError) :=
  C60_create_exists _ _ _ _ _ _ _ (congrFun (congrArg Prod.fst created_ok) "/c")

example : (openCollection world "/c" (some "a") created.1).2 = .error .valueError := by rfl

example : (openCollection world "/e" none created.1).2 = .error .valueError := by rfl

/-- The axis has no dimension. -/
def dsScalar : Ds := mkDs [] [⟨"time", "<M8[ns]", [], [], none, none, []⟩] [] [] none

example : createCollection world "time" dsScalar monthly "/c" empty =
    (empty, .error .indexError) := by rfl

example : createCollection world "lat" ds monthly "/c" empty = (empty, .error .valueError) := by
  rfl

example : readOnlyInit "time" ds monthly "/c" (some "w") =
    .ok { axis := "time", metadata := ds, handler := monthly, dir := "/c", dim := "num_lines",
          mode := "w" } := by rfl

example : noJson.serial ds = false := by rfl

end OpenCase

open OpenCase

/-- C60 is violated by the code: the data types of a `Sequence` are not stored. -/
theorem C60_counterexample : ¬ C60_full := by
  intro hfull
  have hc : Constructible bySsh := .inl ⟨["ssh"], some ["int8"], by decide⟩
  obtain ⟨c', h1, h2, _⟩ := hfull Nat world "time" ds bySsh "/c" empty
    (createCollection world "time" ds bySsh "/c" empty).1
    { axis := "time", metadata := ds, handler := bySsh, dir := "/c", dim := "num_lines",
      mode := "w" } ds_wf hc rfl none (.inl rfl)
  have h3 := h2.handler
  have h4 : (openCollection world "/c" none
      (createCollection world "time" ds bySsh "/c" empty).1).2 =
      .ok { axis := "time", metadata := Ds.fromConfig ds.getConfig,
            handler := ⟨.sequence, ["ssh"], ["int64"], none⟩, dir := "/c", dim := "num_lines",
            mode := "r" } := by rfl
  rw [h1] at h4
  cases h4
  revert h3
  decide

/-- C60 is violated by the code also with a `Date`: a tuple in the attributes comes back as a
list. -/
theorem C60_tuple_counterexample : ¬ C60_full := by
  intro hfull
  obtain ⟨c', h1, h2, _⟩ := hfull Nat world "time" dsTuple monthly "/c" empty
    (createCollection world "time" dsTuple monthly "/c" empty).1
    { axis := "time", metadata := dsTuple, handler := monthly, dir := "/c", dim := "num_lines",
      mode := "w" } dsTuple_wf (.inr monthly_date) rfl none (.inl rfl)
  have h3 := h2.metadata.2.2.2.1
  have h4 : (openCollection world "/c" none
      (createCollection world "time" dsTuple monthly "/c" empty).1).2 =
      .ok { axis := "time", metadata := Ds.fromConfig dsTuple.getConfig,
            handler := monthly, dir := "/c", dim := "num_lines", mode := "r" } := by rfl
  rw [h1] at h4
  cases h4
  have h5 := h3.mem_iff (a := ("range", .tuple ["0", "1"]))
  revert h5
  decide

/-- A creation that fails leaves something behind. -/
theorem C60_create_error_counterexample : ¬ C60_create_error_full := by
  intro hfull
  have h1 := hfull Nat noJson "time" ds monthly "/c" empty _ .typeError
    (Prod.ext rfl (by rfl : (createCollection noJson "time" ds monthly "/c" empty).2 = _))
  have h2 := congrArg Option.isSome (congrFun h1 "/c")
  exact absurd h2 (by decide)

end Verif
