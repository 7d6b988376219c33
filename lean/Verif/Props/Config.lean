import Verif.Model.Config

/-! C17: configuration of partitioning handlers. -/

namespace Verif

open Config

/-- A handler that a user can build. -/
def Constructible (h : Handler) : Prop :=
  (∃ v d, mkSequence v d = .ok h) ∨ ∃ v r, mkDate v r = .ok h

/-- C17, full statement: the handler rebuilt from its configuration behaves as the
original. -/
def C17_full : Prop :=
  ∀ h, Constructible h → ∃ h', (getCodecs (getConfig h)).1 = .ok h' ∧
    keys h' = keys h ∧ dtype h' = dtype h ∧ len h' = len h

/-- C17 is violated by the code: the data types of a `Sequence` are not stored. -/
theorem C17_counterexample : ¬ C17_full := by
  intro hfull
  have hc : Constructible ⟨.sequence, ["cycle"], ["int8"], none⟩ :=
    .inl ⟨["cycle"], some ["int8"], by decide⟩
  obtain ⟨h', h1, _, h3, _⟩ := hfull _ hc
  have e : (getCodecs (getConfig ⟨.sequence, ["cycle"], ["int8"], none⟩)).1 =
    .ok ⟨.sequence, ["cycle"], ["int64"], none⟩ := by decide
  rw [e] at h1
  cases h1
  revert h3
  decide

theorem mkDate_ok {v : List String} {r : String} {h : Handler} (hm : mkDate v r = .ok h) :
    v.length = 1 ∧ ∃ i, resolutions.idxOf? r = some i ∧
      h = ⟨.date, v, unitTypes.take (i + 1), some r⟩ := by
  unfold mkDate at hm
  split at hm
  · simp at hm
  · next hl =>
    split at hm
    · simp at hm
    · next i hi =>
      refine ⟨by omega, i, hi, ?_⟩
      unfold initBase at hm
      split at hm
      · simp at hm
      · dsimp only at hm
        split at hm
        · exact (Except.ok.inj hm).symm
        · simp at hm

theorem mkSequence_ok {v : List String} {d : Option (List String)} {h : Handler}
    (hm : mkSequence v d = .ok h) : v ≠ [] ∧
      h = ⟨.sequence, v, d.getD (v.map fun _ => "int64"), none⟩ := by
  unfold mkSequence initBase at hm
  split at hm
  · simp at hm
  · next hv =>
    refine ⟨hv, ?_⟩
    cases d with
    | none =>
      dsimp only at hm
      split at hm
      · exact (Except.ok.inj hm).symm
      · simp at hm
    | some d =>
      dsimp only at hm
      split at hm
      · exact (Except.ok.inj hm).symm
      · simp at hm

/-- C17: a `Date` handler is rebuilt exactly. -/
theorem C17_date (v : List String) (r : String) (h : Handler) (hm : mkDate v r = .ok h) :
    (getCodecs (getConfig h)).1 = .ok h := by
  obtain ⟨_, i, _, rfl⟩ := mkDate_ok hm
  simp [getCodecs, getConfig, dateArgs, List.lookup, hm]

/-- C17: for a `Sequence` the variables, hence the keys, the split and the paths, are those
of the original; the data types are `int64` for each variable.  Missing for C17: other data
types, and with them the depth of the listing if their number differs from the number of
variables. -/
theorem C17_sequence_partial (v : List String) (d : Option (List String)) (h : Handler)
    (hm : mkSequence v d = .ok h) :
    ∃ h', (getCodecs (getConfig h)).1 = .ok h' ∧ h'.cls = h.cls ∧ h'.variables = h.variables ∧
      keys h' = keys h ∧ len h' = v.length ∧ dtype h' = v.map fun x => (x, "int64") := by
  obtain ⟨hv, rfl⟩ := mkSequence_ok hm
  have h1 : mkSequence v none = .ok ⟨.sequence, v, v.map fun _ => "int64", none⟩ := by
    simp [mkSequence, initBase, hv, dataTypes]
  refine ⟨⟨.sequence, v, v.map fun _ => "int64", none⟩, ?_, rfl, rfl, rfl, ?_, ?_⟩
  · simp [getCodecs, getConfig, sequenceArgs, List.lookup, h1]
  · simp [len]
  · clear h1 hm hv
    simp only [dtype, keys]
    induction v with
    | nil => rfl
    | cons a t ih => simpa using ih

/-- C17: with the default data types a `Sequence` is rebuilt exactly. -/
theorem C17_sequence_default (v : List String) (h : Handler) (hm : mkSequence v none = .ok h) :
    (getCodecs (getConfig h)).1 = .ok h := by
  obtain ⟨_, rfl⟩ := mkSequence_ok hm
  simp [getCodecs, getConfig, sequenceArgs, List.lookup, hm]

/-- C17: a configuration may give the data types: they are those of the handler. -/
theorem C17_dtype (v d : List String) :
    (getCodecs [("id", .str "Sequence"), ("variables", .strs v), ("dtype", .strs d)]).1 =
      mkSequence v (some d) := by
  simp [getCodecs, sequenceArgs, List.lookup]

example : (getCodecs [("id", .str "Sequence"), ("variables", .strs ["a", "b"]),
    ("dtype", .strs ["int8", "uint16"])]).1 =
      .ok ⟨.sequence, ["a", "b"], ["int8", "uint16"], none⟩ := by decide +kernel

/-- C17: the keys of a `Date` handler are the units from the year to its resolution, one
data type each. -/
theorem C17_date_keys (v : List String) (r : String) (h : Handler) (hm : mkDate v r = .ok h) :
    ∃ i, ["Y", "M", "D", "h", "m", "s"].idxOf? r = some i ∧ i < 6 ∧
      keys h = ["year", "month", "day", "hour", "minute", "second"].take (i + 1) ∧
      dtype h = [("year", "uint16"), ("month", "uint8"), ("day", "uint8"), ("hour", "uint8"),
        ("minute", "uint8"), ("second", "uint8")].take (i + 1) ∧
      len h = (keys h).length := by
  obtain ⟨_, i, hi, rfl⟩ := mkDate_ok hm
  have hlt : i < 6 := by
    unfold List.idxOf? at hi
    obtain ⟨hlt, _⟩ := List.findIdx?_eq_some_iff_getElem.1 hi
    exact hlt
  have hk : keys ⟨.date, v, unitTypes.take (i + 1), some r⟩ = units.take (i + 1) := by
    simp only [keys, List.length_take, unitTypes, List.length_cons, List.length_nil]
    congr 1
    omega
  refine ⟨i, hi, hlt, hk, ?_, ?_⟩
  · rw [dtype, hk]
    have : ∀ i < 6, (units.take (i + 1)).zip (unitTypes.take (i + 1)) =
        ([("year", "uint16"), ("month", "uint8"), ("day", "uint8"), ("hour", "uint8"),
          ("minute", "uint8"), ("second", "uint8")] : List (String × String)).take (i + 1) := by
      decide +kernel
    exact this i hlt
  · simp [keys, len, units, unitTypes]

/-- C17: the data types of a `Sequence` handler are those of its variables, in order. -/
theorem C17_sequence_dtype (v d : List String) (h : Handler)
    (hm : mkSequence v (some d) = .ok h) : keys h = v ∧ dtype h = v.zip d ∧ len h = d.length := by
  unfold mkSequence initBase at hm
  split at hm
  · cases hm
  · simp only at hm
    split at hm
    · cases hm
      exact ⟨rfl, rfl, rfl⟩
    · cases hm

example : mkSequence ["a", "b"] (some ["int8", "uint16"]) =
    .ok ⟨.sequence, ["a", "b"], ["int8", "uint16"], none⟩ := by decide

/-- C17: an argument the handler does not have is refused. -/
theorem C17_unknown_argument (config : Cfg) (name : String) (x : CfgVal)
    (hx : (name, x) ∈ config) (hn : name ≠ "id" ∧ name ≠ "variables") :
    (config.lookup "id" = some (.str "Sequence") → name ≠ "dtype" →
      (getCodecs config).1 = .error .typeError) ∧
    (config.lookup "id" = some (.str "Date") → name ≠ "resolution" →
      (getCodecs config).1 = .error .typeError) := by
  have hm : (name, x) ∈ config.filter fun kv => kv.1 ≠ "id" :=
    List.mem_filter.2 ⟨hx, by simpa using hn.1⟩
  constructor
  · intro hi hd
    unfold getCodecs
    rw [hi]
    show sequenceArgs _ = _
    unfold sequenceArgs
    exact if_pos (List.any_eq_true.2 ⟨_, hm, by simpa using ⟨hn.2, hd⟩⟩)
  · intro hi hd
    unfold getCodecs
    rw [hi]
    show dateArgs _ = _
    unfold dateArgs
    exact if_pos (List.any_eq_true.2 ⟨_, hm, by simpa using ⟨hn.2, hd⟩⟩)

example : (getCodecs [("id", .str "Date"), ("variables", .strs ["time"]),
    ("resolution", .str "M"), ("dtype", .strs ["uint8"])]).1 = .error .typeError :=
  (C17_unknown_argument _ "dtype" (.strs ["uint8"]) (by simp) (by decide)).2 (by decide)
    (by decide)

/-- C17: reading the configuration removes `id` from the dictionary of the caller: a second
call with the same dictionary fails. -/
theorem C17_config_consumed (config : Cfg) :
    (getCodecs (getCodecs config).2).1 = .error .valueError := by
  have h : ∀ c : Cfg, (getCodecs c).2 = c.filter fun kv => kv.1 ≠ "id" := by
    intro c
    unfold getCodecs
    dsimp only
    split <;> rfl
  rw [h]
  have hl : (config.filter fun kv => kv.1 ≠ "id").lookup "id" = none := by
    induction config with
    | nil => rfl
    | cons a t ih =>
      rw [List.filter_cons]
      split
      · next ha =>
        rw [List.lookup_cons]
        have : ("id" == a.1) = false := by
          rw [beq_eq_false_iff_ne]
          exact fun e => (of_decide_eq_true ha) e.symm
        rw [this]
        exact ih
      · exact ih
  unfold getCodecs
  rw [hl]

example : (getCodecs (getConfig ⟨.date, ["time"], ["uint16", "uint8"], some "M"⟩)).1 =
    .ok ⟨.date, ["time"], ["uint16", "uint8"], some "M"⟩ := by decide

example : mkDate ["time"] "M" = .ok ⟨.date, ["time"], ["uint16", "uint8"], some "M"⟩ := by decide

example : mkSequence ["cycle", "pass"] (some ["int8"]) =
    .ok ⟨.sequence, ["cycle", "pass"], ["int8"], none⟩ := by decide

end Verif
