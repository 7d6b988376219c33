import Verif.Lemmas.ConfigText

/-! C79: the text of the files of configuration. -/

namespace Verif

open Json (V Key dump load)
open Cft (Var Ds Conf Coll Call ViewConf openFile openViewFile writeConfig create calls call during
  addVariable dropVariable)
open Spec

/-! ### Values -/

/-- C79: `json.dump` accepts the values made of what it knows, and no other. -/
theorem C79_accepted (w : Nat) (v : V) :
    ((dump w v).2 = .ok () ↔ Writable v) ∧
      ((dump w v).2 = .error .typeError ↔ ¬ Writable v) := by
  by_cases h : Writable v
  · rw [Cft.dump_ok h]; simp [h]
  · rw [(Cft.dump_bad h).1]; simp [h]

/-- C79: a value that can be written is read back: tuples become lists, keys become strings. -/
theorem C79_text (w : Nat) (v : V) (h : Writable v) : load (dump w v).1 = .ok (readAs v) := by
  rw [Cft.dump_ok h, Json.load_plain, Json.norm_readAs]

/-- C79: values made of lists and of dictionaries with strings as keys are read unchanged. -/
theorem C79_exact (w : Nat) (v : V) (h : Unaltered v) :
    (dump w v).2 = .ok () ∧ load (dump w v).1 = .ok v := by
  obtain ⟨h1, h2⟩ := Json.readAs_unaltered v h
  exact ⟨(C79_accepted w v).1.2 h1, by rw [C79_text w v h1, h2]⟩

theorem unalteredPairs_iff (l : List (String × V)) :
    UnalteredPairs (l.map fun kv => (Key.str kv.1, kv.2)) ↔
      (l.map (·.1)).Nodup ∧ ∀ kv ∈ l, Unaltered kv.2 := by
  induction l with
  | nil => simp [UnalteredPairs]
  | cons a t ih =>
    rw [List.map_cons, UnalteredPairs, ih, List.map_cons, List.nodup_cons]
    have : Key.str a.1 ∉ (t.map fun kv => (Key.str kv.1, kv.2)).map (·.1) ↔ a.1 ∉ t.map (·.1) := by
      rw [List.map_map]
      simp [Function.comp_def]
    rw [this]
    constructor
    · rintro ⟨-, h1, h2, h3, h4⟩
      exact ⟨⟨h1, h3⟩, fun kv hkv => by
        rcases List.mem_cons.1 hkv with rfl | hkv
        · exact h2
        · exact h4 kv hkv⟩
    · rintro ⟨⟨h1, h3⟩, h2⟩
      exact ⟨⟨_, rfl⟩, h1, h2 a (by simp), h3, fun kv hkv => h2 kv (by simp [hkv])⟩

theorem mem_of_lookup {l : List (String × V)} {k : String} {v : V} (h : l.lookup k = some v) :
    (k, v) ∈ l := by
  induction l with
  | nil => simp at h
  | cons a t ih =>
    rw [List.lookup] at h
    split at h
    · rename_i hk
      simp only [Option.some.injEq] at h
      have := beq_iff_eq.1 hk
      subst h this
      exact List.mem_cons_self
    · exact List.mem_cons_of_mem _ (ih h)

theorem collapse_mem {l : List (String × V)} {kv : String × V} (h : kv ∈ collapse l) :
    kv ∈ l := by
  rw [collapse] at h
  obtain ⟨k, -, hk⟩ := List.mem_filterMap.1 h
  cases hl : l.reverse.lookup k with
  | none => rw [hl] at hk; simp at hk
  | some v =>
    rw [hl] at hk
    simp only [Option.map_some, Option.some.injEq] at hk
    subst hk
    exact List.mem_reverse.1 (mem_of_lookup hl)

mutual
theorem unaltered_readAs : (v : V) → Unaltered (readAs v)
  | .null => by simp [readAs, Unaltered]
  | .bool b => by simp [readAs, Unaltered]
  | .int i => by simp [readAs, Unaltered]
  | .float x => by simp [readAs, Unaltered]
  | .str s => by simp [readAs, Unaltered]
  | .list l => by rw [readAs, Unaltered]; exact unaltered_readElems l
  | .tuple l => by rw [readAs, Unaltered]; exact unaltered_readElems l
  | .dict d => by
    rw [readAs, Unaltered, unalteredPairs_iff]
    refine ⟨?_, fun kv hkv => unaltered_readPairs d kv (collapse_mem hkv)⟩
    rw [← Json.dictOf_collapse, (Json.dictOf_spec _).1]
    exact Json.eraseDups_nodup _
  | .other => by simp [readAs, Unaltered]

theorem unaltered_readElems : (l : List V) → UnalteredElems (readElems l)
  | [] => by simp [readElems, UnalteredElems]
  | v :: t => by
    rw [readElems, UnalteredElems]
    exact ⟨unaltered_readAs v, unaltered_readElems t⟩

theorem unaltered_readPairs : (l : List (Key × V)) → ∀ kv ∈ readPairs l, Unaltered kv.2
  | [] => by simp [readPairs]
  | (k, v) :: t => by
    intro kv hkv
    rw [readPairs] at hkv
    rcases List.mem_cons.1 hkv with rfl | hkv
    · exact unaltered_readAs v
    · exact unaltered_readPairs t kv hkv
end

/-- C79: what was read once is written and read without any further change. -/
theorem C79_again (w w' : Nat) (v x : V) (h : Writable v) (hx : load (dump w v).1 = .ok x) :
    (dump w' x).2 = .ok () ∧ load (dump w' x).1 = .ok x := by
  rw [C79_text w v h] at hx
  injection hx with hx
  subst hx
  exact C79_exact w' _ (unaltered_readAs v)

/-- C79: a file that holds only the beginning of the text of a dictionary, because the process
that writes it has not finished, has been stopped or has found a value that `json` refuses, is
refused: it is never taken for something else. -/
theorem C79_torn (w : Nat) (d : List (Key × V)) (p q : List Char)
    (h : (dump w (.dict d)).1 = p ++ q) (hq : q ≠ [] ∨ ¬ Writable (.dict d)) :
    load p = .error .valueError := by
  by_cases hw : Writable (.dict d)
  · rw [Cft.dump_ok hw] at h
    exact Json.load_prefix w d h (hq.resolve_right fun hn => hn hw)
  · obtain ⟨-, q', h1, h2⟩ := Cft.dump_bad (w := w) hw
    rw [h, List.append_assoc] at h2
    exact Json.load_prefix w d h2 (by simp [h1])

/-- C79: a text followed by anything but white space is refused. -/
theorem C79_longer (w : Nat) (d : List (Key × V)) (q : List Char) (hw : Writable (.dict d))
    (hq : ∃ c ∈ q, c ≠ ' ' ∧ c ≠ '\t' ∧ c ≠ '\n' ∧ c ≠ '\r') :
    load ((dump w (.dict d)).1 ++ q) = .error .valueError := by
  rw [Cft.dump_ok hw]
  refine Json.load_longer w d ?_
  obtain ⟨c, hc, hne⟩ := hq
  induction q with
  | nil => simp at hc
  | cons a t ih =>
    rw [Json.skip]
    split
    · rename_i ha
      refine ih ?_
      rcases List.mem_cons.1 hc with rfl | hc
      · simp only [Json.isSpace, Bool.or_eq_true, beq_iff_eq] at ha
        rcases ha with ((ha | ha) | ha) | ha
        · exact absurd ha hne.1
        · exact absurd ha hne.2.1
        · exact absurd ha hne.2.2.1
        · exact absurd ha hne.2.2.2
      · exact hc
    · simp

/-! ### Configurations -/

theorem open_written (c : Conf) (h : Metadata c.ds) (hw : EachConf Writable c) :
    ∃ e, openFile (some (dump 4 (Cft.encode c)).1) = .ok e ∧ LoadedConf c e := by
  have := C79_text 4 (Cft.encode c) ((Cft.writable_conf c).2 hw)
  refine ⟨⟨c.axis, Cft.readDs c.ds, readAs c.part⟩, ?_, rfl, Cft.readDs_loaded c.ds, rfl⟩
  rw [openFile, this]
  exact Cft.decode_read c h

/-- C79: the configuration of a collection whose values can be written is written, and opening
the collection gives it back. -/
theorem C79_open (c : Coll) (h : Metadata c.mem.ds) (hw : EachConf Writable c.mem) :
    (writeConfig c).2 = .ok () ∧
      ∃ e, openFile (writeConfig c).1.file = .ok e ∧ LoadedConf c.mem e :=
  ⟨(C79_accepted _ _).1.2 ((Cft.writable_conf _).2 hw), open_written c.mem h hw⟩

/-- C79: so does the configuration of a view. -/
theorem C79_view (c : ViewConf) (h : Metadata c.ds) (hw : EachDs Writable c.ds)
    (hf : Writable c.filters) (hs : Writable c.fs) :
    (dump 4 (Cft.encodeView c)).2 = .ok () ∧
      ∃ e, openViewFile (some (dump 4 (Cft.encodeView c)).1) = .ok e ∧ LoadedView c e := by
  have hwr : Writable (Cft.encodeView c) := by
    simp only [Cft.encodeView, Writable, WritablePairs]
    exact ⟨by simp, trivial, by simp, hf, by simp, (Cft.writable_ds _).2 hw, by simp,
      ⟨by simp, trivial, by simp, hs, trivial⟩, trivial⟩
  refine ⟨(C79_accepted _ _).1.2 hwr,
    ⟨c.base, readAs c.filters, Cft.readDs c.ds, c.path, readAs c.fs⟩, ?_, rfl, rfl,
    Cft.readDs_loaded c.ds, rfl, rfl⟩
  rw [openViewFile, C79_text 4 _ hwr]
  exact Cft.decodeView_read c h

/-- C79: values that are read unchanged make configurations that are read unchanged but for the
order of the variables and of the attributes. -/
theorem C79_unchanged (c e : Conf) (h : LoadedConf c e) (hu : EachConf Unaltered c) :
    e.part = c.part ∧ e.ds.chunks = c.ds.chunks ∧ e.ds.attrs.Perm c.ds.attrs ∧
      ∀ v ∈ c.ds.vars, ∃ x ∈ e.ds.vars, x.name = v.name ∧ x.dtype = v.dtype ∧ x.dims = v.dims ∧
        x.attrs.Perm v.attrs ∧ x.compressor = v.compressor ∧ x.fill = v.fill ∧
        x.filters = v.filters := by
  have hmap : ∀ l : List (String × V), (∀ a ∈ l, Unaltered a.2) →
      (l.map fun x => (x.1, readAs x.2)) = l := by
    intro l hl
    induction l with
    | nil => rfl
    | cons a t ih =>
      rw [List.map_cons, ih fun b hb => hl b (by simp [hb]),
        (Json.readAs_unaltered _ (hl a (by simp))).2]
  have hmap' : ∀ l : List V, (∀ a ∈ l, Unaltered a) → l.map readAs = l := by
    intro l hl
    induction l with
    | nil => rfl
    | cons a t ih =>
      rw [List.map_cons, ih fun b hb => hl b (by simp [hb]),
        (Json.readAs_unaltered _ (hl a (by simp))).2]
  refine ⟨?_, ?_, ?_, ?_⟩
  · rw [h.part, (Json.readAs_unaltered _ hu.part).2]
  · rw [h.ds.chunks, hmap _ hu.ds.chunks]
  · have := h.ds.attrs
    rwa [LoadedAttrs, hmap _ hu.ds.attrs] at this
  · intro v hv
    obtain ⟨f, h1, h2⟩ := h.ds.vars
    have hl := h1 v hv
    have hvu := hu.ds.vars v hv
    refine ⟨f v, h2.mem_iff.2 (List.mem_map.2 ⟨v, hv, rfl⟩), hl.name, hl.dtype, hl.dims, ?_, ?_, ?_,
      ?_⟩
    · have := hl.attrs
      rwa [LoadedAttrs, hmap _ hvu.attrs] at this
    · rw [hl.compressor, (Json.readAs_unaltered _ hvu.compressor).2]
    · rw [hl.fill, (Json.readAs_unaltered _ hvu.fill).2]
    · rw [hl.filters, hmap' _ hvu.filters]

/-- C79: while the configuration is written, and if the process that writes it is stopped, the
file is the old one, or it is refused, or it is the new one. -/
theorem C79_during (c : Coll) (f : Option (List Char)) (h : during c f) :
    f = c.file ∨ openFile f = .error .valueError ∨
      EachConf Writable c.mem ∧ f = (writeConfig c).1.file := by
  rcases h with h | ⟨p, q, h1, rfl⟩
  · exact .inl h
  · right
    by_cases hq : q = [] ∧ EachConf Writable c.mem
    · obtain ⟨rfl, hw⟩ := hq
      rw [List.append_nil] at h1
      exact .inr ⟨hw, by rw [← h1]; rfl⟩
    · left
      have : q ≠ [] ∨ ¬ Writable (Cft.encode c.mem) := by
        by_cases hq' : q = []
        · exact .inr fun hw => hq ⟨hq', (Cft.writable_conf _).1 hw⟩
        · exact .inl hq'
      rw [openFile, C79_torn 4 _ p q h1 this]
      rfl

/-! ### Histories -/

/-- C79: after any calls, opening the collection gives the metadata that the process has. -/
def C79_full : Prop :=
  ∀ (conf : Conf) (keys : List String) (dim : String) (imm : List String) (l : List Call),
    Metadata conf.ds → EachConf Writable conf →
      ∃ e, openFile (calls (create conf keys dim imm).1 l).file = .ok e ∧
        LoadedConf (calls (create conf keys dim imm).1 l).mem e

/-- The file is the text of the metadata, which can be written. -/
structure InStep (c : Coll) : Prop where
  md : Metadata c.mem.ds
  wr : EachConf Writable c.mem
  file : c.file = some (dump 4 (Cft.encode c.mem)).1

theorem inStep_write {c : Coll} (h : Metadata c.mem.ds) (hw : EachConf Writable c.mem) :
    InStep (writeConfig c).1 := ⟨h, hw, rfl⟩

theorem metadata_without {m : Conf} (name : String) (h : Metadata m.ds) :
    Metadata (Cft.without name m).ds :=
  ⟨h.names.sublist (List.filter_sublist.map _), h.limit⟩

theorem writable_without {m : Conf} (name : String) {P : V → Prop} (h : EachConf P m) :
    EachConf P (Cft.without name m) :=
  ⟨⟨h.ds.attrs, fun v hv => h.ds.vars v (List.mem_filter.1 hv).1, h.ds.chunks⟩, h.part⟩

theorem inStep_drop {c : Coll} (h : InStep c) (name : String) (fails : Bool) :
    InStep (dropVariable c name fails).1 := by
  rw [dropVariable]
  split
  · exact h
  split
  · exact h
  split
  · exact h
  split
  · exact h
  · exact inStep_write (metadata_without name h.md) (writable_without name h.wr)

theorem inStep_add {c : Coll} (h : InStep c) (v : Var) (fails undo : Bool)
    (hv : EachVar Writable v) : InStep (addVariable c v fails undo).1 := by
  rw [addVariable]
  split
  · exact h
  split
  · exact h
  split
  · exact h
  rename_i hname _
  have hmd : Metadata (Cft.withNew v c.mem).ds := by
    refine ⟨?_, h.md.limit⟩
    show ((c.mem.ds.vars ++ [v]).map (·.name)).Nodup
    rw [List.map_append, List.nodup_append]
    refine ⟨h.md.names, by simp, ?_⟩
    rintro a ha b hb rfl
    have hb' : a = v.name := List.mem_singleton.1 hb
    exact hname (hb' ▸ ha)
  have hwr : EachConf Writable (Cft.withNew v c.mem) := by
    refine ⟨⟨h.wr.ds.attrs, ?_, h.wr.ds.chunks⟩, h.wr.part⟩
    intro w hw
    rcases List.mem_append.1 hw with hw | hw
    · exact h.wr.ds.vars w hw
    · exact List.mem_singleton.1 hw ▸ hv
  have hs : InStep (writeConfig { c with mem := Cft.withNew v c.mem }).1 := inStep_write hmd hwr
  rcases hc : writeConfig { c with mem := Cft.withNew v c.mem } with ⟨c', r⟩
  rw [hc] at hs
  cases r with
  | error e => exact hs
  | ok u =>
    cases u
    simp only
    split
    · have hd := inStep_drop hs v.name undo
      rcases hx : dropVariable c' v.name undo with ⟨c'', r⟩
      rw [hx] at hd
      cases r with
      | error e => exact hd
      | ok u => exact hd
    · exact hs

/-- C79: after any calls, failed or not, opening a collection gives the metadata that the process
has, if the values of the variables added can be written. -/
theorem C79_history_partial (conf : Conf) (keys : List String) (dim : String) (imm : List String)
    (l : List Call) (h : Metadata conf.ds) (hw : EachConf Writable conf)
    (hl : ∀ v fails undo, Call.add v fails undo ∈ l → EachVar Writable v) :
    ∃ e, openFile (calls (create conf keys dim imm).1 l).file = .ok e ∧
      LoadedConf (calls (create conf keys dim imm).1 l).mem e := by
  have key : ∀ (l : List Call) (c : Coll), InStep c →
      (∀ v fails undo, Call.add v fails undo ∈ l → EachVar Writable v) → InStep (calls c l) := by
    intro l
    induction l with
    | nil => intro c hc _; exact hc
    | cons x t ih =>
      intro c hc hx
      refine ih (call c x) ?_ fun v a b hm => hx v a b (by simp [hm])
      cases x with
      | add v a b => exact inStep_add hc v a b (hx v a b (by simp))
      | drop n a => exact inStep_drop hc n a
  have hs := key l (create conf keys dim imm).1 (inStep_write h hw) hl
  rw [hs.file]
  exact open_written _ hs.md hs.wr

/-- The metadata have a variable that cannot be written, and the file is refused. -/
structure Torn (name : String) (c : Coll) : Prop where
  has : ∃ v ∈ c.mem.ds.vars, v.name = name ∧ ¬ EachVar Writable v
  file : openFile c.file = .error .valueError

theorem torn_write {name : String} {c : Coll}
    (h : ∃ v ∈ c.mem.ds.vars, v.name = name ∧ ¬ EachVar Writable v) :
    Torn name (writeConfig c).1 ∧ (writeConfig c).2 = .error .typeError := by
  have hw : ¬ Writable (Cft.encode c.mem) := by
    intro hw
    obtain ⟨v, hv, -, hn⟩ := h
    exact hn (((Cft.writable_conf _).1 hw).ds.vars v hv)
  refine ⟨⟨h, ?_⟩, (C79_accepted _ _).2.2 hw⟩
  have hload : load (dump 4 (Cft.encode c.mem)).1 = .error .valueError :=
    C79_torn 4 _ _ [] (List.append_nil _).symm (.inr hw)
  show openFile (some (dump 4 (Cft.encode c.mem)).1) = _
  rw [openFile, hload]
  rfl

/-- C79: adding a variable with a value that `json` refuses raises `TypeError` after the variable
has been added to the metadata of the process and the file of configuration has been destroyed:
the collection cannot be opened, whatever the process does with it, until it drops the
variable. -/
theorem C79_broken (c : Coll) (v : Var) (fails undo : Bool) (l : List Call)
    (hdim : c.dim ∈ v.dims) (hname : v.name ∉ c.mem.ds.vars.map (·.name))
    (hdims : ∀ d ∈ v.dims, d ∈ c.mem.ds.dims) (hv : ¬ EachVar Writable v)
    (hl : ∀ b, Call.drop v.name b ∉ l) :
    (addVariable c v fails undo).2 = .error .typeError ∧
      openFile (calls (addVariable c v fails undo).1 l).file = .error .valueError := by
  have ht := torn_write (name := v.name) (c := { c with mem := Cft.withNew v c.mem })
    ⟨v, by simp [Cft.withNew], rfl, hv⟩
  have ha : addVariable c v fails undo =
      ((writeConfig { c with mem := Cft.withNew v c.mem }).1, .error .typeError) := by
    rw [addVariable, if_neg (by simpa using hdim), if_neg hname, if_neg (by simpa using hdims)]
    rcases hc : writeConfig { c with mem := Cft.withNew v c.mem } with ⟨c', r⟩
    rw [hc] at ht
    have := ht.2
    simp only at this
    subst this
    rfl
  have hwrite : ∀ c, Torn v.name c → ∀ m : Conf, (∀ w ∈ c.mem.ds.vars, w.name = v.name →
      w ∈ m.ds.vars) → Torn v.name (writeConfig { c with mem := m }).1 := by
    intro c hc m hm
    obtain ⟨w, h1, h2, h3⟩ := hc.has
    exact (torn_write ⟨w, hm w h1 h2, h2, h3⟩).1
  have key : ∀ (l : List Call) (c : Coll), Torn v.name c → (∀ b, Call.drop v.name b ∉ l) →
      Torn v.name (calls c l) := by
    intro l
    induction l with
    | nil => intro c hc _; exact hc
    | cons x t ih =>
      intro c hc hx
      refine ih (call c x) ?_ fun b hb => hx b (by simp [hb])
      cases x with
      | add w a b =>
        show Torn v.name (addVariable c w a b).1
        rw [addVariable]
        split
        · exact hc
        split
        · exact hc
        split
        · exact hc
        obtain ⟨u, h1, h2, h3⟩ := hc.has
        have ht' := torn_write (name := v.name) (c := { c with mem := Cft.withNew w c.mem })
          ⟨u, by simp [Cft.withNew, h1], h2, h3⟩
        rcases hcw : writeConfig { c with mem := Cft.withNew w c.mem } with ⟨c', r⟩
        rw [hcw] at ht'
        have := ht'.2
        simp only at this
        subst this
        exact ht'.1
      | drop n a =>
        show Torn v.name (dropVariable c n a).1
        rw [dropVariable]
        split
        · exact hc
        split
        · exact hc
        split
        · exact hc
        split
        · exact hc
        · refine hwrite c hc _ fun w hw hwn => List.mem_filter.2 ⟨hw, ?_⟩
          have hne : n ≠ v.name := by
            rintro rfl
            exact hx a (by simp)
          simpa [hwn] using Ne.symm hne
  rw [ha]
  exact ⟨rfl, (key l _ ht.1 hl).file⟩

/-- C79: dropping the variable writes the file again: the collection can be opened. -/
theorem C79_repaired (c : Coll) (v : Var) (fails undo : Bool) (h : Metadata c.mem.ds)
    (hw : EachConf Writable c.mem) (hdim : c.dim ∈ v.dims)
    (hname : v.name ∉ c.mem.ds.vars.map (·.name)) (hdims : ∀ d ∈ v.dims, d ∈ c.mem.ds.dims)
    (hv : ¬ EachVar Writable v) (hk : v.name ∉ c.keys) (hi : v.name ∉ c.imm) :
    (dropVariable (addVariable c v fails undo).1 v.name false).2 = .ok () ∧
      ∃ e, openFile (dropVariable (addVariable c v fails undo).1 v.name false).1.file = .ok e ∧
        LoadedConf c.mem e := by
  have ht := torn_write (name := v.name) (c := { c with mem := Cft.withNew v c.mem })
    ⟨v, by simp [Cft.withNew], rfl, hv⟩
  have ha : (addVariable c v fails undo).1 =
      (writeConfig { c with mem := Cft.withNew v c.mem }).1 := by
    rw [addVariable, if_neg (by simpa using hdim), if_neg hname, if_neg (by simpa using hdims)]
    rcases hc : writeConfig { c with mem := Cft.withNew v c.mem } with ⟨c', r⟩
    rw [hc] at ht
    have := ht.2
    simp only at this
    subst this
    rfl
  have hback : Cft.without v.name (Cft.withNew v c.mem) = c.mem := by
    have : (c.mem.ds.vars ++ [v]).filter (fun w => decide (w.name ≠ v.name)) = c.mem.ds.vars := by
      rw [List.filter_append]
      have h1 : c.mem.ds.vars.filter (fun w => decide (w.name ≠ v.name)) = c.mem.ds.vars := by
        rw [List.filter_eq_self]
        intro w hw
        have : w.name ≠ v.name := fun e => hname (List.mem_map.2 ⟨w, hw, e⟩)
        simpa using this
      rw [h1]
      simp
    rw [Cft.without, Cft.withNew]
    simp only [this]
  have hd : dropVariable (addVariable c v fails undo).1 v.name false =
      writeConfig { (writeConfig { c with mem := Cft.withNew v c.mem }).1 with mem := c.mem } := by
    rw [ha, dropVariable, if_neg, if_neg, if_neg, if_neg (by simp)]
    · congr 1
      show Coll.mk (Cft.without v.name (Cft.withNew v c.mem)) _ _ _ _ = _
      rw [hback]
    · exact hi
    · simp [writeConfig, Cft.withNew]
    · exact hk
  rw [hd]
  exact C79_open _ h hw

/-- A string with a control character inside is not read. -/
theorem scan_control (c : Char) (post : List Char) (hc : c.toNat < 32) (pre : List Char)
    (hp : ∀ x ∈ pre, 32 ≤ x.toNat ∧ x ≠ '"' ∧ x ≠ '\\') :
    Json.scan .text (pre ++ c :: post) = none := by
  induction pre with
  | nil =>
    have h1 : c ≠ '"' := by rintro rfl; exact absurd hc (by decide)
    have h2 : c ≠ '\\' := by rintro rfl; exact absurd hc (by decide)
    simp only [List.nil_append, Json.scan, Json.step, if_neg h1, if_neg h2, if_pos hc]
  | cons x t ih =>
    obtain ⟨h1, h2, h3⟩ := hp x List.mem_cons_self
    simp only [List.cons_append, Json.scan, Json.step, if_neg h2, if_neg h3,
      if_neg (show ¬ x.toNat < 32 by omega), ih fun y hy => hp y (List.mem_cons_of_mem _ hy)]
    rfl

/-- C79: a string that contains a raw control character is refused (a text that `json.dump` never
writes). -/
theorem C79_control (pre post : List Char) (c : Char)
    (hp : ∀ x ∈ pre, 32 ≤ x.toNat ∧ x ≠ '"' ∧ x ≠ '\\') (hc : c.toNat < 32) :
    Json.load ('"' :: (pre ++ c :: post)) = .error .valueError := by
  have hs : Json.skip ('"' :: (pre ++ c :: post)) = '"' :: (pre ++ c :: post) := rfl
  unfold Json.load
  rw [hs]
  simp only [Json.value, if_true, scan_control c post hc pre hp, Option.map_none]

example : Json.load ['"', 'a', '\n', '"'] = .error .valueError :=
  C79_control ['a'] ['"'] '\n' (by decide) (by decide)

theorem dictOf_spec (l : List Cft.Var) (acc : List Cft.Var) (h : (acc.map (·.name)).Nodup) :
    ((Cft.dictOf acc l).map (·.name)).Nodup ∧ ∀ v, v ∈ Cft.dictOf acc l ↔
      (v ∈ acc ∧ v.name ∉ l.map (·.name)) ∨
      ∃ pre post, l = pre ++ v :: post ∧ v.name ∉ post.map (·.name) := by
  induction l generalizing acc with
  | nil => simpa [Cft.dictOf] using h
  | cons x t ih =>
    have key : ∀ acc' : List Cft.Var, (acc'.map (·.name)).Nodup →
        (∀ v, v ∈ acc' ↔ v = x ∨ v ∈ acc ∧ v.name ≠ x.name) →
        ((Cft.dictOf acc' t).map (·.name)).Nodup ∧ ∀ v, v ∈ Cft.dictOf acc' t ↔
          (v ∈ acc ∧ v.name ∉ (x :: t).map (·.name)) ∨
          ∃ pre post, x :: t = pre ++ v :: post ∧ v.name ∉ post.map (·.name) := by
      intro acc' h' hm
      obtain ⟨i1, i2⟩ := ih acc' h'
      refine ⟨i1, fun v => ?_⟩
      rw [i2 v, hm v, List.map_cons, List.mem_cons, not_or]
      constructor
      · rintro (⟨rfl | ⟨h1, h2⟩, h3⟩ | ⟨pre, post, rfl, h3⟩)
        · exact .inr ⟨[], t, rfl, h3⟩
        · exact .inl ⟨h1, h2, h3⟩
        · exact .inr ⟨x :: pre, post, rfl, h3⟩
      · rintro (⟨h1, h2, h3⟩ | ⟨pre, post, h1, h3⟩)
        · exact .inl ⟨.inr ⟨h1, h2⟩, h3⟩
        · cases pre with
          | nil =>
            simp only [List.nil_append, List.cons.injEq] at h1
            obtain ⟨rfl, rfl⟩ := h1
            exact .inl ⟨.inl rfl, h3⟩
          | cons y pre =>
            simp only [List.cons_append, List.cons.injEq] at h1
            exact .inr ⟨pre, post, h1.2, h3⟩
    by_cases hx : x.name ∈ acc.map (·.name)
    · rw [Cft.dictOf, if_pos hx]
      refine key _ ?_ ?_
      · have : (acc.map fun w => if w.name = x.name then x else w).map (·.name) =
            acc.map (·.name) := by
          rw [List.map_map]
          apply List.map_congr_left
          intro w _
          simp only [Function.comp_apply]
          split
          · next he => exact he.symm
          · rfl
        rw [this]
        exact h
      · intro v
        rw [List.mem_map]
        constructor
        · rintro ⟨w, hw, rfl⟩
          split
          · exact .inl rfl
          · next hne => exact .inr ⟨hw, hne⟩
        · rintro (rfl | ⟨h1, h2⟩)
          · obtain ⟨w, hw, he⟩ := List.mem_map.1 hx
            exact ⟨w, hw, by rw [if_pos he]⟩
          · exact ⟨v, h1, by rw [if_neg h2]⟩
    · rw [Cft.dictOf, if_neg hx]
      refine key _ ?_ ?_
      · rw [List.map_append, List.nodup_append]
        refine ⟨h, by simp, ?_⟩
        rintro a ha b hb rfl
        simp only [List.map_cons, List.map_nil, List.mem_singleton] at hb
        exact hx (hb ▸ ha)
      · intro v
        rw [List.mem_append, List.mem_singleton]
        constructor
        · rintro (h1 | rfl)
          · exact .inr ⟨h1, fun he => hx (he ▸ List.mem_map_of_mem h1)⟩
          · exact .inl rfl
        · rintro (rfl | ⟨h1, _⟩)
          · exact .inr rfl
          · exact .inl h1

/-- C79: the variables of a file that can be opened, whoever wrote it: they have distinct names,
and of the entries of one name the last one counts. -/
theorem C79_variables (t : List Char) (c : Cft.Conf) (h : openFile (some t) = .ok c) :
    (c.ds.vars.map (·.name)).Nodup ∧ ∃ x y l vars, Json.load t = .ok x ∧
      Cft.field "dataset" x = .ok y ∧ (Cft.field "variables" y).bind Cft.asList = .ok l ∧
      Cft.each Cft.decodeVar l = .ok vars ∧ ∀ v, v ∈ c.ds.vars ↔
        ∃ pre post, vars = pre ++ v :: post ∧ v.name ∉ post.map (·.name) := by
  simp only [openFile, bind, Except.bind] at h
  split at h
  · cases h
  · next x hx =>
    simp only [Cft.decode, bind, Except.bind] at h
    split at h
    · cases h
    · split at h
      · cases h
      · next ds hds =>
        split at h
        · cases h
        · cases h
          split at hds
          · cases hds
          · next y hy =>
            simp only [Cft.decodeDs, bind, Except.bind] at hds
            split at hds
            · cases hds
            · split at hds
              · cases hds
              · next vars hvars =>
                split at hds
                · cases hds
                · split at hds
                  · cases hds
                  · split at hds
                    · cases hds
                    · cases hds
                      split at hvars
                      · cases hvars
                      · next z hz =>
                        split at hvars
                        · cases hvars
                        · next l hl =>
                          obtain ⟨s1, s2⟩ := dictOf_spec vars [] (by simp)
                          refine ⟨s1, x, y, l, vars, hx, hy, ?_, hvars, fun v => ?_⟩
                          · rw [hz]
                            exact hl
                          · rw [s2 v]
                            simp

/-- C79: opening raises `ValueError` if there is no file, or if its text is not JSON. -/
theorem C79_missing (f : Option (List Char)) (hf : ∀ t, f = some t → ∀ v, Json.load t ≠ .ok v) :
    openFile f = .error .valueError ∧ openViewFile f = .error .valueError := by
  cases f with
  | none => exact ⟨rfl, rfl⟩
  | some t =>
    have : Json.load t = .error .valueError := by
      have h := hf t rfl
      unfold Json.load at h ⊢
      split
      · rfl
      · next v r hr =>
        split
        · next hs => exact absurd (by rw [hr]; simp [hs]) (h v)
        · rfl
    simp only [openFile, openViewFile, this, bind, Except.bind, and_self]

example : openFile (some ['"', 'a', '\n', '"']) = .error .valueError :=
  (C79_missing _ (by
    intro t ht v hv
    cases ht
    have hc : load ['"', 'a', '\n', '"'] = .error .valueError :=
      C79_control ['a'] ['"'] '\n' (by decide) (by decide)
    cases hc.symm.trans hv)).1

/-- `isort` by name gives the names in ascending order. -/
theorem isort_names {α : Type} (key : α → String) (l : List α) :
    ((Sort.isort (fun a b => decide (key a ≤ key b)) l).map key).Pairwise (· ≤ ·) := by
  rw [List.pairwise_map]
  refine (Sort.isort_pairwise (fun a b c hab hbc => ?_) (fun a b => ?_) l).imp fun h =>
    of_decide_eq_true h
  · simp only [decide_eq_true_eq] at *
    exact String.le_trans hab hbc
  · simp only [Bool.or_eq_true, decide_eq_true_eq]
    exact String.le_total _ _

/-- C79: the configuration opened has its variables and all its attributes in the order of their
names, whatever the order they were given in. -/
theorem C79_order (c : Coll) (h : Metadata c.mem.ds) (hw : EachConf Writable c.mem) :
    ∃ e, openFile (writeConfig c).1.file = .ok e ∧
      (e.ds.vars.map (·.name)).Pairwise (· ≤ ·) ∧ (e.ds.attrs.map (·.1)).Pairwise (· ≤ ·) ∧
      ∀ v ∈ e.ds.vars, (v.attrs.map (·.1)).Pairwise (· ≤ ·) := by
  have := C79_text 4 (Cft.encode c.mem) ((Cft.writable_conf c.mem).2 hw)
  refine ⟨⟨c.mem.axis, Cft.readDs c.mem.ds, readAs c.mem.part⟩, ?_, ?_, ?_, ?_⟩
  · rw [writeConfig, openFile, this]
    exact Cft.decode_read c.mem h
  · simp only [Cft.readDs, List.map_map]
    exact isort_names (fun v : Var => v.name) c.mem.ds.vars
  · simp only [Cft.readDs, List.map_map]
    exact isort_names (fun a : Cft.Attr => a.1) c.mem.ds.attrs
  · intro v hv
    obtain ⟨u, _, rfl⟩ := List.mem_map.1 hv
    simp only [Cft.readVar, List.map_map]
    exact isort_names (fun a : Cft.Attr => a.1) u.attrs

/-- C79: a file without one of the three entries is refused with `KeyError`. -/
theorem C79_fields (t : List Char) (d : List (Key × V)) (hl : Json.load t = .ok (.dict d)) :
    (d.lookup (.str "axis") = none → openFile (some t) = .error .keyError) ∧
    (∀ a, d.lookup (.str "axis") = some (.str a) → d.lookup (.str "dataset") = none →
      openFile (some t) = .error .keyError) ∧
    (∀ a x y, d.lookup (.str "axis") = some (.str a) → d.lookup (.str "dataset") = some x →
      Cft.decodeDs x = .ok y → d.lookup (.str "partitioning") = none →
      openFile (some t) = .error .keyError) := by
  refine ⟨fun h => ?_, fun a h1 h2 => ?_, fun a x y h1 h2 h3 h4 => ?_⟩
  · simp only [openFile, hl, Cft.decode, Cft.field, h, bind, Except.bind]
  · simp only [openFile, hl, Cft.decode, Cft.field, h1, h2, Cft.asStr, bind, Except.bind]
  · simp only [openFile, hl, Cft.decode, Cft.field, h1, h2, h3, h4, Cft.asStr, bind, Except.bind]

theorem each_pairs (l : List V) (r : List Cft.Attr) (h : Cft.each Cft.asPair l = .ok r) :
    l.length = r.length ∧ ∀ (i : Nat) v, l[i]? = some v → ∃ a, r[i]? = some a ∧
      (v = .list [.str a.1, a.2] ∨ v = .tuple [.str a.1, a.2]) := by
  induction l generalizing r with
  | nil =>
    cases h
    simp
  | cons v t ih =>
    simp only [Cft.each, bind, Except.bind] at h
    split at h
    · cases h
    · next b hb =>
      split at h
      · cases h
      · next bs hbs =>
        cases h
        obtain ⟨h1, h2⟩ := ih bs hbs
        refine ⟨by simp [h1], fun i w hi => ?_⟩
        cases i with
        | succ i => exact h2 i w hi
        | zero =>
          simp only [List.getElem?_cons_zero, Option.some.injEq] at hi
          subst hi
          refine ⟨b, rfl, ?_⟩
          simp only [Cft.asPair, bind, Except.bind] at hb
          split at hb
          · cases hb
          · next l hl =>
            split at hb
            · next n x =>
              split at hb
              · cases hb
              · next s hs =>
                cases hb
                have hn : n = .str s := by
                  cases n <;> simp [Cft.asStr] at hs
                  rw [hs]
                subst hn
                cases v <;> simp [Cft.asList] at hl
                · exact .inl (by rw [hl])
                · exact .inr (by rw [hl])
            · cases hb

/-- C79: every attribute of a file that can be opened is a pair of a name and of a value, and
the attributes of the collection are these pairs, in order. -/
theorem C79_pairs (t : List Char) (c : Cft.Conf) (h : openFile (some t) = .ok c) :
    ∃ x y l, Json.load t = .ok x ∧ Cft.field "dataset" x = .ok y ∧
      (Cft.field "attrs" y).bind Cft.asList = .ok l ∧ l.length = c.ds.attrs.length ∧
      ∀ (i : Nat) v, l[i]? = some v → ∃ a, c.ds.attrs[i]? = some a ∧
        (v = .list [.str a.1, a.2] ∨ v = .tuple [.str a.1, a.2]) := by
  simp only [openFile, bind, Except.bind] at h
  split at h
  · cases h
  · next x hx =>
    simp only [Cft.decode, bind, Except.bind] at h
    split at h
    · cases h
    · split at h
      · cases h
      · next ds hds =>
        split at h
        · cases h
        · cases h
          split at hds
          · cases hds
          · next y hy =>
            simp only [Cft.decodeDs, bind, Except.bind] at hds
            split at hds
            · cases hds
            · split at hds
              · cases hds
              · split at hds
                · cases hds
                · next attrs hattrs =>
                  split at hds
                  · cases hds
                  · split at hds
                    · cases hds
                    · cases hds
                      split at hattrs
                      · cases hattrs
                      · next z hz =>
                        split at hattrs
                        · cases hattrs
                        · next l hl =>
                          obtain ⟨h1, h2⟩ := each_pairs l attrs hattrs
                          refine ⟨x, y, l, hx, hy, ?_, h1, h2⟩
                          rw [hz]
                          exact hl

end Verif
