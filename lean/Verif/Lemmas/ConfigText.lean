import Verif.Lemmas.Json
import Verif.Lemmas.Sort
import Verif.Spec.ConfigText

/-! Lemmas on the text of the configurations. -/

namespace Verif.Cft

open Json (V Key)
open Spec

theorem readElems_map (l : List V) : readElems l = l.map readAs := by
  induction l with
  | nil => rw [readElems]; rfl
  | cons a t ih => rw [readElems, ih]; rfl

theorem readPairs_map (l : List (String × V)) :
    readPairs (l.map fun kv => (Key.str kv.1, kv.2)) = l.map fun kv => (kv.1, readAs kv.2) := by
  induction l with
  | nil => rw [List.map_nil, readPairs]; rfl
  | cons a t ih => rw [List.map_cons, readPairs, ih]; rfl

/-- A dictionary with distinct strings as keys is read with the same keys. -/
theorem readAs_dict (l : List (String × V)) (h : (l.map (·.1)).Nodup) :
    readAs (.dict (l.map fun kv => (Key.str kv.1, kv.2))) =
      .dict (l.map fun kv => (Key.str kv.1, readAs kv.2)) := by
  rw [readAs, readPairs_map, Json.collapse_id]
  · rw [List.map_map]; rfl
  · rw [List.map_map]; exact h

theorem readAs_var (v : Var) : readAs (encodeVar v) =
    .dict [(.str "attrs", .list (((sortAttrs v.attrs).map pairV).map readAs)),
      (.str "compressor", readAs v.compressor),
      (.str "dimensions", .list ((v.dims.map V.str).map readAs)),
      (.str "dtype", .str v.dtype),
      (.str "fill_value", readAs v.fill),
      (.str "filters", .list (v.filters.map readAs)),
      (.str "name", .str v.name)] := by
  have := readAs_dict [("attrs", .list ((sortAttrs v.attrs).map pairV)),
    ("compressor", v.compressor), ("dimensions", .tuple (v.dims.map .str)),
    ("dtype", .str v.dtype), ("fill_value", v.fill), ("filters", .tuple v.filters),
    ("name", .str v.name)] (by
      show ["attrs", "compressor", "dimensions", "dtype", "fill_value", "filters", "name"].Nodup
      decide +kernel)
  simp only [List.map_cons, List.map_nil] at this
  rw [encodeVar, this, readAs, readAs, readAs, readAs, readAs, readElems_map, readElems_map,
    readElems_map]

theorem each_map {α β γ : Type} (g : γ → α) (f : α → Py β) (h : γ → β)
    (l : List γ) (hf : ∀ x ∈ l, f (g x) = .ok (h x)) : each f (l.map g) = .ok (l.map h) := by
  induction l with
  | nil => rfl
  | cons a t ih =>
    rw [List.map_cons, each, hf a (by simp), ih fun x hx => hf x (by simp [hx])]
    rfl

theorem each_strs (l : List String) : each asStr ((l.map V.str).map readAs) = .ok l := by
  rw [List.map_map, each_map _ asStr id l (fun x _ => by simp [readAs, asStr]), List.map_id]

theorem readAs_pair (a : String × V) : asPair (readAs (pairV a)) = .ok (a.1, readAs a.2) := by
  rw [pairV, readAs, readElems_map]
  simp only [List.map_cons, List.map_nil]
  rw [readAs]
  rfl

theorem each_pairs (l : List (String × V)) :
    each asPair ((l.map pairV).map readAs) = .ok (l.map fun x => (x.1, readAs x.2)) := by
  rw [List.map_map]
  exact each_map _ asPair _ l fun x _ => readAs_pair x

/-- The variable that is read. -/
def readVar (v : Var) : Var :=
  ⟨v.name, v.dtype, v.dims, (sortAttrs v.attrs).map fun x => (x.1, readAs x.2),
    readAs v.compressor, readAs v.fill, v.filters.map readAs⟩

theorem field_here (n : String) (v : V) (t : List (Key × V)) :
    field n (.dict ((.str n, v) :: t)) = .ok v := by
  simp [field]

theorem field_next {n m : String} (h : n ≠ m) (v : V) (t : List (Key × V)) :
    field n (.dict ((.str m, v) :: t)) = field n (.dict t) := by
  have : (Key.str n == Key.str m) = false := beq_eq_false_iff_ne.2 fun e => h (by injection e)
  simp [field, List.lookup, this]

theorem field?_here (n : String) (v : V) (t : List (Key × V)) :
    field? n (.dict ((.str n, v) :: t)) = .ok (some v) := by
  simp [field?]

theorem field?_next {n m : String} (h : n ≠ m) (v : V) (t : List (Key × V)) :
    field? n (.dict ((.str m, v) :: t)) = field? n (.dict t) := by
  have : (Key.str n == Key.str m) = false := beq_eq_false_iff_ne.2 fun e => h (by injection e)
  simp [field?, List.lookup, this]

theorem decodeVar_read (v : Var) : decodeVar (readAs (encodeVar v)) = .ok (readVar v) := by
  rw [readAs_var]
  simp only [decodeVar, bind, Except.bind, field_here, ne_eq, String.reduceEq, not_false_eq_true,
    field_next, asStr, asList, each_strs, each_pairs]
  rfl

theorem dictOf_nodup (acc l : List Var) (h : ((acc ++ l).map (·.name)).Nodup) :
    dictOf acc l = acc ++ l := by
  induction l generalizing acc with
  | nil => simp [dictOf]
  | cons v t ih =>
    have hv : v.name ∉ acc.map (·.name) := by
      intro hm
      rw [List.map_append, List.nodup_append] at h
      exact h.2.2 _ hm v.name (by simp) rfl
    rw [dictOf, if_neg hv, ih (acc ++ [v]) (by simpa using h)]
    simp

/-- The metadata that are read. -/
def readDs (d : Ds) : Ds :=
  ⟨d.dims, (sortVars d.vars).map readVar, (sortAttrs d.attrs).map fun x => (x.1, readAs x.2),
    d.chunks.map fun x => (x.1, readAs x.2), d.limit⟩

theorem readAs_ds (d : Ds) : readAs (encodeDs d) =
    .dict [(.str "attrs", .list (((sortAttrs d.attrs).map pairV).map readAs)),
      (.str "dimensions", .list ((d.dims.map V.str).map readAs)),
      (.str "variables", .list (((sortVars d.vars).map encodeVar).map readAs)),
      (.str "chunks", .list ((d.chunks.map pairV).map readAs)),
      (.str "block_size_limit", .int d.limit)] := by
  have := readAs_dict [("attrs", .list ((sortAttrs d.attrs).map pairV)),
    ("dimensions", .tuple (d.dims.map .str)),
    ("variables", .tuple ((sortVars d.vars).map encodeVar)),
    ("chunks", .tuple (d.chunks.map pairV)),
    ("block_size_limit", .int d.limit)] (by
      show ["attrs", "dimensions", "variables", "chunks", "block_size_limit"].Nodup
      decide +kernel)
  simp only [List.map_cons, List.map_nil] at this
  rw [encodeDs, this, readAs, readAs, readAs, readAs, readAs, readElems_map, readElems_map,
    readElems_map, readElems_map]

theorem decodeDs_read (d : Ds) (h : Metadata d) :
    decodeDs (readAs (encodeDs d)) = .ok (readDs d) := by
  have hvars : each decodeVar (((sortVars d.vars).map encodeVar).map readAs) =
      .ok ((sortVars d.vars).map readVar) := by
    rw [List.map_map]
    exact each_map _ decodeVar _ _ fun v _ => decodeVar_read v
  have hperm := Sort.isort_perm (le := fun a b : Var => decide (a.name ≤ b.name)) d.vars
  have hnames : (((sortVars d.vars).map readVar).map (·.name)).Nodup := by
    rw [List.map_map]
    show ((sortVars d.vars).map (·.name)).Nodup
    exact (hperm.map _).nodup_iff.2 h.names
  have hlimit : limitOf (some (.int (d.limit : Int))) = .ok d.limit := by
    show (if d.limit = 0 then _ else _) = _
    rw [if_neg h.limit]
  rw [readAs_ds]
  simp only [decodeDs, bind, Except.bind, field_here, ne_eq, String.reduceEq, not_false_eq_true,
    field_next, field?_here, field?_next, asList, each_strs, each_pairs, hvars, hlimit]
  rw [dictOf_nodup [] _ (by simpa using hnames)]
  rfl

theorem readDs_loaded (d : Ds) : LoadedDs d (readDs d) where
  dims := rfl
  attrs := (Sort.isort_perm _).map _
  chunks := rfl
  limit := rfl
  vars := ⟨readVar, fun _ _ => ⟨rfl, rfl, rfl, (Sort.isort_perm _).map _, rfl, rfl, rfl⟩,
    (Sort.isort_perm _).map _⟩

theorem readAs_conf (c : Conf) : readAs (encode c) =
    .dict [(.str "axis", .str c.axis), (.str "dataset", readAs (encodeDs c.ds)),
      (.str "partitioning", readAs c.part)] := by
  have := readAs_dict [("axis", .str c.axis), ("dataset", encodeDs c.ds),
    ("partitioning", c.part)] (by
      show ["axis", "dataset", "partitioning"].Nodup
      decide +kernel)
  simp only [List.map_cons, List.map_nil] at this
  rw [encode, this, readAs]

theorem decode_read (c : Conf) (h : Metadata c.ds) :
    decode (readAs (encode c)) = .ok ⟨c.axis, readDs c.ds, readAs c.part⟩ := by
  rw [readAs_conf]
  simp only [decode, bind, Except.bind, field_here, ne_eq, String.reduceEq, not_false_eq_true,
    field_next, asStr, decodeDs_read _ h]

theorem readAs_view (c : ViewConf) : readAs (encodeView c) =
    .dict [(.str "base_dir", .str c.base), (.str "filters", readAs c.filters),
      (.str "metadata", readAs (encodeDs c.ds)),
      (.str "view_ref", .dict [(.str "path", .str c.path), (.str "fs", readAs c.fs)])] := by
  have h1 := readAs_dict [("path", .str c.path), ("fs", c.fs)] (by
    show ["path", "fs"].Nodup
    decide +kernel)
  have h2 := readAs_dict [("base_dir", .str c.base), ("filters", c.filters),
    ("metadata", encodeDs c.ds),
    ("view_ref", .dict [(.str "path", .str c.path), (.str "fs", c.fs)])] (by
      show ["base_dir", "filters", "metadata", "view_ref"].Nodup
      decide +kernel)
  simp only [List.map_cons, List.map_nil] at h1 h2
  rw [encodeView, h2, h1, readAs, readAs]

theorem decodeView_read (c : ViewConf) (h : Metadata c.ds) :
    decodeView (readAs (encodeView c)) =
      .ok ⟨c.base, readAs c.filters, readDs c.ds, c.path, readAs c.fs⟩ := by
  rw [readAs_view]
  simp only [decodeView, bind, Except.bind, field_here, ne_eq, String.reduceEq, not_false_eq_true,
    field_next, asStr, decodeDs_read _ h]

/-! ### Values that can be written -/

theorem writableElems_iff (l : List V) : WritableElems l ↔ ∀ v ∈ l, Writable v := by
  induction l with
  | nil => simp [WritableElems]
  | cons a t ih => rw [WritableElems, ih]; simp

theorem writable_pairV (a : String × V) : Writable (pairV a) ↔ Writable a.2 := by
  simp [pairV, Writable, WritableElems]

theorem writable_strs (l : List String) : WritableElems (l.map V.str) := by
  rw [writableElems_iff]
  intro v hv
  obtain ⟨s, -, rfl⟩ := List.mem_map.1 hv
  simp [Writable]

theorem writable_pairs (l : List (String × V)) :
    WritableElems (l.map pairV) ↔ ∀ a ∈ l, Writable a.2 := by
  rw [writableElems_iff]
  constructor
  · intro h a ha
    exact (writable_pairV a).1 (h _ (List.mem_map.2 ⟨a, ha, rfl⟩))
  · intro h v hv
    obtain ⟨a, ha, rfl⟩ := List.mem_map.1 hv
    exact (writable_pairV a).2 (h a ha)

theorem mem_sortAttrs {attrs : List Attr} {a : Attr} : a ∈ sortAttrs attrs ↔ a ∈ attrs :=
  (Sort.isort_perm _).mem_iff

theorem mem_sortVars {vars : List Var} {v : Var} : v ∈ sortVars vars ↔ v ∈ vars :=
  (Sort.isort_perm _).mem_iff

theorem writable_var (v : Var) : Writable (encodeVar v) ↔ EachVar Writable v := by
  have h1 : WritableElems ((sortAttrs v.attrs).map pairV) ↔ ∀ a ∈ v.attrs, Writable a.2 := by
    rw [writable_pairs]
    simp only [mem_sortAttrs]
  have h2 := writableElems_iff v.filters
  have h3 := writable_strs v.dims
  constructor
  · intro h
    simp only [encodeVar, Writable, WritablePairs] at h
    exact ⟨h1.1 h.2.1, h.2.2.2.1, h.2.2.2.2.2.2.2.2.2.1, h2.1 h.2.2.2.2.2.2.2.2.2.2.2.1⟩
  · intro h
    simp only [encodeVar, Writable, WritablePairs]
    exact ⟨by simp, h1.2 h.attrs, by simp, h.compressor, by simp, h3, by simp, trivial, by simp,
      h.fill, by simp, h2.2 h.filters, by simp, trivial, trivial⟩

theorem writable_ds (d : Ds) : Writable (encodeDs d) ↔ EachDs Writable d := by
  have h1 : WritableElems ((sortAttrs d.attrs).map pairV) ↔ ∀ a ∈ d.attrs, Writable a.2 := by
    rw [writable_pairs]
    simp only [mem_sortAttrs]
  have h2 : WritableElems (d.chunks.map pairV) ↔ ∀ a ∈ d.chunks, Writable a.2 :=
    writable_pairs d.chunks
  have h3 := writable_strs d.dims
  have h4 : WritableElems ((sortVars d.vars).map encodeVar) ↔ ∀ v ∈ d.vars, EachVar Writable v := by
    rw [writableElems_iff]
    simp [writable_var, mem_sortVars]
  constructor
  · intro h
    simp only [encodeDs, Writable, WritablePairs] at h
    exact ⟨h1.1 h.2.1, h4.1 h.2.2.2.2.2.1, h2.1 h.2.2.2.2.2.2.2.1⟩
  · intro h
    simp only [encodeDs, Writable, WritablePairs]
    exact ⟨by simp, h1.2 h.attrs, by simp, h3, by simp, h4.2 h.vars, by simp, h2.2 h.chunks,
      by simp, trivial, trivial⟩

theorem writable_conf (c : Conf) : Writable (encode c) ↔ EachConf Writable c := by
  have h1 := writable_ds c.ds
  constructor
  · intro h
    simp only [encode, Writable, WritablePairs] at h
    exact ⟨h1.1 h.2.2.2.1, h.2.2.2.2.2.1⟩
  · intro h
    simp only [encode, Writable, WritablePairs]
    exact ⟨by simp, trivial, by simp, h1.2 h.ds, by simp, h.part, trivial⟩

theorem dump_ok {w : Nat} {v : V} (h : Writable v) :
    Json.dump w v = (Json.plain (Json.emit w 0 v), .ok ()) := by
  have hn : none ∉ Json.emit w 0 v := fun hm => (Json.emit_none w v 0).1 hm h
  obtain ⟨q, h1, -, h3⟩ := Json.written_plain (Json.emit w 0 v)
  rw [h3 hn, List.append_nil] at h1
  show (_, if none ∈ Json.emit w 0 v then _ else _) = _
  rw [if_neg hn, h1]

theorem dump_bad {w : Nat} {v : V} (h : ¬ Writable v) :
    (Json.dump w v).2 = .error .typeError ∧
      ∃ q, q ≠ [] ∧ Json.plain (Json.emit w 0 v) = (Json.dump w v).1 ++ q := by
  have hn : none ∈ Json.emit w 0 v := (Json.emit_none w v 0).2 h
  obtain ⟨q, h1, h2, -⟩ := Json.written_plain (Json.emit w 0 v)
  refine ⟨?_, q, h2 hn, h1⟩
  show (if none ∈ Json.emit w 0 v then _ else _) = _
  rw [if_pos hn]

end Verif.Cft
