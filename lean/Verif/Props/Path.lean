import Verif.Lemmas.Path

/-! C14: the path of a partition gives back its keys (`Sequence`). -/

namespace Verif

open Path

/-- C14, full statement: whatever the directory of the collection, parsing the path of a
partition gives the keys back. -/
def C14_full : Prop :=
  ∀ (base : List Char) (kvs : List (String × Int)), kvs ≠ [] →
    (∀ kv ∈ kvs, '=' ∉ kv.1.toList) →
    parse (kvs.map (·.1)) (base ++ '/' :: join kvs) = .ok kvs

/-- C14: parsing the path of a partition, after any directory in which the text `key=` of
the first key does not occur, gives the keys back (all names of keys without equal sign, all
integers).  Missing for C14: directories in which this text occurs, see `C14_refused`. -/
theorem C14_parse_partial (base : List Char) (kv : String × Int) (t : List (String × Int))
    (hb : ¬ (kv.1.toList ++ ['=']) <:+: base) (hk : ∀ x ∈ kv :: t, '=' ∉ x.1.toList) :
    parse ((kv :: t).map (·.1)) (base ++ join (kv :: t)) = .ok (kv :: t) :=
  parse_join fmtInt goodFmt_int base kv t hb hk

/-- C14: in the excluded case every partition is refused with `ValueError` (paths without
newline). -/
theorem C14_refused (base : List Char) (kv : String × Int) (t : List (String × Int))
    (hb : (kv.1.toList ++ ['=']) <:+: base) (hk : ∀ x ∈ kv :: t, '=' ∉ x.1.toList)
    (hn : '\n' ∉ base) (hnk : '\n' ∉ kv.1.toList) :
    parse ((kv :: t).map (·.1)) (base ++ join (kv :: t)) = .error .valueError :=
  parse_swallow fmtInt goodFmt_int base hn kv t hnk hb hk

/-- C14 is violated by the code: a collection stored in a directory whose path contains
`key=` cannot be parsed. -/
theorem C14_counterexample : ¬ C14_full := by
  intro h
  have h1 := h "/cycle=1".toList [("cycle", 5)] (by simp) (by decide)
  have h2 := C14_refused "/cycle=1/".toList ("cycle", 5) [] (by decide +kernel)
    (by decide) (by decide) (by decide)
  have e : "/cycle=1".toList ++ '/' :: join [("cycle", 5)] =
    "/cycle=1/".toList ++ join [("cycle", 5)] := by decide +kernel
  rw [e] at h1
  rw [h1] at h2
  simp at h2

/-- C14: two different keys never share a path. -/
theorem C14_injective (kvs kvs' : List (String × Int)) (hk : ∀ x ∈ kvs, '=' ∉ x.1.toList)
    (hnames : kvs.map (·.1) = kvs'.map (·.1)) (h : join kvs = join kvs') : kvs = kvs' := by
  cases kvs with
  | nil =>
    cases kvs' with
    | nil => rfl
    | cons _ _ => simp at hnames
  | cons kv t =>
    cases kvs' with
    | nil => simp at hnames
    | cons kv' t' =>
      have hk' : ∀ x ∈ kv' :: t', '=' ∉ x.1.toList := by
        intro x hx
        have h1 : x.1 ∈ (kv' :: t').map (·.1) := List.mem_map_of_mem hx
        rw [← hnames] at h1
        obtain ⟨y, hy, he⟩ := List.mem_map.1 h1
        rw [← he]
        exact hk y hy
      have h1 := C14_parse_partial [] kv t (by simp) hk
      have h2 := C14_parse_partial [] kv' t' (by simp) hk'
      rw [← hnames, ← h, h1] at h2
      exact Except.ok.inj h2

/-- C14: `encode` gives the values of the keys and `decode` is its inverse. -/
theorem C14_encode_decode (kvs : List (String × Int)) (hne : kvs ≠ [])
    (hk : ∀ x ∈ kvs, '=' ∉ x.1.toList) :
    seqEncode (kvs.map (·.1)) kvs = .ok (kvs.map (·.2)) ∧
      seqDecode (kvs.map (·.1)) (kvs.map (·.2)) = kvs := by
  cases kvs with
  | nil => exact absurd rfl hne
  | cons kv t =>
    constructor
    · have h := C14_parse_partial [] kv t (by simp) hk
      rw [List.nil_append] at h
      unfold seqEncode
      rw [h]
      rfl
    · unfold seqDecode
      generalize kv :: t = l
      induction l with
      | nil => rfl
      | cons a l ih => simp [ih]

/-- C14: the directory names used for writing a partition form the path that is parsed. -/
theorem C14_partition_names (kvs : List (String × Int)) :
    joinNames (seqPartition kvs) = join kvs := by
  induction kvs with
  | nil => rfl
  | cons kv t ih =>
    cases t with
    | nil => rfl
    | cons kv' t =>
      simp only [seqPartition, List.map_cons, joinNames, join, joinWith] at ih ⊢
      rw [ih]
      simp

example : parse ["cycle", "pass"] "/data/base/cycle=-12/pass=7".toList =
    .ok [("cycle", -12), ("pass", 7)] := by decide +kernel

example : ¬ ("cycle".toList ++ ['=']) <:+: "/data/base/".toList := by decide +kernel

/-- A match holds one value per key, in order, and the text holds the name of every key. -/
theorem matchAt_names (ks : List String) (s : List Char) (r : List (String × List Char))
    (h : Path.matchAt ks s = some r) :
    r.map (·.1) = ks ∧ ∀ k ∈ ks, (k.toList ++ ['=']) <:+: s := by
  induction ks generalizing s r with
  | nil =>
    simp only [Path.matchAt] at h
    cases h
    simp
  | cons k ks ih =>
    simp only [Path.matchAt] at h
    split at h
    · simp at h
    · next rest hrest =>
      rw [Path.strip_iff] at hrest
      subst hrest
      have h0 : (k.toList ++ ['=']) <:+: k.toList ++ ['='] ++ rest :=
        ⟨[], rest, by simp⟩
      cases ks with
      | nil =>
        cases h
        refine ⟨rfl, ?_⟩
        intro k' hk
        rw [List.mem_singleton.1 hk]
        exact h0
      | cons k' ks =>
        simp only [Option.map_eq_some_iff] at h
        obtain ⟨x, hx, rfl⟩ := h
        obtain ⟨m, _, hm⟩ := Path.tryLengths_some hx
        unfold Path.attempt at hm
        split at hm
        · simp at hm
        · next c t hct =>
          split at hm
          · simp at hm
          · rw [Option.map_eq_some_iff] at hm
            obtain ⟨y, hy, rfl⟩ := hm
            obtain ⟨h1, h2⟩ := ih t y hy
            refine ⟨by simp [h1], ?_⟩
            intro q hq
            rcases List.mem_cons.1 hq with rfl | hq
            · exact h0
            · refine (h2 q hq).trans ?_
              refine List.IsSuffix.isInfix ?_
              refine (List.suffix_cons c t).trans ?_
              rw [← hct]
              exact (List.drop_suffix m rest).trans (List.suffix_append _ _)

/-- C14: what `encode` accepts names every key of the partitioning, and the result has one value
per key: a partition of another partitioning is refused. -/
theorem C14_encode_names (keys : List String) (p : List (String × Int)) (r : List Int)
    (h : seqEncode keys p = .ok r) :
    r.length = keys.length ∧ ∀ k ∈ keys, (k.toList ++ ['=']) <:+: Path.join p := by
  have hs : ∀ s g, Path.search keys s = some g →
      g.map (·.1) = keys ∧ ∀ k ∈ keys, (k.toList ++ ['=']) <:+: s := by
    intro s
    induction s with
    | nil => exact fun g hg => matchAt_names _ _ _ hg
    | cons c s ih =>
      intro g hg
      simp only [Path.search] at hg
      split at hg
      · next hm =>
        cases hg
        exact matchAt_names _ _ _ hm
      · obtain ⟨h1, h2⟩ := ih g hg
        exact ⟨h1, fun k hk => (h2 k hk).trans (List.suffix_cons c s).isInfix⟩
  have hc : ∀ (g : List (String × List Char)) kvs, Path.convert g = .ok kvs →
      kvs.length = g.length := by
    intro g
    induction g with
    | nil => intro kvs h; cases h; rfl
    | cons a t ih =>
      intro kvs h
      simp only [Path.convert, bind, Except.bind] at h
      split at h
      · cases h
      · split at h
        · cases h
        · next hr =>
          cases h
          simp [ih _ hr]
  simp only [seqEncode, Path.parse, bind, Except.bind] at h
  split at h
  · cases h
  · next kvs hp =>
    cases h
    split at hp
    · cases hp
    · next g hg =>
      obtain ⟨h1, h2⟩ := hs _ g hg
      refine ⟨?_, h2⟩
      rw [List.length_map, hc g kvs hp, ← h1, List.length_map]

example : seqEncode ["a", "b"] [("a", 1), ("b", -2)] = .ok [1, -2] ∧
    seqEncode ["a", "b"] [("a", 1), ("c", -2)] = .error .valueError := by decide +kernel

end Verif
