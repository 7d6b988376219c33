import Verif.Lemmas.Pathname
import Verif.Props.Listing
import Verif.Props.Copy

/-! C75: the texts of the paths of collections, views and copies. -/

namespace Verif

open Spec Path Listing Pn

/-! ### the directory of a collection or of a view -/

/-- C75: on the memory file system, and on a local one that normalises, the path of a collection
leads to the directory that the user named, and to normalise it again, as opening a view does with
the path of its configuration, changes nothing. -/
theorem C75_normalize (fs : Fs) (p : List Char) (h : p.head? = some '/')
    (hfs : fs = memoryFs ∨ (∃ cwd, fs = localFs cwd true) ∧ ¬ TwoSlashes p) :
    ∃ d, LeadsTo p d ∧ LeadsTo (normalizePath fs p) d ∧ (∀ x ∈ d, EntryName x) ∧
      normalizePath fs p = '/' :: joinNames d ∧
      normalizePath fs (normalizePath fs p) = normalizePath fs p := by
  obtain ⟨d, hd⟩ := leads_exists p h
  have hent := leads_entry hd
  have hself := leads_self d hent
  have h2 : ¬ TwoSlashes ('/' :: joinNames d) := by
    rintro ⟨t, ht, _⟩
    exact joinNames_head d hent t (List.cons.inj ht).2
  have key : normalizePath fs p = '/' :: joinNames d ∧
      normalizePath fs ('/' :: joinNames d) = '/' :: joinNames d := by
    rcases hfs with rfl | ⟨⟨cwd, rfl⟩, hp⟩
    · exact ⟨normalize_memory p d h hd, normalize_memory _ d rfl hself⟩
    · exact ⟨normalize_local cwd p d h hp hd, normalize_local cwd _ d rfl h2 hself⟩
  refine ⟨d, hd, ?_, hent, key.1, ?_⟩
  · rw [key.1]; exact hself
  · rw [key.1, key.2]

/-- C75: two spellings name the same collection exactly when they lead to the same directory. -/
theorem C75_same (fs : Fs) (p q : List Char) (hp : p.head? = some '/') (hq : q.head? = some '/')
    (hfs : fs = memoryFs ∨ (∃ cwd, fs = localFs cwd true) ∧ ¬ TwoSlashes p ∧ ¬ TwoSlashes q) :
    normalizePath fs p = normalizePath fs q ↔ ∃ d, LeadsTo p d ∧ LeadsTo q d := by
  obtain ⟨d, h1, _, h2, h3, _⟩ := C75_normalize fs p hp (hfs.imp id fun h => ⟨h.1, h.2.1⟩)
  obtain ⟨d', h1', _, h2', h3', _⟩ := C75_normalize fs q hq (hfs.imp id fun h => ⟨h.1, h.2.2⟩)
  rw [h3, h3']
  constructor
  · intro he
    have := joinNames_inj d d' h2 h2' (List.cons.inj he).2
    subst this
    exact ⟨d, h1, h1'⟩
  · rintro ⟨e, he, he'⟩
    rw [leads_unique h1 he, leads_unique h1' he']

example : normalizePath memoryFs "//a/./b/../c//".toList = "/a/c".toList ∧
    normalizePath (localFs "/home".toList true) "/a/./b/../c/".toList = "/a/c".toList ∧
    normalizePath (localFs "/home".toList true) "x/y".toList = "/home/x/y".toList ∧
    normalizePath memoryFs [] = "/".toList := by decide +kernel

/-- C75, finding: `fs.protocol in ('file', 'memory')` is false for the versions of fsspec in which
the protocol of the local file system is a tuple of names; two spellings of a directory are then
two different paths. -/
theorem C75_spelling_counterexample :
    (∃ d, LeadsTo "/data/./x".toList d ∧ LeadsTo "/data/x".toList d) ∧
    normalizePath (localFs "/home".toList false) "/data/./x".toList ≠
      normalizePath (localFs "/home".toList false) "/data/x".toList := by
  refine ⟨⟨["data".toList, "x".toList], ?_, ?_⟩, by decide +kernel⟩
  · have h1 := LeadsTo.step [] [] "data".toList .root (by decide)
    have h2 := LeadsTo.step _ _ ".".toList h1 (by decide)
    exact LeadsTo.step _ _ "x".toList h2 (by decide)
  · have h1 := LeadsTo.step [] [] "data".toList .root (by decide)
    exact LeadsTo.step _ _ "x".toList h1 (by decide)

/-! ### the partitions of a view -/

/-- A collection as `insert` leaves it, in a directory below the root, that can be listed and
filtered (C16, C20). -/
structure Spec.Deployed (fmt : Int → List Char) (k : String) (ks : List String) (c : Coll) : Prop where
  format : fmt = fmtInt ∨ fmt = fmt02
  keys : c.keys = k :: ks
  layout : RootLayout fmt k ks c.root
  visible : ∀ t, k.toList ≠ '.' :: t
  names : ∀ x ∈ k :: ks, '=' ∉ x.toList ∧ '/' ∉ x.toList
  below : BelowRoot c.dir
  parsed : ¬ (k.toList ++ ['=']) <:+: c.dir ++ ['/']
  filtered : ∀ kvs, Stored fmt (k :: ks) c.root kvs → ¬ c.dir <:+: '/' :: joinWith fmt ['/'] kvs
  immutable : c.immutable = none ∨ c.immutable = some (c.dir ++ "/.immutable".toList)

/-- What the filter answers for the stored partitions. -/
def Spec.Answers (fmt : Int → List Char) (c : Coll) (expr : Option (List (String × Int) → Py Bool))
    (keep : List (String × Int) → Bool) : Prop :=
  match expr with
  | none => ∀ kvs, keep kvs = true
  | some f => ∀ kvs, Stored fmt c.keys c.root kvs → f kvs = .ok (keep kvs)

/-- The keys of the stored partitions, in increasing order. -/
def Spec.KeysOf (fmt : Int → List Char) (c : Coll) (kl : List (List (String × Int))) : Prop :=
  (∀ kvs, kvs ∈ kl ↔ Stored fmt c.keys c.root kvs) ∧ kl.Pairwise fun a b => values a < values b

theorem joinWith_names (fmt : Int → List Char) (kvs : List (String × Int)) :
    joinWith fmt ['/'] kvs = joinNames (kvs.map fun kv => dirName fmt kv.1 kv.2) := by
  induction kvs with
  | nil => rfl
  | cons kv t ih =>
    cases t with
    | nil => rfl
    | cons kv' t =>
      simp only [joinWith, List.map_cons, joinNames] at ih ⊢
      rw [ih]
      simp [dirName]

theorem fmt_slash {fmt : Int → List Char} (h : fmt = fmtInt ∨ fmt = fmt02) (v : Int) :
    '/' ∉ fmt v := by
  intro hm
  rcases h with rfl | rfl
  · rcases fmtInt_mem hm with h | h <;> revert h <;> decide
  · rcases fmt02_mem hm with h | h <;> revert h <;> decide

theorem entry_dirName {fmt : Int → List Char} (h : fmt = fmtInt ∨ fmt = fmt02) (k : String) (v : Int)
    (hk : '/' ∉ k.toList) : EntryName (dirName fmt k v) := by
  have he : '=' ∈ dirName fmt k v := by simp [dirName]
  refine ⟨?_, ?_, ?_, ?_⟩
  · unfold dirName
    simp only [List.mem_append, List.mem_cons, not_or]
    exact ⟨hk, by decide, fmt_slash h v⟩
  all_goals
    intro h0
    rw [h0] at he
    revert he
    decide

theorem entry_names {fmt : Int → List Char} {k : String} {ks : List String} {c : Coll}
    (hp : Deployed fmt k ks c) {kvs : List (String × Int)} (hn : kvs.map (·.1) = k :: ks) :
    (kvs.map fun kv => dirName fmt kv.1 kv.2) ≠ [] ∧
      ∀ x ∈ kvs.map fun kv => dirName fmt kv.1 kv.2, EntryName x := by
  constructor
  · intro h0
    rw [List.map_eq_nil_iff] at h0
    subst h0
    simp at hn
  · intro x hx
    obtain ⟨kv, hkv, rfl⟩ := List.mem_map.1 hx
    refine entry_dirName hp.format _ _ ((hp.names kv.1 ?_).2)
    rw [← hn]
    exact List.mem_map_of_mem hkv

theorem relative_path {fmt : Int → List Char} {k : String} {ks : List String} {c : Coll}
    (hp : Deployed fmt k ks c) {kvs : List (String × Int)} (hn : kvs.map (·.1) = k :: ks)
    (base : List Char) (hb : BelowRoot base) :
    relativeTo (partitionPath fmt base kvs) base = .ok (joinWith fmt ['/'] kvs) := by
  obtain ⟨h1, h2⟩ := entry_names hp hn
  unfold partitionPath
  rw [joinWith_names]
  exact relative_below base _ hb h1 h2

theorem join_path (fmt : Int → List Char) (base : List Char) (kvs : List (String × Int)) :
    joinNames [base, joinWith fmt ['/'] kvs] = partitionPath fmt base kvs := rfl

theorem listed_below {base : List Char} (h : BelowRoot base) : listed base = base := by
  unfold listed
  rw [if_neg]
  rintro rfl
  obtain ⟨x, hx, hne⟩ := h
  simp at hx
  exact hne hx

/-- C75: `partitions` lists the stored partitions that the filter keeps, in increasing order, and
`partitions(relative=True)` the same ones in the same order, without the directory of the
collection: the directory joined with the relative path is the path. -/
theorem C75_relative (fmt : Int → List Char) (k : String) (ks : List String) (c : Coll)
    (hp : Deployed fmt k ks c) (expr : Option (List (String × Int) → Py Bool))
    (keep : List (String × Int) → Bool) (he : Answers fmt c expr keep) :
    ∃ kl, KeysOf fmt c kl ∧
      c.partitions expr = .ok ((kl.filter keep).map (partitionPath fmt c.dir)) ∧
      c.relative expr = .ok ((kl.filter keep).map (joinWith fmt ['/'])) ∧
      ∀ kvs, joinNames [c.dir, joinWith fmt ['/'] kvs] = partitionPath fmt c.dir kvs := by
  have hne : c.dir ≠ [] := by
    intro h0
    obtain ⟨x, hx, _⟩ := hp.below
    rw [h0] at hx
    simp at hx
  have hl := listed_below hp.below
  have main : ∃ kl, KeysOf fmt c kl ∧
      c.partitions expr = .ok ((kl.filter keep).map (partitionPath fmt c.dir)) := by
    cases expr with
    | none =>
      obtain ⟨kl, h1, h2, h3, _, h5⟩ := C20_selection_partial fmt hp.format k ks c.dir c.root hp.layout
        hp.visible (fun x hx => (hp.names x hx).1) hp.parsed hne hp.filtered c.immutable
        hp.immutable (fun _ => .ok true) (fun _ => true) (fun _ _ => rfl)
      refine ⟨kl, ⟨by rw [hp.keys]; exact h2, h3⟩, ?_⟩
      have hf : kl.filter keep = kl := List.filter_eq_self.2 fun x _ => he x
      rw [hf, ← h5]
      simp only [Coll.partitions, hl, hp.keys, partitions]
    | some f =>
      obtain ⟨kl, h1, h2, h3, h4, _⟩ := C20_selection_partial fmt hp.format k ks c.dir c.root hp.layout
        hp.visible (fun x hx => (hp.names x hx).1) hp.parsed hne hp.filtered c.immutable
        hp.immutable f keep (by intro kvs hs; rw [← hp.keys] at hs; exact he kvs hs)
      refine ⟨kl, ⟨by rw [hp.keys]; exact h2, h3⟩, ?_⟩
      have e : (kl.filter keep).map (partitionPath fmt c.dir) = Selected fmt c.dir kl keep := rfl
      rw [e, ← h4]
      simp only [Coll.partitions, hl, hp.keys, partitions]
  obtain ⟨kl, h1, h2⟩ := main
  refine ⟨kl, h1, h2, ?_, fun kvs => rfl⟩
  simp only [Coll.relative, h2, bind, Except.bind]
  have hm : ∀ l : List (List (String × Int)), (∀ kvs ∈ l, kvs.map (·.1) = k :: ks) →
      Ds.mapPy (fun p => relativeTo p c.dir) (l.map (partitionPath fmt c.dir)) =
        .ok (l.map (joinWith fmt ['/'])) := by
    intro l hl
    induction l with
    | nil => rfl
    | cons x t ih =>
      simp only [List.map_cons, Ds.mapPy, bind, Except.bind,
        relative_path hp (hl x (by simp)) c.dir hp.below, ih fun y hy => hl y (by simp [hy])]
  refine hm _ fun kvs hk => ?_
  have := (h1.1 kvs).1 (List.mem_filter.1 hk).1
  rw [hp.keys] at this
  exact Stored_names this

/-- C75: each partition of the view has the keys of the partition of the reference that its values
belong to: the partitions of the view are those of the reference that exist below its directory,
in the same order; the checksum of each is computed from the partition with the same keys. -/
theorem C75_view (fmt : Int → List Char) (k : String) (ks : List String) (c : Coll)
    (hp : Deployed fmt k ks c) (base : List Char) (hb : BelowRoot base)
    (found : List Char → Bool) (expr : Option (List (String × Int) → Py Bool))
    (keep : List (String × Int) → Bool) (he : Answers fmt c expr keep) :
    ∃ kl, KeysOf fmt c kl ∧
      viewPartitions c base found expr =
        .ok (((kl.filter keep).map (partitionPath fmt base)).filter found) ∧
      initArguments c base found expr =
        .ok ((((kl.filter keep).filter fun kvs => !found (partitionPath fmt base kvs)).map fun kvs =>
          (partitionPath fmt base kvs, partitionPath fmt c.dir kvs))) ∧
      ∀ kvs ∈ kl, referenceOf c base (partitionPath fmt base kvs) =
        .ok (partitionPath fmt c.dir kvs) := by
  obtain ⟨kl, h1, _, h3, _⟩ := C75_relative fmt k ks c hp expr keep he
  have href : ∀ kvs ∈ kl, referenceOf c base (partitionPath fmt base kvs) =
      .ok (partitionPath fmt c.dir kvs) := by
    intro kvs hk
    have := (h1.1 kvs).1 hk
    rw [hp.keys] at this
    simp only [referenceOf, bind, Except.bind, relative_path hp (Stored_names this) base hb,
      join_path]
  have hmap : (((kl.filter keep).map (joinWith fmt ['/'])).map fun r => joinNames [base, r]) =
      (kl.filter keep).map (partitionPath fmt base) := by
    rw [List.map_map]
    rfl
  refine ⟨kl, h1, ?_, ?_, href⟩
  · simp only [viewPartitions, bind, Except.bind, h3, hmap]
  · simp only [initArguments, bind, Except.bind, h3, hmap]
    have hm : ∀ l : List (List (String × Int)), (∀ kvs ∈ l, kvs ∈ kl) →
        Ds.mapPy (checksumTask c base)
          ((l.map (partitionPath fmt base)).filter fun p => !found p) =
        .ok ((l.filter fun kvs => !found (partitionPath fmt base kvs)).map fun kvs =>
          (partitionPath fmt base kvs, partitionPath fmt c.dir kvs)) := by
      intro l hl
      induction l with
      | nil => rfl
      | cons x t ih =>
        have iht := ih fun y hy => hl y (by simp [hy])
        simp only [List.map_cons, List.filter_cons]
        cases hx : found (partitionPath fmt base x) with
        | true => simpa using iht
        | false =>
          simp only [Bool.not_false, if_true, Ds.mapPy, bind, Except.bind, checksumTask,
            href x (hl x (by simp)), iht, List.map_cons]
    exact hm _ fun kvs hk => (List.mem_filter.1 hk).1

/-- The full statement: wherever a view is stored below the root, its load takes the selected
partitions of the reference that the view has, by their keys. -/
def C75_full : Prop :=
  ∀ (fmt : Int → List Char) (k : String) (ks : List String) (c : Coll), Deployed fmt k ks c →
  ∀ (base : List Char), BelowRoot base → ∀ (found : List Char → Bool)
    (expr : Option (List (String × Int) → Py Bool)) (keep : List (String × Int) → Bool),
    Answers fmt c expr keep → ∃ kl, KeysOf fmt c kl ∧
      loadKeys c base found expr =
        .ok ((kl.filter keep).filter fun kvs => found (partitionPath fmt base kvs))

/-- C75: the keys of the partitions that the load of a view reads are those of the selected
partitions of the reference that the view has.  Missing for C75: views below a directory in which
the text `key=` of the first key occurs, see `C75_refused`. -/
theorem C75_load_partial (fmt : Int → List Char) (k : String) (ks : List String) (c : Coll)
    (hp : Deployed fmt k ks c) (base : List Char) (hb : BelowRoot base)
    (hbase : ¬ (k.toList ++ ['=']) <:+: base ++ ['/'])
    (found : List Char → Bool) (expr : Option (List (String × Int) → Py Bool))
    (keep : List (String × Int) → Bool) (he : Answers fmt c expr keep) :
    ∃ kl, KeysOf fmt c kl ∧
      loadKeys c base found expr =
        .ok ((kl.filter keep).filter fun kvs => found (partitionPath fmt base kvs)) := by
  obtain ⟨kl, h1, h2, _, _⟩ := C75_view fmt k ks c hp base hb found expr keep he
  refine ⟨kl, h1, ?_⟩
  have hf : GoodFmt fmt := by
    rcases hp.format with h | h
    · rw [h]; exact goodFmt_int
    · rw [h]; exact goodFmt_02
  simp only [loadKeys, bind, Except.bind, h2]
  have hm : ∀ l : List (List (String × Int)), (∀ kvs ∈ l, kvs ∈ kl) →
      Ds.mapPy (parse c.keys) ((l.map (partitionPath fmt base)).filter found) =
        .ok (l.filter fun kvs => found (partitionPath fmt base kvs)) := by
    intro l hl
    induction l with
    | nil => rfl
    | cons x t ih =>
      have iht := ih fun y hy => hl y (by simp [hy])
      simp only [List.map_cons, List.filter_cons]
      cases hx : found (partitionPath fmt base x) with
      | false => simpa using iht
      | true =>
        have hs := (h1.1 x).1 (hl x (by simp))
        rw [hp.keys] at hs
        have := parse_partitionPath fmt hf base k ks x (Stored_names hs)
          (fun x hx => (hp.names x hx).1) hbase
        rw [← hp.keys] at this
        simp only [if_true, Ds.mapPy, bind, Except.bind, this, iht]
  exact hm _ fun kvs hk => (List.mem_filter.1 hk).1

/-- C75: in the excluded case the load of a view that has a selected partition raises, although
the view can be created, synchronised and listed (`C75_view`). -/
theorem C75_refused (fmt : Int → List Char) (k : String) (ks : List String) (c : Coll)
    (hp : Deployed fmt k ks c) (base : List Char) (hb : BelowRoot base)
    (hbase : (k.toList ++ ['=']) <:+: base ++ ['/']) (hn : '\n' ∉ base) (hnk : '\n' ∉ k.toList)
    (found : List Char → Bool) (expr : Option (List (String × Int) → Py Bool))
    (keep : List (String × Int) → Bool) (he : Answers fmt c expr keep)
    (kvs : List (String × Int)) (hs : Stored fmt c.keys c.root kvs) (hk : keep kvs = true)
    (hfound : found (partitionPath fmt base kvs) = true) :
    loadKeys c base found expr = .error .valueError := by
  obtain ⟨kl, h1, h2, _, _⟩ := C75_view fmt k ks c hp base hb found expr keep he
  have hf : GoodFmt fmt := by
    rcases hp.format with h | h
    · rw [h]; exact goodFmt_int
    · rw [h]; exact goodFmt_02
  simp only [loadKeys, bind, Except.bind, h2]
  have hall : ∀ x ∈ kl, parse c.keys (partitionPath fmt base x) = .error .valueError := by
    intro x hx
    have hs := (h1.1 x).1 hx
    rw [hp.keys] at hs ⊢
    have hnames := Stored_names hs
    cases x with
    | nil => simp at hnames
    | cons kv t =>
      have e1 : kv.1 = k := by simpa using congrArg List.head? hnames
      have := parse_swallow fmt hf (base ++ ['/']) (by
        simp only [List.mem_append, List.mem_singleton, not_or]
        exact ⟨hn, by decide⟩) kv t (by rw [e1]; exact hnk) (by rw [e1]; exact hbase) (by
        intro y hy
        refine (hp.names y.1 ?_).1
        rw [← hnames]
        exact List.mem_map_of_mem hy)
      rw [hnames] at this
      simpa [partitionPath] using this
  have hne : ((kl.filter keep).map (partitionPath fmt base)).filter found ≠ [] := by
    intro h0
    have hm : partitionPath fmt base kvs ∈
        ((kl.filter keep).map (partitionPath fmt base)).filter found :=
      List.mem_filter.2 ⟨List.mem_map_of_mem (List.mem_filter.2 ⟨(h1.1 kvs).2 hs, hk⟩), hfound⟩
    rw [h0] at hm
    cases hm
  have hsub : ∀ p ∈ ((kl.filter keep).map (partitionPath fmt base)).filter found,
      parse c.keys p = .error .valueError := by
    intro p hm
    obtain ⟨x, hx, rfl⟩ := List.mem_map.1 (List.mem_filter.1 hm).1
    exact hall x (List.mem_filter.1 hx).1
  revert hne hsub
  generalize ((kl.filter keep).map (partitionPath fmt base)).filter found = l
  intro hne hsub
  cases l with
  | nil => exact absurd rfl hne
  | cons p t => simp only [Ds.mapPy, bind, Except.bind, hsub p (by simp)]

/-- A collection of two partitions. -/
def Pn.passes : Coll where
  keys := ["cycle", "pass"]
  dir := "/data".toList
  immutable := none
  root := .dir [(".zcollection".toList, .file),
    ("cycle=12".toList, .dir [("pass=2".toList, .dir [])]),
    ("cycle=1".toList, .dir [("pass=2".toList, .dir [])])]

theorem Pn.passes_deployed : Deployed fmtInt "cycle" ["pass"] passes where
  format := .inl rfl
  keys := rfl
  layout := by
    refine ⟨_, rfl, by decide, ?_⟩
    intro e he
    simp only [List.mem_cons, List.not_mem_nil, or_false] at he
    rcases he with rfl | rfl | rfl
    · exact .inr (.inl ⟨_, rfl⟩)
    · refine .inr (.inr ⟨rfl, 12, by decide +kernel, _, rfl, by decide, ?_⟩)
      intro e he
      simp only [List.mem_singleton] at he
      subst he
      exact ⟨2, by decide +kernel, trivial⟩
    · refine .inr (.inr ⟨rfl, 1, by decide +kernel, _, rfl, by decide, ?_⟩)
      intro e he
      simp only [List.mem_singleton] at he
      subst he
      exact ⟨2, by decide +kernel, trivial⟩
  visible := by intro t ht; simp at ht
  names := by decide
  below := ⟨'d', by decide +kernel, by decide⟩
  parsed := by decide +kernel
  filtered := by
    intro kvs hs hin
    have hd : 'd' ∈ '/' :: joinWith fmtInt ['/'] kvs := hin.subset (by decide)
    have hn := Stored_names hs
    rw [joinWith_names] at hd
    match kvs, hn with
    | [a, b], hn =>
      simp only [List.map_cons, List.map_nil, List.cons.injEq, and_true] at hn
      simp only [List.map_cons, List.map_nil, joinNames, dirName, hn.1, hn.2, List.mem_cons,
        List.mem_append] at hd
      have hdig : ∀ v, 'd' ∉ fmtInt v := by
        intro v hm
        rcases fmtInt_mem hm with h | h <;> revert h <;> decide
      simp [hdig] at hd
  immutable := .inl rfl

example : Answers fmtInt passes none (fun _ => true) := fun _ => rfl

example : viewPartitions passes "/view".toList (fun _ => true) none =
      .ok ["/view/cycle=1/pass=2".toList, "/view/cycle=12/pass=2".toList] ∧
    loadKeys passes "/view".toList (fun p => p = "/view/cycle=12/pass=2".toList) none =
      .ok [[("cycle", 12), ("pass", 2)]] ∧
    initArguments passes "/view".toList (fun p => p = "/view/cycle=12/pass=2".toList) none =
      .ok [("/view/cycle=1/pass=2".toList, "/data/cycle=1/pass=2".toList)] := by
  decide +kernel

/-- C75 is violated by the code: a view stored in `/work/cycle=1/view` cannot be loaded. -/
theorem C75_counterexample : ¬ C75_full := by
  intro h
  obtain ⟨kl, _, h2⟩ := h fmtInt "cycle" ["pass"] passes passes_deployed
    "/work/cycle=1/view".toList ⟨'w', by decide, by decide⟩ (fun _ => true) none (fun _ => true)
    (fun _ => rfl)
  have h3 : loadKeys passes "/work/cycle=1/view".toList (fun _ => true) none =
      .error .valueError := by decide +kernel
  rw [h3] at h2
  cases h2

/-! ### the root of a file system -/

/-- C75, finding: the directory of a collection at the root of a file system is the separator,
and removing it from the paths joins the names: a filter that asks for cycle 1 selects
cycle 12, because the last digit is taken for the separator. -/
theorem C75_root_counterexample :
    ({ passes with dir := "/".toList }).partitions
        (some fun kv => .ok (decide (("cycle", 1) ∈ kv))) = .error .valueError ∧
    ({ passes with
        dir := "/".toList
        root := .dir [("cycle=12".toList, .dir [("pass=2".toList, .dir [])])] }).partitions
        (some fun kv => .ok (decide (("cycle", 1) ∈ kv))) = .ok ["/cycle=12/pass=2".toList] := by
  decide +kernel

/-- C75, finding: no view can be created at the root of a file system, when a partition is
selected: its paths start with two slashes, which `relative_to` refuses. -/
theorem C75_root_view (c : Coll) (ns : List (List Char)) (h : ∀ x ∈ ns, EntryName x) :
    referenceOf c "/".toList (joinNames ["/".toList, joinNames ns]) = .error .valueError := by
  have e : joinNames ["/".toList, joinNames ns] = '/' :: '/' :: joinNames ns := rfl
  have hs : slashes ('/' :: '/' :: joinNames ns) = 2 := by
    have := joinNames_head ns h
    cases hj : joinNames ns with
    | nil => rfl
    | cons a s =>
      have ha : a ≠ '/' := by intro h0; exact this s (by rw [hj, h0])
      simp [slashes, ha]
  have hr : relativeTo ('/' :: '/' :: joinNames ns) "/".toList = .error .valueError := by
    unfold relativeTo
    rw [hs]
    rw [if_neg]
    intro h0
    exact absurd h0.1 (by decide)
  simp only [referenceOf, e, hr, bind, Except.bind]

/-! ### copies -/

/-- C75: `copy` files each partition below the target under the path that it has below the
collection, whatever the working directory and the spelling of the directory. -/
theorem C75_copy (fmt : Int → List Char) (k : String) (ks : List String) (c : Coll)
    (hp : Deployed fmt k ks c) (cwd target : List Char) (hc : cwd.head? = some '/')
    (kvs : List (String × Int)) (hs : Stored fmt c.keys c.root kvs) :
    copyPath cwd target c (partitionPath fmt c.dir kvs) = .ok (partitionPath fmt target kvs) := by
  rw [hp.keys] at hs
  obtain ⟨h1, h2⟩ := entry_names hp (Stored_names hs)
  have hne : c.dir ≠ [] := by
    intro h0
    obtain ⟨x, hx, _⟩ := hp.below
    rw [h0] at hx
    simp at hx
  rcases relpath_below cwd c.dir _ hc h1 h2 with h | h
  · have : relpath cwd (partitionPath fmt c.dir kvs) c.dir = .ok (joinWith fmt ['/'] kvs) := by
      unfold partitionPath
      rw [joinWith_names]
      exact h
    simp only [copyPath, this, bind, Except.bind, join_path]
  · exact absurd h hne

example : copyPath "/home".toList "/copy".toList passes "/data/cycle=1/pass=2".toList =
    .ok "/copy/cycle=1/pass=2".toList := by decide +kernel

/-- C46, finding: without `filesystem`, `copy` takes the target for the name of a protocol:
whatever the collection, it raises `ValueError` unless fsspec knows a protocol of that name.  (It
is documented to use the file system of the collection.) -/
theorem C46_no_filesystem {F : Type} (known : String → Option F) (target : String)
    (ht : target ≠ "") (h : known target = none) :
    copyFs known target none = .error .valueError ∧
    ∀ fs, copyFs known target (some fs) = .ok fs := by
  constructor
  · simp only [copyFs, getFs, if_neg ht, h]
  · intro fs; rfl

example : copyFs (fun n => if n = "file" then some 0 else if n = "memory" then some 1 else none)
    "my_new_collection" none = .error .valueError := by decide +kernel

end Verif
