import Verif.Lemmas.Listing
import Verif.Lemmas.Expression

/-! C16: listing of partitions; C20: filters. -/

namespace Verif

open Spec Listing Path

/-! ### C16 -/

/-- C16: the listing gives each stored partition once, sorted by the numeric values of the
keys, and nothing else.  The files and the hidden directories of the root are ignored.  The
handler has one data type per key, and the text `key=` of the first key does not occur in
the path of the collection (otherwise see `C16_refused`). -/
theorem C16_listing (fmt : Int → List Char) (hfmt : fmt = fmtInt ∨ fmt = fmt02) (k : String)
    (ks : List String) (base : List Char) (root : Node) (hroot : RootLayout fmt k ks root)
    (hdot : ∀ t, k.toList ≠ '.' :: t) (hk : ∀ x ∈ k :: ks, '=' ∉ x.toList)
    (hb : ¬ (k.toList ++ ['=']) <:+: base ++ ['/']) :
    ∃ kl : List (List (String × Int)),
      sortedPartitions (k :: ks) (k :: ks).length base root =
        .ok (kl.map (partitionPath fmt base)) ∧
      (∀ kvs, kvs ∈ kl ↔ Stored fmt (k :: ks) root kvs) ∧
      kl.Pairwise (fun a b => values a < values b) := by
  have hf : GoodFmt fmt := by
    rcases hfmt with rfl | rfl
    · exact goodFmt_int
    · exact goodFmt_02
  exact sortedPartitions_spec fmt hf k ks base root hroot hdot hk hb

/-- C16: the listing depends on the stored partitions only, not on the order in which the
file system lists them, nor on the other content of the directory. -/
theorem C16_order_irrelevant (fmt : Int → List Char) (hfmt : fmt = fmtInt ∨ fmt = fmt02)
    (k : String) (ks : List String) (base : List Char) (root root' : Node)
    (hroot : RootLayout fmt k ks root) (hroot' : RootLayout fmt k ks root')
    (hsame : ∀ kvs, Stored fmt (k :: ks) root kvs ↔ Stored fmt (k :: ks) root' kvs)
    (hdot : ∀ t, k.toList ≠ '.' :: t) (hk : ∀ x ∈ k :: ks, '=' ∉ x.toList)
    (hb : ¬ (k.toList ++ ['=']) <:+: base ++ ['/']) :
    sortedPartitions (k :: ks) (k :: ks).length base root =
      sortedPartitions (k :: ks) (k :: ks).length base root' := by
  obtain ⟨kl, h1, h2, h3⟩ := C16_listing fmt hfmt k ks base root hroot hdot hk hb
  obtain ⟨kl', h1', h2', h3'⟩ := C16_listing fmt hfmt k ks base root' hroot' hdot hk hb
  rw [h1, h1', unique_of_pairwise_lt h3 h3' fun x => by rw [h2, h2', hsame]]

/-- C16: no hidden directory is listed, whatever the tree. -/
theorem C16_no_hidden (len : Nat) (path : List Char) (entries : List (List Char × Node))
    (p : List Char) (h : p ∈ listPartitions len path (.dir entries)) :
    ∃ e ∈ entries, e.2.isDir = true ∧ (∀ t, e.1 ≠ '.' :: t) ∧ child path e.1 <+: p := by
  have hdeep : ∀ d path n q, q ∈ deep d path n → path <+: q := by
    intro d
    induction d with
    | zero =>
      intro path n q hq
      cases n with
      | file => simp [deep, ls] at hq; simp [hq]
      | dir es =>
        simp only [deep, ls, List.map_map, List.mem_map] at hq
        obtain ⟨e, _, rfl⟩ := hq
        exact ⟨_, rfl⟩
    | succ d ih =>
      intro path n q hq
      simp only [deep, List.mem_flatMap] at hq
      obtain ⟨c, hc, hq⟩ := hq
      have h2 := ih _ _ _ hq
      cases n with
      | file =>
        simp only [ls, List.mem_singleton] at hc
        rw [hc] at h2
        exact h2
      | dir es =>
        simp only [ls, List.mem_map] at hc
        obtain ⟨e, _, rfl⟩ := hc
        exact List.IsPrefix.trans ⟨_, rfl⟩ h2
  have hfold : ∀ c ∈ folders path (.dir entries), ∃ e ∈ entries, e.2.isDir = true ∧
      (∀ t, e.1 ≠ '.' :: t) ∧ child path e.1 = c.1 := by
    intro c hc
    simp only [folders, List.mem_map, List.mem_filter, Bool.and_eq_true] at hc
    obtain ⟨e, ⟨he, hd, hh⟩, rfl⟩ := hc
    refine ⟨e, he, hd, ?_, rfl⟩
    intro t ht
    simp [ht] at hh
  match len, h with
  | 0, h => simp [listPartitions] at h
  | 1, h =>
    simp only [listPartitions, List.mem_map] at h
    obtain ⟨c, hc, rfl⟩ := h
    obtain ⟨e, h1, h2, h3, h4⟩ := hfold c hc
    exact ⟨e, h1, h2, h3, by rw [h4]; exact List.prefix_rfl⟩
  | d + 2, h =>
    simp only [listPartitions, List.mem_flatMap] at h
    obtain ⟨c, hc, h⟩ := h
    obtain ⟨e, h1, h2, h3, h4⟩ := hfold c hc
    exact ⟨e, h1, h2, h3, by rw [h4]; exact hdeep _ _ _ _ h⟩

/-- C16, excluded case: when the path of the collection contains the text `key=` of the first
key, listing a collection with at least one partition raises `ValueError`. -/
theorem C16_refused (fmt : Int → List Char) (hfmt : fmt = fmtInt ∨ fmt = fmt02) (k : String)
    (ks : List String) (base : List Char) (root : Node) (hroot : RootLayout fmt k ks root)
    (hdot : ∀ t, k.toList ≠ '.' :: t) (hk : ∀ x ∈ k :: ks, '=' ∉ x.toList)
    (hb : (k.toList ++ ['=']) <:+: base ++ ['/']) (hn : '\n' ∉ base) (hnk : '\n' ∉ k.toList)
    (kvs : List (String × Int)) (hs : Stored fmt (k :: ks) root kvs) :
    sortedPartitions (k :: ks) (k :: ks).length base root = .error .valueError := by
  have hf : GoodFmt fmt := by
    rcases hfmt with rfl | rfl
    · exact goodFmt_int
    · exact goodFmt_02
  obtain ⟨kl, h1, _, h3⟩ := listPartitions_spec fmt hf k ks base root hroot hdot
  have hp : ∀ x ∈ kl, parse (k :: ks) (partitionPath fmt base x) = .error .valueError := by
    intro x hx
    have hnames := Stored_names ((h3 x).1 hx)
    cases x with
    | nil => simp at hnames
    | cons kv t =>
      have e1 : kv.1 = k := by simpa using congrArg List.head? hnames
      have := parse_swallow fmt hf (base ++ ['/']) (by simp [hn]) kv t (by rw [e1]; exact hnk)
        (by rw [e1]; exact hb) (by
          intro y hy
          apply hk
          rw [← hnames]
          exact List.mem_map_of_mem hy)
      rw [hnames] at this
      rw [← this]
      simp [partitionPath]
  unfold sortedPartitions
  rw [h1]
  cases kl with
  | nil => simp [← h3] at hs
  | cons a t => simp [keyed, hp a List.mem_cons_self, bind, Except.bind]

/-- C16, excluded case: the constructor accepts fewer data types than variables; the listing
of such a handler (here two keys, one data type) stops at the wrong depth and raises. -/
theorem C16_short_dtype_counterexample :
    let root : Node := .dir [("cycle=1".toList, .dir [("pass=2".toList, .dir [])])]
    Stored fmtInt ["cycle", "pass"] root [("cycle", 1), ("pass", 2)] ∧
      sortedPartitions ["cycle", "pass"] 1 "/data".toList root = .error .valueError := by
  refine ⟨⟨_, 1, _, _, rfl, List.mem_cons_self, rfl, _, 2, _, _, rfl, List.mem_cons_self, rfl,
    rfl⟩, by decide +kernel⟩

/-- Two partitions whose numeric order differs from the order of their names. -/
def c16Root : Node := .dir [(".zcollection".toList, .file), (".immutable".toList, .dir []),
  ("cycle=10".toList, .dir [("pass=2".toList, .dir []), ("pass=-1".toList, .dir [])]),
  ("cycle=2".toList, .dir [("pass=30".toList, .dir [])])]

example : sortedPartitions ["cycle", "pass"] 2 "/data".toList c16Root =
    .ok ["/data/cycle=2/pass=30".toList, "/data/cycle=10/pass=-1".toList,
      "/data/cycle=10/pass=2".toList] := by decide +kernel

example : RootLayout fmtInt "cycle" ["pass"] c16Root := by
  refine ⟨_, rfl, by decide, ?_⟩
  intro e he
  simp only [List.mem_cons, List.not_mem_nil, or_false] at he
  rcases he with rfl | rfl | rfl | rfl
  · refine .inl ⟨rfl, ?_⟩
    intro v h
    have := congrArg List.head? h
    simp [dirName] at this
  · exact .inr (.inl ⟨_, rfl⟩)
  · refine .inr (.inr ⟨rfl, 10, by decide +kernel, _, rfl, by decide, ?_⟩)
    intro e he
    simp only [List.mem_cons, List.not_mem_nil, or_false] at he
    rcases he with rfl | rfl
    · exact ⟨2, by decide +kernel, trivial⟩
    · exact ⟨-1, by decide +kernel, trivial⟩
  · refine .inr (.inr ⟨rfl, 2, by decide +kernel, _, rfl, by decide, ?_⟩)
    intro e he
    simp only [List.mem_cons, List.not_mem_nil, or_false] at he
    subst he
    exact ⟨30, by decide +kernel, trivial⟩

/-! ### C20 -/

/-- The partitions of a collection selected by a filter, in the order of the listing: the
keys `kl` of all partitions are given. -/
def Selected (fmt : Int → List Char) (base : List Char) (kl : List (List (String × Int)))
    (p : List (String × Int) → Bool) : List (List Char) :=
  (kl.filter p).map (partitionPath fmt base)

/-- C20, full statement: with a filter that returns a truth value for the keys of every
stored partition, the selection is the filtered listing. -/
def C20_full : Prop :=
  ∀ (fmt : Int → List Char), (fmt = fmtInt ∨ fmt = fmt02) →
  ∀ (k : String) (ks : List String) (base : List Char) (root : Node),
    RootLayout fmt k ks root → (∀ t, k.toList ≠ '.' :: t) → (∀ x ∈ k :: ks, '=' ∉ x.toList) →
    ¬ (k.toList ++ ['=']) <:+: base ++ ['/'] → base ≠ [] →
  ∀ (kl : List (List (String × Int))),
    sortedPartitions (k :: ks) (k :: ks).length base root =
        .ok (kl.map (partitionPath fmt base)) →
  ∀ (p : List (String × Int) → Bool),
    partitions (k :: ks) (k :: ks).length base none (some fun x => .ok (p x)) root =
      .ok (Selected fmt base kl p)

theorem select_map (fmt : Int → List Char) (keys : List String) (base : List Char)
    (imm : Option (List Char)) (kl : List (List (String × Int)))
    (f : List (String × Int) → Py Bool) (p : List (String × Int) → Bool)
    (himm : ∀ kvs ∈ kl, some (partitionPath fmt base kvs) ≠ imm)
    (h : ∀ kvs ∈ kl, isSelected keys base (partitionPath fmt base kvs) (some f) = .ok (p kvs)) :
    select keys base imm (some f) (kl.map (partitionPath fmt base)) =
      .ok (Selected fmt base kl p) := by
  induction kl with
  | nil => rfl
  | cons a t ih =>
    have h1 := ih (fun x hx => himm x (List.mem_cons_of_mem _ hx))
      fun x hx => h x (List.mem_cons_of_mem _ hx)
    simp only [List.map_cons, select, if_neg (himm a List.mem_cons_self), h a List.mem_cons_self,
      h1, bind, Except.bind, pure, Except.pure, Selected, List.filter_cons]
    cases p a <;> simp

/-- C20 is violated by the code: the path of the collection is removed from the path of a
partition wherever it occurs.  A collection stored in `/p` with the keys `cycle` and `pass`
cannot be filtered at all. -/
theorem C20_counterexample : ¬ C20_full := by
  intro h
  let root : Node := .dir [("cycle=1".toList, .dir [("pass=2".toList, .dir [])])]
  have hroot : RootLayout fmtInt "cycle" ["pass"] root := by
    refine ⟨_, rfl, by decide, ?_⟩
    intro e he
    simp only [List.mem_singleton] at he
    subst he
    refine .inr (.inr ⟨rfl, 1, by decide +kernel, _, rfl, by decide, ?_⟩)
    intro e he
    simp only [List.mem_singleton] at he
    subst he
    exact ⟨2, by decide +kernel, trivial⟩
  have h1 := h fmtInt (.inl rfl) "cycle" ["pass"] "/p".toList root hroot
    (by intro t ht; simp at ht) (by decide) (by decide +kernel) (by decide)
    [[("cycle", 1), ("pass", 2)]] (by decide +kernel) (fun _ => true)
  have h2 : partitions ["cycle", "pass"] 2 "/p".toList none (some fun _ => .ok true) root =
    .error .valueError := by decide +kernel
  simp only [List.length_cons, List.length_nil] at h1
  rw [h2] at h1
  simp at h1

/-- C20: with a filter `f` that returns a truth value `p` for the keys of every stored
partition, the selection is the filtered listing, in the order of the listing.  Missing for
C20: collections whose path occurs inside the relative path of one of their partitions. -/
theorem C20_selection_partial (fmt : Int → List Char) (hfmt : fmt = fmtInt ∨ fmt = fmt02)
    (k : String) (ks : List String) (base : List Char) (root : Node)
    (hroot : RootLayout fmt k ks root) (hdot : ∀ t, k.toList ≠ '.' :: t)
    (hk : ∀ x ∈ k :: ks, '=' ∉ x.toList) (hb : ¬ (k.toList ++ ['=']) <:+: base ++ ['/'])
    (hne : base ≠ [])
    (hin : ∀ kvs, Stored fmt (k :: ks) root kvs → ¬ base <:+: '/' :: joinWith fmt ['/'] kvs)
    (imm : Option (List Char))
    (himm : imm = none ∨ imm = some (base ++ "/.immutable".toList))
    (f : List (String × Int) → Py Bool) (p : List (String × Int) → Bool)
    (hp : ∀ kvs, Stored fmt (k :: ks) root kvs → f kvs = .ok (p kvs)) :
    ∃ kl : List (List (String × Int)),
      sortedPartitions (k :: ks) (k :: ks).length base root =
        .ok (kl.map (partitionPath fmt base)) ∧
      (∀ kvs, kvs ∈ kl ↔ Stored fmt (k :: ks) root kvs) ∧
      kl.Pairwise (fun a b => values a < values b) ∧
      partitions (k :: ks) (k :: ks).length base imm (some f) root =
        .ok (Selected fmt base kl p) ∧
      partitions (k :: ks) (k :: ks).length base imm none root =
        .ok (kl.map (partitionPath fmt base)) := by
  have hf : GoodFmt fmt := by
    rcases hfmt with rfl | rfl
    · exact goodFmt_int
    · exact goodFmt_02
  obtain ⟨kl, h1, h2, h3⟩ := sortedPartitions_spec fmt hf k ks base root hroot hdot hk hb
  have hi : ∀ kvs ∈ kl, some (partitionPath fmt base kvs) ≠ imm := by
    intro kvs hm he
    rcases himm with rfl | rfl
    · simp at he
    · have hnames := Stored_names ((h2 kvs).1 hm)
      cases kvs with
      | nil => simp at hnames
      | cons kv t =>
        have e1 : kv.1 = k := by simpa using congrArg List.head? hnames
        obtain ⟨tail, ht⟩ := joinWith_head fmt kv t
        simp only [Option.some.injEq, partitionPath, ht, e1] at he
        have he' : k.toList ++ '=' :: tail = ".immutable".toList := by
          have := List.append_cancel_left he
          simpa using this
        cases hkc : k.toList with
        | nil => simp [hkc] at he'
        | cons c s =>
          rw [hkc] at he'
          have : c = '.' := by simpa using congrArg List.head? he'
          exact hdot s (by rw [hkc, this])
  refine ⟨kl, h1, h2, h3, ?_, ?_⟩
  · simp only [partitions, h1, bind, Except.bind]
    refine select_map fmt _ base imm kl f p hi ?_
    intro kvs hm
    rw [isSelected_path fmt hf k ks base kvs hne (Stored_names ((h2 kvs).1 hm)) hk
      (hin kvs ((h2 kvs).1 hm)), hp kvs ((h2 kvs).1 hm)]
  · simp only [partitions, h1, bind, Except.bind]
    clear h1 h2 h3
    induction kl with
    | nil => rfl
    | cons a t ih =>
      simp only [List.map_cons, select, if_neg (hi a List.mem_cons_self), isSelected,
        ih fun x hx => hi x (List.mem_cons_of_mem _ hx), bind, Except.bind, pure, Except.pure,
        if_true]

/-- C20: if the filter raises for some stored partition, the listing raises too: a filter
that fails never selects or hides a partition silently. -/
theorem C20_filter_raises (keys : List String) (base : List Char) (imm : Option (List Char))
    (f : List (String × Int) → Py Bool) (l : List (List Char)) (p : List Char) (hp : p ∈ l)
    (himm : some p ≠ imm) (e : PyErr) (h : isSelected keys base p (some f) = .error e) :
    ∃ e', select keys base imm (some f) l = .error e' := by
  induction l with
  | nil => simp at hp
  | cons a t ih =>
    simp only [select, bind, Except.bind]
    rcases List.mem_cons.1 hp with rfl | hp
    · rw [if_neg himm, h]
      exact ⟨e, rfl⟩
    · obtain ⟨e', he⟩ := ih hp
      rw [he]
      split
      · exact ⟨_, rfl⟩
      · cases isSelected keys base a (some f)
        · exact ⟨_, rfl⟩
        · exact ⟨_, rfl⟩

/-- C20: whatever the listing, the directory of the immutable variables is never selected, and
the selection is a part of the listing in its order. -/
theorem C20_immutable_excluded (keys : List String) (base : List Char) (imm : Option (List Char))
    (expr : Option (List (String × Int) → Py Bool)) (l r : List (List Char))
    (h : select keys base imm expr l = .ok r) : r.Sublist l ∧ ∀ p ∈ r, some p ≠ imm := by
  induction l generalizing r with
  | nil => simp only [select] at h; cases h; simp
  | cons a t ih =>
    simp only [select, bind, Except.bind] at h
    by_cases ha : some a = imm
    · simp only [if_pos ha] at h
      split at h
      · cases h
      · next r' hr' =>
        cases h
        obtain ⟨i1, i2⟩ := ih r' hr'
        exact ⟨i1.cons a, i2⟩
    · simp only [if_neg ha] at h
      split at h
      · cases h
      · next b hb =>
        split at h
        · cases h
        · next r' hr' =>
          obtain ⟨i1, i2⟩ := ih r' hr'
          cases b with
          | false => cases h; exact ⟨i1.cons a, i2⟩
          | true =>
            cases h
            refine ⟨i1.cons_cons a, fun p hp => ?_⟩
            rcases List.mem_cons.1 hp with rfl | hp
            · exact ha
            · exact i2 p hp

/-- C20: an expression whose names are keys of the partition gives the value of the
equivalent callable, which looks the names up in the dictionary of the keys.  The name
`range` is reserved for the builtin. -/
theorem C20_expression (e : Expr.Expr) (variables : List (String × Int))
    (h : ∀ n ∈ Expr.names e, n ≠ "range" → ∃ v, Expr.lookup variables n = some v) :
    Expr.call e variables =
      Expr.eval (fun n =>
        if n = "range" then .ok .rangeType
        else match Expr.lookup variables n with
          | some v => .ok (.int v)
          | none => .error .keyError) e := by
  obtain ⟨locs, h1, h2⟩ := Expr.localsOf_ok variables (Expr.names e)
    (fun n hn hr => Option.isSome_iff_exists.2 (h n hn hr))
  simp only [Expr.call, h1, bind, Except.bind]
  apply Expr.eval_congr
  intro n hn
  rw [h2]
  by_cases hr : n = "range"
  · simp [hr]
  · obtain ⟨v, hv⟩ := h n hn hr
    simp [hn, hr, hv]

/-- C20: a name that is not a key raises `NameError`, even where a short-circuit operator
would not evaluate it. -/
theorem C20_unknown_name (e : Expr.Expr) (variables : List (String × Int)) (n : String)
    (hn : n ∈ Expr.names e) (hr : n ≠ "range") (h : Expr.lookup variables n = none) :
    Expr.call e variables = .error .nameError := by
  simp only [Expr.call, Expr.localsOf_error variables _ n hn hr h, bind, Except.bind]

/-- C20, finding: a partitioning variable called `range` is hidden by the builtin, so
`range == 3` selects nothing. -/
theorem C20_range_counterexample (v : Int) :
    Expr.filter (.cmp .eq (.name "range") (.lit v)) [("range", v)] = .ok false := by
  simp [Expr.filter, Expr.call, Expr.localsOf, Expr.names, Expr.eval, Expr.compare, Expr.Val.num,
    Expr.Val.truth, bind, Except.bind, pure, Except.pure]

example : partitions ["cycle", "pass"] 2 "/data".toList (some "/data/.immutable".toList)
    (some (Expr.filter (.land (.cmp .eq (.name "cycle") (.lit 10))
      (.inRange (.name "pass") (.lit 0) (.lit 5))))) c16Root =
    .ok ["/data/cycle=10/pass=2".toList] := by decide +kernel

example : ¬ "/data".toList <:+: '/' :: joinWith fmtInt ['/'] [("cycle", 10), ("pass", 2)] := by
  decide +kernel

end Verif
