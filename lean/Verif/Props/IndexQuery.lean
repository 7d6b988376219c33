import Verif.Lemmas.Index

/-! C42: queries of an index. -/

namespace Verif

open Spec Ix
open Ds (mapPy)

/-! ### The order of the rows -/

theorem lexLe_total (a b : List Int) : (lexLe a b || lexLe b a) = true := by
  induction a generalizing b with
  | nil => simp [lexLe]
  | cons x s ih =>
    cases b with
    | nil => simp [lexLe]
    | cons y t =>
      simp only [lexLe]
      by_cases h : x = y
      · simp only [h, if_true]
        exact ih t
      · have h' : ¬ y = x := fun e => h e.symm
        simp only [if_neg h, if_neg h', Bool.or_eq_true, decide_eq_true_eq]
        omega

theorem lexLe_trans (a b c : List Int) (h1 : lexLe a b = true) (h2 : lexLe b c = true) :
    lexLe a c = true := by
  induction a generalizing b c with
  | nil => simp [lexLe]
  | cons x s ih =>
    cases b with
    | nil => simp [lexLe] at h1
    | cons y t =>
      cases c with
      | nil => simp [lexLe] at h2
      | cons z u =>
        simp only [lexLe] at h1 h2 ⊢
        by_cases hxy : x = y
        · subst hxy
          rw [if_pos rfl] at h1
          by_cases hxz : x = z
          · subst hxz
            rw [if_pos rfl] at h2 ⊢
            exact ih t u h1 h2
          · rw [if_neg hxz] at h2 ⊢
            exact h2
        · rw [if_neg hxy] at h1
          simp only [decide_eq_true_eq] at h1
          by_cases hyz : y = z
          · subst hyz
            rw [if_neg hxy]
            simpa using h1
          · rw [if_neg hyz] at h2
            simp only [decide_eq_true_eq] at h2
            rw [if_neg (by omega)]
            simp only [decide_eq_true_eq]
            omega

theorem lexLe_same (k : List Int) (s t : List Int) : lexLe (k ++ s) (k ++ t) = lexLe s t := by
  induction k with
  | nil => rfl
  | cons x k ih => simp only [List.cons_append, lexLe, if_true, ih]

theorem lexLe_pair (a b a' b' : Int) (h : lexLe [a, b] [a', b'] = true) :
    a ≤ a' ∧ (a = a' → b ≤ b') := by
  simp only [lexLe] at h
  by_cases h1 : a = a'
  · rw [if_pos h1] at h
    by_cases h2 : b = b'
    · exact ⟨by omega, fun _ => by omega⟩
    · rw [if_neg h2] at h
      simp only [decide_eq_true_eq] at h
      exact ⟨by omega, fun _ => by omega⟩
  · rw [if_neg h1] at h
    simp only [decide_eq_true_eq] at h
    exact ⟨by omega, fun e => absurd e h1⟩

theorem lexLe_squeeze (k k' s t u : List Int) (hl : k.length = k'.length)
    (h1 : lexLe (k ++ s) (k' ++ t) = true) (h2 : lexLe (k' ++ t) (k ++ u) = true) : k' = k := by
  induction k generalizing k' with
  | nil => cases k' with
    | nil => rfl
    | cons _ _ => simp at hl
  | cons x k ih =>
    cases k' with
    | nil => simp at hl
    | cons y k' =>
      simp only [List.cons_append, lexLe] at h1 h2
      by_cases h : x = y
      · subst h
        rw [if_pos rfl] at h1 h2
        rw [ih k' (by simpa using hl) h1 h2]
      · rw [if_neg h] at h1
        rw [if_neg (fun e => h e.symm)] at h2
        simp only [decide_eq_true_eq] at h1 h2
        omega

/-! ### Rows with all the columns -/

/-- The value of a column, for the proofs. -/
private def val (r : Row) (n : String) : Int := (r.lookup n).getD 0

private theorem lookup_val (r : Row) (n : String) (h : r.lookup n ≠ none) :
    r.lookup n = some (val r n) := by
  unfold val
  cases hl : r.lookup n with
  | none => exact absurd hl h
  | some v => rfl

private theorem colE_val (r : Row) (n : String) (h : r.lookup n ≠ none) :
    colE r n = .ok (val r n) := by
  simp only [colE, lookup_val r n h]

private def ent (names : List String) (r : Row) : Row × Int × Int :=
  (names.map fun n => (n, val r n), val r "start", val r "stop")

private theorem entry_ok (names : List String) (r : Row)
    (h : ∀ n ∈ names ++ ["start", "stop"], r.lookup n ≠ none) :
    entry names r = .ok (ent names r) := by
  have h1 : colsE r names = .ok (names.map fun n => (n, val r n)) := by
    refine mapPy_ok _ _ _ ?_
    intro n hn
    simp only [bind, Except.bind, colE_val r n (h n (by simp [hn]))]
  simp only [entry, bind, Except.bind, h1, colE_val r "start" (h _ (by simp)),
    colE_val r "stop" (h _ (by simp)), ent]

private theorem sortRows_ok (keys : List String) (rows : List Row)
    (h : ∀ r ∈ rows, ∀ n ∈ keys ++ ["start", "stop"], r.lookup n ≠ none) :
    ∃ sorted, sortRows keys rows = .ok sorted ∧ sorted.Perm rows ∧
      sorted.Pairwise fun x y =>
        lexLe (keys.map (val x) ++ [val x "start", val x "stop"])
          (keys.map (val y) ++ [val y "start", val y "stop"]) = true := by
  let g : Row → List Int × Row := fun r =>
    (keys.map (val r) ++ [val r "start", val r "stop"], r)
  have h1 : mapPy (fun r => do
      let k ← sortKey keys r
      .ok (k, r)) rows = .ok (rows.map g) := by
    refine mapPy_ok _ _ _ ?_
    intro r hr
    have : sortKey keys r = .ok ((keys ++ ["start", "stop"]).map (val r)) := by
      refine mapPy_ok _ _ _ ?_
      intro n hn
      exact colE_val r n (h r hr n hn)
    simp only [bind, Except.bind, this, g]
    simp
  have hperm := Sort.isort_perm (le := fun a b : List Int × Row => lexLe a.1 b.1) (rows.map g)
  have hpw := Sort.isort_pairwise (le := fun a b : List Int × Row => lexLe a.1 b.1)
    (fun a b c => lexLe_trans a.1 b.1 c.1) (fun a b => lexLe_total a.1 b.1) (rows.map g)
  refine ⟨(Sort.isort (fun a b : List Int × Row => lexLe a.1 b.1) (rows.map g)).map (·.2), ?_, ?_, ?_⟩
  · simp only [sortRows, bind, Except.bind] at h1 ⊢
    rw [h1]
  · have := hperm.map (·.2)
    rw [List.map_map] at this
    have hid : rows.map ((·.2) ∘ g) = rows := by
      have : ((·.2) ∘ g) = (id : Row → Row) := rfl
      rw [this, List.map_id]
    rwa [hid] at this
  · rw [List.pairwise_map]
    refine hpw.imp_of_mem ?_
    intro a b ha hb hab
    obtain ⟨r, _, rfl⟩ := List.mem_map.1 (hperm.mem_iff.1 ha)
    obtain ⟨r', _, rfl⟩ := List.mem_map.1 (hperm.mem_iff.1 hb)
    exact hab

private theorem map_val_eq (names : List String) (r r' : Row) :
    (names.map fun n => (n, val r n)) = (names.map fun n => (n, val r' n)) ↔
      ∀ n ∈ names, val r n = val r' n := by
  induction names with
  | nil => simp
  | cons n t ih => simp [ih]

private theorem label_iff (names : List String) (r : Row) (part : Row)
    (h : ∀ n ∈ names, r.lookup n ≠ none) :
    (names.map fun n => (n, val r n)) = part ↔ part.map (·.1) = names ∧ InPart part r := by
  constructor
  · rintro rfl
    refine ⟨?_, ?_⟩
    · rw [List.map_map]
      exact List.map_id names
    · rintro ⟨n, v⟩ hc
      obtain ⟨m, hm, e⟩ := List.mem_map.1 hc
      simp only [Prod.mk.injEq] at e
      obtain ⟨rfl, rfl⟩ := e
      exact lookup_val r m (h m hm)
  · rintro ⟨rfl, hp⟩
    rw [List.map_map]
    conv => rhs; rw [← List.map_id part]
    refine List.map_congr_left ?_
    rintro ⟨n, v⟩ hc
    have h1 := hp (n, v) hc
    simp only at h1
    simp only [Function.comp, val, h1, Option.getD_some, id]

/-- The slices of a list of rows. -/
theorem slices_of_rows (keys names : List String) (rows : List Row)
    (h : ∀ r ∈ rows, ∀ n ∈ keys ++ ["start", "stop"], r.lookup n ≠ none)
    (hn : ∀ r ∈ rows, ∀ n ∈ names, r.lookup n ≠ none) (hk : ∀ k ∈ keys, k ∈ names) :
    ∃ sorted entries out, sortRows keys rows = .ok sorted ∧
      mapPy (entry names) sorted = .ok entries ∧ toIndexer entries = .ok out ∧
      (∀ part j, Selected out part j →
        part.map (·.1) = names ∧ ∃ r ∈ rows, InPart part r ∧ RowCovers r j) ∧
      (NotNested names (· ∈ rows) → ∀ part j, part.map (·.1) = names →
        (∃ r ∈ rows, InPart part r ∧ RowCovers r j) → Selected out part j) ∧
      (names = keys → out.Pairwise fun s s' => s.1 = s'.1 → s.2.2 < s'.2.1) ∧
      ((∀ r ∈ rows, ∃ j, RowCovers r j) → ∀ s ∈ out, s.2.1 < s.2.2) := by
  obtain ⟨sorted, hs, hperm, hpw⟩ := sortRows_ok keys rows h
  have he : mapPy (entry names) sorted = .ok (sorted.map (ent names)) := by
    refine mapPy_ok _ _ _ ?_
    intro r hr
    have hr' := hperm.mem_iff.1 hr
    refine entry_ok names r ?_
    intro n hn'
    rcases List.mem_append.1 hn' with h1 | h1
    · exact hn r hr' n h1
    · exact h r hr' n (List.mem_append.2 (.inr h1))
  obtain ⟨out, hout, _⟩ := toIndexer_ok (sorted.map (ent names))
  -- the order of the rows with the same label
  have hord : ∀ x y : Row, lexLe (keys.map (val x) ++ [val x "start", val x "stop"])
      (keys.map (val y) ++ [val y "start", val y "stop"]) = true →
      (ent names x).1 = (ent names y).1 →
      val x "start" ≤ val y "start" ∧ (val x "start" = val y "start" → val x "stop" ≤ val y "stop") := by
    intro x y hle hlab
    have hv := (map_val_eq names x y).1 hlab
    have hkv : keys.map (val x) = keys.map (val y) :=
      List.map_congr_left fun k hk' => hv k (hk k hk')
    rw [hkv, lexLe_same] at hle
    exact lexLe_pair _ _ _ _ hle
  refine ⟨sorted, _, out, hs, he, hout, ?_, ?_, ?_, ?_⟩
  · intro part j hsel
    obtain ⟨a, b, hm, h1, h2⟩ := toIndexer_sound _ _ hout part j hsel
    obtain ⟨r, hr, e⟩ := List.mem_map.1 hm
    have hr' := hperm.mem_iff.1 hr
    simp only [ent, Prod.mk.injEq] at e
    obtain ⟨e1, e2, e3⟩ := e
    obtain ⟨g1, g2⟩ := (label_iff names r part (hn r hr')).1 e1
    refine ⟨g1, r, hr', g2, a, b, ?_, ?_, h1, h2⟩
    · rw [← e2]; exact lookup_val r _ (h r hr' _ (by simp))
    · rw [← e3]; exact lookup_val r _ (h r hr' _ (by simp))
  · rintro hnest part j hpart ⟨r, hr, hin, a, b, ha, hb, h1, h2⟩
    refine toIndexer_complete _ _ hout ?_ part j ⟨a, b, ?_, h1, h2⟩
    · rw [List.pairwise_map]
      refine hpw.imp_of_mem ?_
      intro x y hx hy hle hlab
      have hx' := hperm.mem_iff.1 hx
      have hy' := hperm.mem_iff.1 hy
      obtain ⟨o1, o2⟩ := hord x y hle hlab
      refine ⟨o1, ?_⟩
      by_cases heq : val x "start" = val y "start"
      · exact o2 heq
      · refine hnest x y _ _ _ _ hx' hy' ?_ (lookup_val x _ (h x hx' _ (by simp)))
          (lookup_val x _ (h x hx' _ (by simp))) (lookup_val y _ (h y hy' _ (by simp)))
          (lookup_val y _ (h y hy' _ (by simp))) (by omega)
        intro n hn'
        rw [lookup_val x n (hn x hx' n hn'), lookup_val y n (hn y hy' n hn'),
          (map_val_eq names x y).1 hlab n hn']
    · refine List.mem_map.2 ⟨r, hperm.mem_iff.2 hr, ?_⟩
      simp only [ent, Prod.mk.injEq]
      refine ⟨(label_iff names r part (hn r hr)).2 ⟨hpart, hin⟩, ?_, ?_⟩
      · simp [val, ha]
      · simp [val, hb]
  · rintro rfl
    refine toIndexer_separated _ _ hout ?_ ?_
    · rw [List.pairwise_map]
      refine hpw.imp ?_
      intro x y hle hlab
      exact (hord x y hle hlab).1
    · intro i j k x y z hx hy hz hij hjk hlab
      rw [List.getElem?_map, Option.map_eq_some_iff] at hx hy hz
      obtain ⟨x, hx, rfl⟩ := hx
      obtain ⟨y, hy, rfl⟩ := hy
      obtain ⟨z, hz, rfl⟩ := hz
      have hle : ∀ (i j : Nat) x y, sorted[i]? = some x → sorted[j]? = some y → i ≤ j →
          lexLe (names.map (val x) ++ [val x "start", val x "stop"])
            (names.map (val y) ++ [val y "start", val y "stop"]) = true := by
        intro i j x y hx hy hij
        obtain ⟨l1, e1⟩ := List.getElem?_eq_some_iff.1 hx
        obtain ⟨l2, e2⟩ := List.getElem?_eq_some_iff.1 hy
        rcases Nat.lt_or_ge i j with hlt | hge
        · have := List.pairwise_iff_getElem.1 hpw i j l1 l2 hlt
          rwa [e1, e2] at this
        · have : i = j := by omega
          subst this
          rw [hx] at hy
          cases hy
          have := lexLe_total (names.map (val x) ++ [val x "start", val x "stop"])
            (names.map (val x) ++ [val x "start", val x "stop"])
          simpa using this
      have hv := (map_val_eq names x z).1 hlab
      have hkv : names.map (val z) = names.map (val x) :=
        List.map_congr_left fun k hk' => (hv k hk').symm
      have h2 := hle j k y z hy hz hjk
      rw [hkv] at h2
      have := lexLe_squeeze _ _ _ _ _ (by simp) (hle i j x y hx hy hij) h2
      refine (map_val_eq names y x).2 ?_
      intro n hn'
      have hmap := List.map_eq_map_iff.1 this
      exact hmap n hn'
  · intro hne
    refine toIndexer_nonempty _ _ hout ?_ ?_
    · rw [List.pairwise_map]
      refine hpw.imp ?_
      intro x y hle hlab
      exact (hord x y hle hlab).1
    · intro x hx
      obtain ⟨r, hr, rfl⟩ := List.mem_map.1 hx
      obtain ⟨j, a, b, ha, hb, h1, h2⟩ := hne r (hperm.mem_iff.1 hr)
      simp only [ent, val, ha, hb, Option.getD_some]
      omega

/-! ### The masks -/

private def sat (r : Row) (c : String × List Int) : Bool := decide (Satisfies r c)

private theorem isIn_ok (types : List String) (t : Table) (c : String × List Int)
    (h1 : c.1 ∈ t.names) (h2 : c.1 ∈ types) (h3 : ∀ r ∈ t.rows, r.lookup c.1 ≠ none) :
    isIn types t c = .ok (t.rows.map fun r => sat r c) := by
  unfold isIn
  rw [if_neg (fun h => h h1), if_neg (fun h => h h2)]
  refine mapPy_ok _ _ _ ?_
  intro r hr
  simp only [bind, Except.bind, colE_val r c.1 (h3 r hr)]
  congr 1
  unfold sat
  congr 1
  simp only [Satisfies, lookup_val r c.1 (h3 r hr), Option.some.injEq, eq_iff_iff]
  constructor
  · intro h; exact ⟨_, h, rfl⟩
  · rintro ⟨v, h, rfl⟩; exact h

private def combine (op : String) (a b : Bool) : Bool :=
  if op = "and" then a && b
  else if op = "and_not" then a && !b
  else if op = "or" then a || b
  else xor a b

private theorem reduceMasks_ok (op : String) (hop : op ∈ ["and", "and_not", "or", "xor"])
    (rows : List Row) (cs : List (String × List Int)) (p : Row → Bool) :
    reduceMasks op (rows.map p) (cs.map fun c => rows.map fun r => sat r c) =
      .ok (rows.map fun r => (cs.map (sat r)).foldl (combine op) (p r)) := by
  induction cs generalizing p with
  | nil => rfl
  | cons c t ih =>
    have : logical op (rows.map p) (rows.map fun r => sat r c) =
        .ok (rows.map fun r => combine op (p r) (sat r c)) := by
      simp only [List.mem_cons, List.not_mem_nil, or_false] at hop
      rcases hop with rfl | rfl | rfl | rfl <;>
        simp [logical, combine]
    simp only [List.map_cons, reduceMasks, bind, Except.bind, this]
    rw [ih]
    rfl

private theorem applyMask_filter (rows : List Row) (p : Row → Bool) :
    applyMask rows (rows.map p) = .ok (rows.filter p) := by
  unfold applyMask
  rw [if_neg (by simp)]
  congr 1
  induction rows with
  | nil => rfl
  | cons x t ih =>
    simp only [List.map_cons, List.zip_cons_cons, List.filterMap_cons, List.filter_cons]
    cases p x <;> simp [ih]

private theorem foldl_and (l : List Bool) (b : Bool) :
    l.foldl (combine "and") b = (b && l.all id) := by
  induction l generalizing b with
  | nil => simp
  | cons x t ih => rw [List.foldl_cons, ih]; cases b <;> cases x <;> simp [combine]

private theorem foldl_or (l : List Bool) (b : Bool) :
    l.foldl (combine "or") b = (b || l.any id) := by
  induction l generalizing b with
  | nil => simp
  | cons x t ih => rw [List.foldl_cons, ih]; cases b <;> cases x <;> simp [combine]

private theorem foldl_and_not (l : List Bool) (b : Bool) :
    l.foldl (combine "and_not") b = (b && !l.any id) := by
  induction l generalizing b with
  | nil => simp
  | cons x t ih => rw [List.foldl_cons, ih]; cases b <;> cases x <;> simp [combine]

private theorem foldl_xor (l : List Bool) (b : Bool) :
    l.foldl (combine "xor") b = decide (((b :: l).filter id).length % 2 = 1) := by
  induction l generalizing b with
  | nil => cases b <;> simp
  | cons x t ih =>
    rw [List.foldl_cons, ih]
    cases b <;> cases x <;> simp [combine]
    omega

private theorem matching_fold (op : String) (hop : op ∈ ["and", "and_not", "or", "xor"])
    (c : String × List Int) (cs : List (String × List Int)) (r : Row) :
    (cs.map (sat r)).foldl (combine op) (sat r c) = true ↔ Matching op (c :: cs) r := by
  have hfil : ((sat r c :: cs.map (sat r)).filter id).length =
      ((c :: cs).filter fun c => decide (Satisfies r c)).length := by
    have : (sat r c :: cs.map (sat r)) = (c :: cs).map (sat r) := rfl
    rw [this, List.filter_map, List.length_map]
    rfl
  simp only [List.mem_cons, List.not_mem_nil, or_false] at hop
  rcases hop with rfl | rfl | rfl | rfl
  · rw [foldl_and]
    simp [Matching, sat]
  · rw [foldl_and_not]
    simp only [Bool.and_eq_true, Bool.not_eq_true', List.any_eq_false, sat, decide_eq_true_eq]
    constructor
    · rintro ⟨h1, h2⟩
      refine .inr (.inr (.inr (.inl ⟨rfl, c, cs, rfl, h1, ?_⟩)))
      intro d hd hs
      exact h2 _ (List.mem_map.2 ⟨d, hd, rfl⟩) (by simpa [sat] using hs)
    · rintro (h | ⟨h, _⟩ | ⟨h, _⟩ | ⟨_, c', cs', h, h1, h2⟩ | ⟨h, _⟩)
      · cases h
      · simp at h
      · simp at h
      · cases h
        refine ⟨h1, ?_⟩
        intro b hb hbt
        obtain ⟨d, hd, rfl⟩ := List.mem_map.1 hb
        exact h2 d hd (by simpa [sat] using hbt)
      · simp at h
  · rw [foldl_or]
    simp [Matching, sat]
  · rw [foldl_xor, decide_eq_true_eq, hfil]
    simp [Matching]

private theorem selectRows_ok (st : State) (op : String)
    (hop : op ∈ ["and", "and_not", "or", "xor"]) (t : Table) (rows : List Row)
    (columns : List (String × List Int))
    (h : ∀ c ∈ columns, c.1 ∈ t.names ∧ c.1 ∈ st.types)
    (hr : ∀ r ∈ rows, ∀ n ∈ t.names, r.lookup n ≠ none) :
    ∃ out, selectRows st op t rows columns = .ok out ∧
      ∀ r, r ∈ out ↔ r ∈ rows ∧ Matching op columns r := by
  cases columns with
  | nil =>
    refine ⟨rows, rfl, ?_⟩
    intro r
    simp [Matching]
  | cons c cs =>
    have hin : ∀ d ∈ c :: cs, isIn st.types { t with rows := rows } d =
        .ok (rows.map fun r => sat r d) := by
      intro d hd
      exact isIn_ok _ _ _ (h d hd).1 (h d hd).2 fun r hr' => hr r hr' _ (h d hd).1
    have h1 := hin c (List.mem_cons_self ..)
    have h2 : mapPy (isIn st.types { t with rows := rows }) cs =
        .ok (cs.map fun d => rows.map fun r => sat r d) :=
      mapPy_ok _ _ _ fun d hd => hin d (List.mem_cons_of_mem _ hd)
    refine ⟨rows.filter fun r => (cs.map (sat r)).foldl (combine op) (sat r c), ?_, ?_⟩
    · simp only [selectRows, bind, Except.bind, h1, h2, reduceMasks_ok op hop]
      exact applyMask_filter rows _
    · intro r
      rw [List.mem_filter, matching_fold op hop]

private theorem maskRows_ok (t : Table) (mask : Option (List Bool))
    (h : ∀ m, mask = some m → m.length = t.rows.length) : ∃ rows, maskRows t mask = .ok rows ∧
      ∀ r, r ∈ rows ↔ ∃ i : Nat, t.rows[i]? = some r ∧ ∀ m, mask = some m → m[i]? = some true := by
  cases mask with
  | none =>
    refine ⟨t.rows, rfl, ?_⟩
    intro r
    constructor
    · intro hr
      obtain ⟨i, hi⟩ := List.getElem?_of_mem hr
      exact ⟨i, hi, fun m hm => by cases hm⟩
    · rintro ⟨i, hi, _⟩
      exact List.mem_of_getElem? hi
  | some m =>
    refine ⟨_, by simp only [maskRows, applyMask]; rw [if_neg (by simpa using h m rfl)], ?_⟩
    intro r
    rw [List.mem_filterMap]
    constructor
    · rintro ⟨⟨x, b⟩, hx, he⟩
      obtain ⟨i, hi⟩ := List.getElem?_of_mem hx
      rw [List.getElem?_zip_eq_some] at hi
      cases b with
      | false => simp at he
      | true =>
        simp only [if_true, Option.some.injEq] at he
        subst he
        exact ⟨i, hi.1, fun m' hm' => by cases hm'; exact hi.2⟩
    · rintro ⟨i, hi, hm⟩
      refine ⟨(r, true), List.mem_of_getElem? (i := i) ?_, rfl⟩
      rw [List.getElem?_zip_eq_some]
      exact ⟨hi, hm m rfl⟩

/-! ### Queries -/

/-- The operator of the query, "and" when it is not given. -/
theorem query_eq (st : State) (columns : List (String × List Int)) (op : String)
    (hop : op ∈ ["and", "and_not", "or", "xor"]) (mask : Option (List Bool)) (only : Bool)
    (t : Table) (names : List String) (hq : GoodQuery st t columns mask)
    (hnames : columnNames st only = .ok names) (hsub : ∀ n ∈ names, n ∈ t.names)
    (hk : ∀ k ∈ st.keys, k ∈ names) :
    ∃ out, query st columns (some op) mask only = .ok out ∧
      (∀ part j, Selected out part j → part.map (·.1) = names ∧
        ∃ r, Matched t mask op columns r ∧ InPart part r ∧ RowCovers r j) ∧
      (NotNested names (Matched t mask op columns) → ∀ part j, part.map (·.1) = names →
        (∃ r, Matched t mask op columns r ∧ InPart part r ∧ RowCovers r j) → Selected out part j) ∧
      (names = st.keys → out.Pairwise fun s s' => s.1 = s'.1 → s.2.2 < s'.2.1) ∧
      ((∀ r, Matched t mask op columns r → ∃ j, RowCovers r j) → ∀ s ∈ out, s.2.1 < s.2.2) := by
  obtain ⟨rows, hrows, hmem⟩ := maskRows_ok t mask hq.mask
  have hsubr : ∀ r ∈ rows, r ∈ t.rows := by
    intro r hr
    obtain ⟨i, hi, _⟩ := (hmem r).1 hr
    exact List.mem_of_getElem? hi
  obtain ⟨sel, hsel, hselm⟩ := selectRows_ok st op hop t rows columns hq.columns
    fun r hr => hq.rows r (hsubr r hr)
  have hselt : ∀ r ∈ sel, r ∈ t.rows := fun r hr => hsubr r ((hselm r).1 hr).1
  have hM : ∀ r, r ∈ sel ↔ Matched t mask op columns r := by
    intro r
    rw [hselm, hmem]
    constructor
    · rintro ⟨⟨i, h1, h2⟩, h3⟩; exact ⟨i, h1, h2, h3⟩
    · rintro ⟨i, h1, h2, h3⟩; exact ⟨⟨i, h1, h2⟩, h3⟩
  obtain ⟨sorted, entries, out, g1, g2, g3, g4, g5, g6, g7⟩ := slices_of_rows st.keys names sel
    (fun r hr n hn => hq.rows r (hselt r hr) n (hq.names n hn))
    (fun r hr n hn => hq.rows r (hselt r hr) n (hsub n hn)) hk
  refine ⟨out, ?_, ?_, ?_, g6, fun hne => g7 fun r hr => hne r ((hM r).1 hr)⟩
  · have hne : op ≠ "" := by
      rintro rfl
      simp at hop
    have hop' : op ∈ ["and", "and_not", "invert", "or", "xor"] := by
      simp only [List.mem_cons, List.not_mem_nil, or_false] at hop ⊢
      rcases hop with h | h | h | h <;> simp [h]
    have hcol : ¬ (columns ≠ [] ∧ ∀ c ∈ columns, c.1 ∉ st.types) := by
      rintro ⟨h1, h2⟩
      obtain ⟨c, hc⟩ := List.exists_mem_of_ne_nil _ h1
      exact h2 c hc (hq.columns c hc).2
    unfold query
    rw [if_neg hq.keys]
    simp only [if_neg hne, hop', not_true_eq_false, if_false, if_neg hcol, bind, Except.bind,
      hq.table, hrows, hsel, g1, hnames, g2, g3]
  · intro part j hs
    obtain ⟨h1, r, hr, h2⟩ := g4 part j hs
    exact ⟨h1, r, (hM r).1 hr, h2⟩
  · rintro hnest part j hpart ⟨r, hr, h2⟩
    refine g5 ?_ part j hpart ⟨r, (hM r).2 hr, h2⟩
    intro r r' a b a' b' h1 h2
    exact hnest r r' a b a' b' ((hM r).1 h1) ((hM r').1 h2)

/-- The records a query selects are those of the rows that satisfy its conditions, by partition;
the slices of a partition are in order and do not touch.  Partial: no matching row is nested in
another one of its partition. -/
theorem C42_query_partial (st : State) (columns : List (String × List Int)) (op : String)
    (hop : op ∈ ["and", "and_not", "or", "xor"]) (mask : Option (List Bool)) (t : Table)
    (hq : GoodQuery st t columns mask) (hn : NotNested st.keys (Matched t mask op columns)) :
    ∃ out, query st columns (some op) mask true = .ok out ∧
      (∀ part j, Selected out part j ↔ part.map (·.1) = st.keys ∧
        ∃ r, Matched t mask op columns r ∧ InPart part r ∧ RowCovers r j) ∧
      out.Pairwise fun s s' => s.1 = s'.1 → s.2.2 < s'.2.1 := by
  obtain ⟨out, h1, h2, h3, h4⟩ := query_eq st columns op hop mask true t st.keys hq rfl
    (fun n hn => hq.names n (List.mem_append.2 (.inl hn))) fun _ h => h
  refine ⟨out, h1, ?_, h4.1 rfl⟩
  intro part j
  exact ⟨h2 part j, fun h => h3 hn part j h.1 h.2⟩

/-- Whatever the rows, a query selects only records of rows that satisfy its conditions. -/
theorem C42_sound (st : State) (columns : List (String × List Int)) (op : String)
    (hop : op ∈ ["and", "and_not", "or", "xor"]) (mask : Option (List Bool)) (t : Table)
    (hq : GoodQuery st t columns mask) :
    ∃ out, query st columns (some op) mask true = .ok out ∧
      (∀ part j, Selected out part j → part.map (·.1) = st.keys ∧
        ∃ r, Matched t mask op columns r ∧ InPart part r ∧ RowCovers r j) ∧
      out.Pairwise fun s s' => s.1 = s'.1 → s.2.2 < s'.2.1 := by
  obtain ⟨out, h1, h2, h3, h4⟩ := query_eq st columns op hop mask true t st.keys hq rfl
    (fun n hn => hq.names n (List.mem_append.2 (.inl hn))) fun _ h => h
  exact ⟨out, h1, h2, h4.1 rfl⟩

/-- With all the columns, the records of the rows by values of all the columns. -/
theorem C42_all_columns_partial (st : State) (columns : List (String × List Int)) (op : String)
    (hop : op ∈ ["and", "and_not", "or", "xor"]) (mask : Option (List Bool)) (t : Table)
    (hq : GoodQuery st t columns mask) (hfile : st.file ≠ none)
    (hres : "start" ∉ st.keys ∧ "stop" ∉ st.keys)
    (hn : NotNested (t.names.filter fun n => decide (n ≠ "start" ∧ n ≠ "stop"))
      (Matched t mask op columns)) :
    ∃ out, query st columns (some op) mask false = .ok out ∧
      ∀ part j, Selected out part j ↔
        part.map (·.1) = (t.names.filter fun n => decide (n ≠ "start" ∧ n ≠ "stop")) ∧
        ∃ r, Matched t mask op columns r ∧ InPart part r ∧ RowCovers r j := by
  have hc : columnNames st false =
      .ok (t.names.filter fun n => decide (n ≠ "start" ∧ n ≠ "stop")) := by
    unfold columnNames
    cases hf : st.file with
    | none => exact absurd hf hfile
    | some f => simp [bind, Except.bind, hq.table]
  obtain ⟨out, h1, h2, h3, _⟩ := query_eq st columns op hop mask false t _ hq hc
    (fun n hn => (List.mem_filter.1 hn).1) (fun k hk => List.mem_filter.2
      ⟨hq.names k (List.mem_append.2 (.inl hk)), decide_eq_true
        ⟨fun e => hres.1 (e ▸ hk), fun e => hres.2 (e ▸ hk)⟩⟩)
  refine ⟨out, h1, ?_⟩
  intro part j
  exact ⟨h2 part j, fun h => h3 hn part j h.1 h.2⟩

/-- An unknown operator is refused. -/
theorem C42_unknown_operator (st : State) (columns : List (String × List Int)) (op : String)
    (h : op ∉ ["", "and", "and_not", "invert", "or", "xor"]) (mask : Option (List Bool))
    (only : Bool) (hk : st.keys ≠ []) : query st columns (some op) mask only = .error .valueError := by
  simp only [List.mem_cons, not_or] at h
  unfold query
  rw [if_neg hk]
  simp [h]

theorem mapPy_one_error {α β : Type} {f : α → Py β} {l : List α} {e : PyErr}
    (h : ∀ x ∈ l, f x = .error e ∨ ∃ y, f x = .ok y) {x : α} (hx : x ∈ l) (hf : f x = .error e) :
    Ds.mapPy f l = .error e := by
  induction l with
  | nil => cases hx
  | cons a t ih =>
    simp only [Ds.mapPy, bind, Except.bind]
    rcases h a (by simp) with ha | ⟨y, ha⟩
    · rw [ha]
    · rw [ha]
      dsimp only
      rcases List.mem_cons.1 hx with rfl | hx
      · rw [hf] at ha; cases ha
      · rw [ih (fun z hz => h z (by simp [hz])) hx]

theorem mapPy_two {α β : Type} {f : α → Py β} {e : PyErr} (l : List α)
    (h : ∀ x, f x = .error e ∨ ∃ y, f x = .ok y) :
    Ds.mapPy f l = .error e ∨ ∃ y, Ds.mapPy f l = .ok y := by
  induction l with
  | nil => exact .inr ⟨[], rfl⟩
  | cons a t ih =>
    simp only [Ds.mapPy, bind, Except.bind]
    rcases h a with ha | ⟨y, ha⟩
    · exact .inl (by rw [ha])
    · rcases ih with ht | ⟨ys, ht⟩
      · exact .inl (by rw [ha, ht])
      · exact .inr ⟨y :: ys, by rw [ha, ht]⟩

/-- An index whose rows have not the columns of the partitioning (the file of the index of another
collection) raises `KeyError`: no row is ever taken for another partition. -/
theorem C42_foreign (st : State) (op : Option String) (only : Bool) (t : Table)
    (hop : ∀ s, op = some s → s ∈ ["", "and", "and_not", "invert", "or", "xor"])
    (hr : read st = .ok t) (r : Row) (hrow : r ∈ t.rows) (k : String) (hk : k ∈ st.keys)
    (hl : r.lookup k = none) : query st [] op none only = .error .keyError := by
  have hcol : ∀ (r : Row) (n : String), colE r n = .error .keyError ∨ ∃ y, colE r n = .ok y := by
    intro r n
    unfold colE
    cases r.lookup n with
    | none => exact .inl rfl
    | some v => exact .inr ⟨v, rfl⟩
  have hkey : ∀ (r : Row), sortKey st.keys r = .error .keyError ∨ ∃ y, sortKey st.keys r = .ok y := by
    exact fun r => mapPy_two _ fun n => hcol r n
  have hbad : sortKey st.keys r = .error .keyError :=
    mapPy_one_error (fun n _ => hcol r n) (List.mem_append_left _ hk) (by simp [colE, hl])
  have hsort : sortRows st.keys t.rows = .error .keyError := by
    unfold sortRows
    rw [mapPy_one_error (e := .keyError) ?_ hrow ?_]
    · rfl
    · intro x _
      rcases hkey x with hx | ⟨y, hx⟩
      · exact .inl (by rw [hx]; rfl)
      · exact .inr ⟨(y, x), by rw [hx]; rfl⟩
    · rw [hbad]; rfl
  have hne : st.keys ≠ [] := by
    intro e
    rw [e] at hk
    cases hk
  unfold query
  rw [if_neg hne, if_neg, if_neg (by simp)]
  · rw [hr]
    simp only [bind, Except.bind, maskRows, selectRows, hsort]
  · cases op with
    | none => simp
    | some s =>
      have := hop s rfl
      by_cases hs : s = ""
      · subst hs; simp
      · simp only [hs, if_false, Decidable.not_not]
        simpa [hs] using this

/-- An index of a collection partitioned by `month`, with rows that have years. -/
example : query ⟨["month"], ["pass"], some ⟨["start", "stop", "year"],
      [[("start", 0), ("stop", 10), ("year", 2020)]]⟩, none⟩ [] none none true =
    .error .keyError :=
  C42_foreign _ _ _ ⟨["start", "stop", "year"], [[("start", 0), ("stop", 10), ("year", 2020)]]⟩
    (by simp) rfl [("start", 0), ("stop", 10), ("year", 2020)] (by simp) "month" (by simp)
    (by decide)

/-- The operator "invert" does not negate the condition: the rows are those of the condition. -/
theorem C42_invert_ignored (st : State) (c : String × List Int) (mask : Option (List Bool))
    (only : Bool) : query st [c] (some "invert") mask only = query st [c] (some "and") mask only := by
  unfold query
  by_cases hk : st.keys = []
  · rw [if_pos hk, if_pos hk]
  · rw [if_neg hk, if_neg hk]
    simp only [show ¬ ("invert" = "") by decide, show ¬ ("and" = "") by decide, if_false,
      show ¬ ("invert" ∉ ["and", "and_not", "invert", "or", "xor"]) by decide,
      show ¬ ("and" ∉ ["and", "and_not", "invert", "or", "xor"]) by decide]
    rfl

/-- The statement for any rows. -/
def C42_full : Prop :=
  ∀ (st : State) (columns : List (String × List Int)) (op : String),
    op ∈ ["and", "and_not", "or", "xor"] → ∀ (mask : Option (List Bool)) (t : Table),
    GoodQuery st t columns mask →
    ∃ out, query st columns (some op) mask true = .ok out ∧
      ∀ part j, Selected out part j ↔ part.map (·.1) = st.keys ∧
        ∃ r, Matched t mask op columns r ∧ InPart part r ∧ RowCovers r j

/-- An index of two passes, the second one during the first one. -/
def nestedIndex : State where
  keys := ["year"]
  types := ["year", "start", "stop", "pass"]
  file := some ⟨["start", "stop", "pass", "year"],
    [[("start", 0), ("stop", 10), ("pass", 1), ("year", 2020)],
     [("start", 2), ("stop", 3), ("pass", 2), ("year", 2020)]]⟩
  table := none

/-- The records after the nested row are not selected. -/
theorem C42_counterexample : ¬ C42_full := by
  intro h
  obtain ⟨out, h1, h2⟩ := h nestedIndex [] "and" (by decide) none
    ⟨["start", "stop", "pass", "year"],
      [[("start", 0), ("stop", 10), ("pass", 1), ("year", 2020)],
       [("start", 2), ("stop", 3), ("pass", 2), ("year", 2020)]]⟩
    ⟨by decide, rfl, by decide, by decide, (fun c hc => by cases hc), (fun m hm => by cases hm)⟩
  have hq : query nestedIndex [] (some "and") none true = .ok [([("year", 2020)], (0, 3))] := by
    decide +kernel
  rw [hq] at h1
  cases h1
  obtain ⟨s, hs, h3, h4⟩ := (h2 [("year", 2020)] 7).2 ⟨rfl, _, ⟨0, rfl, (fun m hm => by cases hm),
    .inl rfl⟩, by simp [InPart, List.lookup], 0, 10, by decide, by decide, by decide, by decide⟩
  simp only [List.mem_singleton, Prod.mk.injEq] at hs
  obtain ⟨_, rfl⟩ := hs
  simp at h4

/-- An index of three passes in two years. -/
def passIndex : State where
  keys := ["year"]
  types := ["year", "start", "stop", "pass"]
  file := some ⟨["start", "stop", "pass", "year"],
    [[("start", 4), ("stop", 10), ("pass", 2), ("year", 2020)],
     [("start", 0), ("stop", 5), ("pass", 1), ("year", 2020)],
     [("start", 12), ("stop", 20), ("pass", 1), ("year", 2020)],
     [("start", 0), ("stop", 6), ("pass", 1), ("year", 2021)],
     [("start", 6), ("stop", 9), ("pass", 3), ("year", 2021)]]⟩
  table := none

/-- The rows of `passIndex`. -/
def passTable : Table := ⟨["start", "stop", "pass", "year"],
    [[("start", 4), ("stop", 10), ("pass", 2), ("year", 2020)],
     [("start", 0), ("stop", 5), ("pass", 1), ("year", 2020)],
     [("start", 12), ("stop", 20), ("pass", 1), ("year", 2020)],
     [("start", 0), ("stop", 6), ("pass", 1), ("year", 2021)],
     [("start", 6), ("stop", 9), ("pass", 3), ("year", 2021)]]⟩

/-- The hypotheses of `C42_query_partial` are met, with two conditions. -/
example : ∃ out, query passIndex [("pass", [1, 2]), ("year", [2020])] (some "and") none true =
    .ok out ∧ (∀ part j, Selected out part j ↔ part.map (·.1) = ["year"] ∧
      ∃ r, Matched passTable none "and" [("pass", [1, 2]), ("year", [2020])] r ∧ InPart part r ∧
        RowCovers r j) ∧
    out.Pairwise fun s s' => s.1 = s'.1 → s.2.2 < s'.2.1 := by
  refine C42_query_partial passIndex _ "and" (by decide) none passTable
    ⟨by decide, rfl, by decide, by decide, by decide, (fun m hm => by cases hm)⟩ ?_
  have hb : ∀ r ∈ passTable.rows, ∀ r' ∈ passTable.rows, (∀ n ∈ ["year"], r.lookup n = r'.lookup n) →
      (r.lookup "start").getD 0 < (r'.lookup "start").getD 0 →
      (r.lookup "stop").getD 0 ≤ (r'.lookup "stop").getD 0 := by decide +kernel
  rintro r r' a b a' b' ⟨i, hi, _⟩ ⟨i', hi', _⟩ h1 h2 h3 h4 h5 h6
  have := hb r (List.mem_of_getElem? hi) r' (List.mem_of_getElem? hi') h1
  rw [h2, h3, h4, h5] at this
  exact this h6

example : query passIndex [("pass", [1, 2]), ("year", [2020])] (some "and") none true =
    .ok [([("year", 2020)], (0, 10)), ([("year", 2020)], (12, 20))] := by decide +kernel

example : query passIndex [("pass", [3]), ("year", [2020])] (some "or") none true =
    .ok [([("year", 2020)], (0, 10)), ([("year", 2020)], (12, 20)), ([("year", 2021)], (6, 9))] := by
  decide +kernel

end Verif
