import Verif.Lemmas.Collection
import Verif.Props.Batches

/-! C22, C23: insertion and loading; C29: removal of partitions. -/

namespace Verif

open Spec Coll

variable {R : Type}

/-! ### C22 -/

/-- C22, full statement: for every column of keys accepted by the insertion. -/
def C22_full : Prop :=
  ∀ (R : Type) (merge : Option (Merge R)) (npartitions : Option Int) (delayed : Bool)
    (column : List Key) (rows : List R) (st st' : Store R) (ks : List Key),
    column.length = rows.length →
    insert merge npartitions delayed column rows st = (st', .ok ks) →
    ∀ k, (rowsOf column rows k = [] → st' k = st k) ∧
      (rowsOf column rows k ≠ [] → Effect merge (st k) (rowsOf column rows k) (st' k))

/-- The pieces of an accepted split. -/
theorem split_spec (delayed : Bool) (column : List Key) (rows : List R)
    (hlen : column.length = rows.length) (hs : delayed = true ∨ KeysSorted column)
    (ps : List (Key × (Nat × Nat))) (h : Split.splitRows column delayed = .ok ps) :
    ((ps.map (·.1)).Nodup) ∧ (ps.map (·.1)).Pairwise (· < ·) ∧
    (∀ p ∈ ps, (task rows p).2 = rowsOf column rows p.1) ∧
    (∀ k, k ∉ ps.map (·.1) → rowsOf column rows k = []) ∧
    (∀ p ∈ ps, (task rows p).2 ≠ []) ∧ Chain 0 column.length (ps.map (·.2)) := by
  have h1 := C09_cover_rows column delayed ps h
  have h2 := C10_rows_partial column delayed ps h hs
  have h3 := C11_keys_increasing_rows column delayed ps h
  have hnd : (ps.map (·.1)).Nodup := h3.imp fun h => h.2
  have hlt : (ps.map (·.1)).Pairwise (· < ·) := h3.imp fun {a b} h => by
    rcases h with ⟨hle, hne⟩
    by_cases hc : a < b
    · exact hc
    · exact absurd (List.le_antisymm hle (List.not_lt.1 hc)) hne
  obtain ⟨h4, h5, h6⟩ := pieces_rows column rows hlen ps h1 h2 hnd
  exact ⟨hnd, hlt, h4, h5, h6, h1⟩

/-- The tasks of an insertion are a rearrangement in batches of the pieces. -/
theorem batches_flatten {α : Type} (ps : List α) (n : Option Int)
    (bs : List (List α)) (h : Batches.insertBatches ps n = .ok bs) :
    bs.flatten = ps := by
  unfold Batches.insertBatches at h
  have key : ∀ s : Option Int, Batches.splitSequence ps s = .ok bs → bs.flatten = ps := by
    intro s hs
    by_cases hp : ps = []
    · subst hp
      simp only [Batches.splitSequence, List.length_nil] at hs
      split at hs
      · cases hs
      · simp at hs
    · have hpos : ∀ n, s = some n → 0 < n := by
        intro n hn
        subst hn
        simp only [Batches.splitSequence, Option.getD_some] at hs
        split at hs
        · cases hs
        · omega
      obtain ⟨bs', h1, h2, _⟩ := C19_split_sequence ps s hp hpos
      rw [h1] at hs
      cases hs
      exact h2
  split at h
  · exact key _ h
  · split at h
    · cases h
    · exact key _ h

/-- C22: an insertion puts the records of each key into the partition of this key (created,
overwritten, or given by the merge callback) and leaves the other partitions unchanged; it
returns the keys of the dataset in order.  Missing: unsorted keys accepted by the eager
split (C10). -/
theorem C22_insert_partial (merge : Option (Merge R)) (npartitions : Option Int) (delayed : Bool)
    (column : List Key) (rows : List R) (st st' : Store R) (ks : List Key)
    (hlen : column.length = rows.length) (hs : delayed = true ∨ KeysSorted column)
    (h : insert merge npartitions delayed column rows st = (st', .ok ks)) :
    (∀ k, (rowsOf column rows k = [] → st' k = st k) ∧
      (rowsOf column rows k ≠ [] → Effect merge (st k) (rowsOf column rows k) (st' k))) ∧
    ks.Pairwise (· < ·) ∧ ∀ k, k ∈ ks ↔ rowsOf column rows k ≠ [] := by
  unfold Coll.insert at h
  split at h
  · cases h
  · next ps hps =>
    obtain ⟨hnd, hlt, h4, h5, h6, _⟩ := split_spec delayed column rows hlen hs ps hps
    split at h
    · cases h
    · next bs hbs =>
      have hflat := batches_flatten ps npartitions bs hbs
      have hflat' : (bs.map fun b => b.map (task rows)).flatten = ps.map (task rows) := by
        rw [← hflat, List.map_flatten]
      have hkeys : (ps.map (task rows)).map (·.1) = ps.map (·.1) := by
        rw [List.map_map]; rfl
      have hspec := runBatches_spec merge (bs.map fun b => b.map (task rows)) st
        (by rw [hflat', hkeys]; exact hnd)
      rw [hflat', hkeys] at hspec
      split at h
      · next st1 hr =>
        cases h
        rw [hr] at hspec
        obtain ⟨e1, e2⟩ := hspec
        have hmem : ∀ k, k ∈ ps.map (·.1) ↔ rowsOf column rows k ≠ [] := by
          intro k
          constructor
          · intro hk
            obtain ⟨p, hp, rfl⟩ := List.mem_map.1 hk
            rw [← h4 p hp]
            exact h6 p hp
          · intro hk
            exact Classical.byContradiction fun hc => hk (h5 k hc)
        refine ⟨?_, hlt, hmem⟩
        intro k
        refine ⟨?_, ?_⟩
        · intro hk
          exact e1 k fun hc => (hmem k).1 hc hk
        · intro hk
          obtain ⟨p, hp, rfl⟩ := List.mem_map.1 ((hmem k).2 hk)
          rw [← h4 p hp]
          exact (e2 (task rows p) (List.mem_map_of_mem hp)).resolve_right (by simp)
      · cases h

/-- C22: an insertion that raises leaves each partition as it was or as the complete
insertion makes it. -/
theorem C22_failed_insert_partial (merge : Option (Merge R)) (npartitions : Option Int)
    (delayed : Bool) (column : List Key) (rows : List R) (st st' : Store R) (e : PyErr)
    (hlen : column.length = rows.length) (hs : delayed = true ∨ KeysSorted column)
    (h : insert merge npartitions delayed column rows st = (st', .error e)) (k : Key) :
    st' k = st k ∨
      (rowsOf column rows k ≠ [] ∧ Effect merge (st k) (rowsOf column rows k) (st' k)) := by
  unfold Coll.insert at h
  split at h
  · cases h; exact .inl rfl
  · next ps hps =>
    obtain ⟨hnd, _, h4, h5, h6, _⟩ := split_spec delayed column rows hlen hs ps hps
    split at h
    · cases h; exact .inl rfl
    · next bs hbs =>
      have hflat := batches_flatten ps npartitions bs hbs
      have hflat' : (bs.map fun b => b.map (task rows)).flatten = ps.map (task rows) := by
        rw [← hflat, List.map_flatten]
      have hkeys : (ps.map (task rows)).map (·.1) = ps.map (·.1) := by
        rw [List.map_map]; rfl
      have hspec := runBatches_spec merge (bs.map fun b => b.map (task rows)) st
        (by rw [hflat', hkeys]; exact hnd)
      rw [hflat', hkeys] at hspec
      split at h
      · cases h
      · next st1 e1 hr =>
        cases h
        rw [hr] at hspec
        by_cases hk : k ∈ ps.map (·.1)
        · obtain ⟨p, hp, rfl⟩ := List.mem_map.1 hk
          rcases hspec.2 (task rows p) (List.mem_map_of_mem hp) with h | h
          · right
            rw [← h4 p hp]
            exact ⟨h6 p hp, h⟩
          · exact .inl h.2
        · exact .inl (hspec.1 k hk)

/-- C22 is violated by the code: the eager split accepts the keys 1, 2, 1 and the last record
goes to partition 2. -/
theorem C22_counterexample : ¬ C22_full := by
  intro h
  have h1 := (h Nat none none false [[1], [2], [1]] [10, 20, 30] (fun _ => none)
    (insert none none false [[1], [2], [1]] [10, 20, 30] (fun _ => none)).1 [[1], [2]] rfl
    (Prod.ext rfl (by decide +kernel)) [2]).2 (by decide +kernel)
  revert h1
  simp only [Effect]
  decide +kernel

/-- C22: loading gives the records of all the partitions in the order of the keys. -/
theorem C22_load (st : Store R) (f : Key → List R) (listing : List Key)
    (hl : Lists st listing) (hf : ∀ k, st k ≠ none → st k = some (f k)) :
    load st listing = .ok (if listing = [] then none else some (listing.flatMap f)) := by
  cases listing with
  | nil => rfl
  | cons k t =>
    simp only [load, readAll_spec st f (k :: t) fun x hx => hf x ((hl.exact x).1 hx), bind,
      Except.bind, pure, Except.pure]
    simp

/-- C22: after the insertion into an empty collection, `load` returns the inserted dataset. -/
theorem C22_roundtrip_partial (merge : Option (Merge R)) (npartitions : Option Int)
    (delayed : Bool) (column : List Key) (rows : List R) (st' : Store R) (ks : List Key)
    (listing : List Key) (hlen : column.length = rows.length)
    (hs : delayed = true ∨ KeysSorted column)
    (h : insert merge npartitions delayed column rows (fun _ => none) = (st', .ok ks))
    (hl : Lists st' listing) (hne : rows ≠ []) :
    load st' listing = .ok (some rows) := by
  obtain ⟨h1, h2, h3⟩ := C22_insert_partial merge npartitions delayed column rows _ st' ks hlen hs h
  have hst : ∀ k, st' k ≠ none → st' k = some (rowsOf column rows k) := by
    intro k hk
    by_cases hr : rowsOf column rows k = []
    · exact absurd ((h1 k).1 hr) hk
    · exact (h1 k).2 hr
  have hks : listing = ks := by
    apply sorted_unique hl.sorted h2
    intro k
    rw [hl.exact, h3]
    constructor
    · intro hk hr; exact hk ((h1 k).1 hr)
    · intro hr hn
      have : st' k = some (rowsOf column rows k) := (h1 k).2 hr
      rw [this] at hn
      cases hn
  rw [C22_load st' (rowsOf column rows) listing hl hst]
  have hcat : listing.flatMap (rowsOf column rows) = rows := by
    rw [hks]
    unfold Coll.insert at h
    split at h
    · cases h
    · next ps hps =>
      obtain ⟨_, _, h4, _, _, hch⟩ := split_spec delayed column rows hlen hs ps hps
      have hksps : ks = ps.map (·.1) := by
        split at h
        · cases h
        · split at h
          · cases h; rfl
          · cases h
      have := C09_concat rows (ps.map (·.2)) (by rw [← hlen]; exact hch)
      refine Eq.trans ?_ this
      rw [hksps, List.flatMap, List.map_map, List.map_map]
      congr 1
      apply List.map_congr_left
      intro p hp
      have := h4 p hp
      simp only [task] at this
      simp only [Function.comp_apply]
      exact this.symm
  rw [hcat]
  have : listing ≠ [] := by
    rintro rfl
    simp at hcat
    exact hne hcat
  simp [this]

/-- The content of a partition after successive insertions that overwrite: the records of the
last dataset that has records of this key. -/
def lastInserted (k : Key) : List (List Key × List R) → Option (List R) → Option (List R)
  | [], old => old
  | d :: t, old =>
    lastInserted k t (if rowsOf d.1 d.2 k = [] then old else some (rowsOf d.1 d.2 k))

/-- Successive insertions, all without error. -/
inductive Inserts (npartitions : Option Int) (delayed : Bool) :
    Store R → List (List Key × List R) → Store R → Prop
  | nil (st) : Inserts npartitions delayed st [] st
  | cons (st st' st'' d t ks) : d.1.length = d.2.length → (delayed = true ∨ KeysSorted d.1) →
      insert none npartitions delayed d.1 d.2 st = (st', .ok ks) →
      Inserts npartitions delayed st' t st'' → Inserts npartitions delayed st (d :: t) st''

/-- C22: any number of successive insertions. -/
theorem C22_history_partial (npartitions : Option Int) (delayed : Bool) (st st' : Store R)
    (ds : List (List Key × List R)) (h : Inserts npartitions delayed st ds st') (k : Key) :
    st' k = lastInserted k ds (st k) := by
  induction h with
  | nil st => rfl
  | cons st st1 st2 d t ks hlen hs hi _ ih =>
    rw [ih, lastInserted]
    congr 1
    obtain ⟨h1, _⟩ := C22_insert_partial none npartitions delayed d.1 d.2 st st1 ks hlen hs hi
    by_cases hr : rowsOf d.1 d.2 k = []
    · rw [if_pos hr, (h1 k).1 hr]
    · rw [if_neg hr]
      have := (h1 k).2 hr
      unfold Effect at this
      cases hk : st k <;> rw [hk] at this <;> exact this

/-- C22: sorted keys with a positive number of partitions are inserted without error when
nothing has to be merged. -/
theorem C22_accepted (npartitions : Option Int) (delayed : Bool) (column : List Key)
    (rows : List R) (st : Store R) (hne : column ≠ []) (hs : KeysSorted column)
    (hn : ∀ n, npartitions = some n → 1 ≤ n) :
    ∃ st' ks, insert none npartitions delayed column rows st = (st', .ok ks) := by
  obtain ⟨ps, hps⟩ := C11_sorted_accepted_rows column delayed hne hs
  have hpne : ps ≠ [] := by
    rintro rfl
    have := C09_cover_rows column delayed [] hps
    simp only [List.map_nil, Chain] at this
    exact hne (List.length_eq_zero_iff.1 this.symm)
  obtain ⟨bs, hbs⟩ : ∃ bs, Batches.insertBatches ps npartitions = .ok bs := by
    cases npartitions with
    | none =>
      obtain ⟨bs, h, _⟩ := C19_split_sequence ps none hpne (by simp)
      exact ⟨bs, h⟩
    | some n =>
      obtain ⟨bs, h, _⟩ := C19_insert_batches ps n hpne (hn n rfl)
      exact ⟨bs, h⟩
  have hone : ∀ (st : Store R) t, ∃ st', insertOne none st t = .ok st' := by
    intro st t
    unfold insertOne
    cases st t.1 <;> exact ⟨_, rfl⟩
  have hb : ∀ (b : List (Key × List R)) (st : Store R), (runBatch none st b).2 = none := by
    intro b
    induction b with
    | nil => intro st; rfl
    | cons t ts ih =>
      intro st
      obtain ⟨st', h⟩ := hone st t
      simp only [runBatch, h]
      exact ih st'
  have hbs' : ∀ (bs : List (List (Key × List R))) (st : Store R),
      (runBatches none st bs).2 = none := by
    intro bs
    induction bs with
    | nil => intro st; rfl
    | cons b bs ih =>
      intro st
      have := hb b st
      simp only [runBatches]
      generalize runBatch none st b = r at *
      obtain ⟨st', e⟩ := r
      simp only at this
      subst this
      exact ih st'
  have := hbs' (bs.map fun b => b.map (task rows)) st
  unfold Coll.insert
  simp only [hps, hbs]
  generalize runBatches none st (bs.map fun b => b.map (task rows)) = r at *
  obtain ⟨st', e⟩ := r
  simp only at this
  subst this
  exact ⟨st', _, rfl⟩

example : KeysSorted [[1], [1], [2]] ∧
    (insert none (some 2) true [[1], [1], [2]] [10, 20, 30] (fun _ => none)).2
      = .ok [[1], [2]] ∧
    (insert none (some 2) true [[1], [1], [2]] [10, 20, 30] (fun _ => none)).1 [1]
      = some [10, 20] := by
  refine ⟨by unfold KeysSorted; decide, by decide +kernel, by decide +kernel⟩

/-- An empty dataset loaded eagerly cannot be inserted: instead of doing nothing, the call
raises `ValueError`. -/
theorem C22_empty_raises (merge : Option (Merge R)) (st : Store R) :
    insert merge none false [] [] st = (st, .error .valueError) := rfl

/-! ### C23 -/

/-- C23: whatever the order, the batches and the assignment to workers, insertions that do not
raise give the same collection. -/
theorem C23_order_irrelevant (merge : Option (Merge R)) (st st1 st2 : Store R)
    (tasks : List (Key × List R)) (hnd : (tasks.map (·.1)).Nodup)
    (b1 b2 : List (List (Key × List R))) (h1 : Schedule tasks b1) (h2 : Schedule tasks b2)
    (r1 : runBatches merge st b1 = (st1, none)) (r2 : runBatches merge st b2 = (st2, none)) :
    st1 = st2 := by
  have s1 := runBatches_spec merge b1 st ((h1.map _).nodup_iff.2 hnd)
  have s2 := runBatches_spec merge b2 st ((h2.map _).nodup_iff.2 hnd)
  rw [r1] at s1
  rw [r2] at s2
  funext k
  by_cases hk : k ∈ tasks.map (·.1)
  · obtain ⟨t, ht, rfl⟩ := List.mem_map.1 hk
    have e1 := (s1.2 t (h1.mem_iff.2 ht)).resolve_right (by simp)
    have e2 := (s2.2 t (h2.mem_iff.2 ht)).resolve_right (by simp)
    exact effect_unique e1 e2
  · have e1 := s1.1 k fun hc => hk ((h1.map (·.1)).mem_iff.1 hc)
    have e2 := s2.1 k fun hc => hk ((h2.map (·.1)).mem_iff.1 hc)
    simp only at e1 e2
    rw [e1, e2]

/-- C23: a schedule succeeds if and only if every other one does. -/
theorem C23_success_irrelevant (merge : Option (Merge R)) (st : Store R)
    (tasks : List (Key × List R)) (hnd : (tasks.map (·.1)).Nodup)
    (b1 b2 : List (List (Key × List R))) (h1 : Schedule tasks b1) (h2 : Schedule tasks b2)
    (r1 : (runBatches merge st b1).2 = none) : (runBatches merge st b2).2 = none := by
  -- a schedule succeeds iff each task succeeds in the initial state
  have hbatch : ∀ (b : List (Key × List R)) (st : Store R), (b.map (·.1)).Nodup →
      ((runBatch merge st b).2 = none ↔ ∀ t ∈ b, ∃ n, Effect merge (st t.1) t.2 n) := by
    intro b
    induction b with
    | nil => intro st _; simp [runBatch]
    | cons t ts ih =>
      intro st hnd
      rw [List.map_cons, List.nodup_cons] at hnd
      simp only [runBatch]
      cases h : insertOne merge st t with
      | ok st' =>
        obtain ⟨e1, e2⟩ := insertOne_spec merge st st' t h
        simp only
        rw [ih st' hnd.2]
        constructor
        · intro hx u hu
          rcases List.mem_cons.1 hu with rfl | hu2
          · exact ⟨_, e1⟩
          · have := hx u hu2
            rwa [e2 u.1 fun hc => hnd.1 (hc ▸ List.mem_map_of_mem hu2)] at this
        · intro hx u hu2
          rw [e2 u.1 fun hc => hnd.1 (hc ▸ List.mem_map_of_mem hu2)]
          exact hx u (by simp [hu2])
      | error e =>
        simp only [reduceCtorEq, false_iff]
        intro hx
        obtain ⟨n, hn⟩ := hx t (by simp)
        unfold insertOne at h
        unfold Effect at hn
        cases hs : st t.1 with
        | none => rw [hs] at h; cases h
        | some o =>
          rw [hs] at h hn
          cases merge with
          | none => cases h
          | some f =>
            obtain ⟨m, hm, _⟩ := hn
            simp [Coll.merged, hm, bind, Except.bind, pure, Except.pure] at h
  have hbatches : ∀ (bs : List (List (Key × List R))) (st : Store R),
      (bs.flatten.map (·.1)).Nodup →
      ((runBatches merge st bs).2 = none ↔
        ∀ t ∈ bs.flatten, ∃ n, Effect merge (st t.1) t.2 n) := by
    intro bs
    induction bs with
    | nil => intro st _; simp [runBatches]
    | cons b bs ih =>
      intro st hnd
      rw [List.flatten_cons, List.map_append, List.nodup_append] at hnd
      have hb := hbatch b st hnd.1
      have hb' := runBatch_spec merge b st hnd.1
      simp only [runBatches]
      generalize runBatch merge st b = r at *
      obtain ⟨st', e⟩ := r
      cases e with
      | none =>
        simp only [true_iff] at hb
        simp only
        rw [ih st' hnd.2.1]
        have hsame : ∀ t ∈ bs.flatten, st' t.1 = st t.1 := fun t ht =>
          hb'.1 t.1 fun hc => hnd.2.2 _ hc _ (List.mem_map_of_mem ht) rfl
        constructor
        · intro hx t ht
          rw [List.flatten_cons, List.mem_append] at ht
          rcases ht with ht | ht
          · exact hb t ht
          · rw [← hsame t ht]; exact hx t ht
        · intro hx t ht
          rw [hsame t ht]
          exact hx t (by rw [List.flatten_cons, List.mem_append]; exact .inr ht)
      | some e =>
        simp only [reduceCtorEq, false_iff] at hb ⊢
        intro hx
        exact hb fun t ht => hx t (by rw [List.flatten_cons, List.mem_append]; exact .inl ht)
  rw [hbatches b1 st ((h1.map _).nodup_iff.2 hnd)] at r1
  rw [hbatches b2 st ((h2.map _).nodup_iff.2 hnd)]
  intro t ht
  exact r1 t (h1.mem_iff.2 (h2.mem_iff.1 ht))

example : Schedule [([1], [10]), ([2], [20])] [[([2], [20])], [([1], [10])]] ∧
    Schedule [([1], [10]), ([2], [20])] [[([1], [10]), ([2], [20])]] := by
  exact ⟨List.Perm.swap _ _ _, List.Perm.refl _⟩

/-! ### C29 -/

theorem removeFolders_ok (fails : Key → Option PyErr) (l : List Key) (st : Store R)
    (k : Key) (h : fails k = none) :
    (removeFolders fails st l).1 k = if k ∈ l then none else st k := by
  induction l generalizing st with
  | nil => simp [removeFolders]
  | cons x t ih =>
    simp only [removeFolders]
    cases hx : fails x with
    | none =>
      simp only
      rw [ih]
      by_cases h1 : k ∈ t <;> by_cases h2 : k = x <;> simp [h1, h2]
    | some e =>
      simp only
      rw [ih]
      have : k ≠ x := fun hc => by rw [hc, hx] at h; cases h
      by_cases h1 : k ∈ t <;> simp [h1, this]

theorem removeFolders_fail (fails : Key → Option PyErr) (l : List Key) (st : Store R)
    (k : Key) (e : PyErr) (h : fails k = some e) : (removeFolders fails st l).1 k = st k := by
  induction l generalizing st with
  | nil => simp [removeFolders]
  | cons x t ih =>
    simp only [removeFolders]
    cases hx : fails x with
    | none =>
      simp only
      rw [ih]
      have : k ≠ x := fun hc => by rw [hc, hx] at h; cases h
      simp [this]
    | some e' => exact ih st

theorem removeFolders_error (fails : Key → Option PyErr) (l : List Key) (st : Store R) :
    (removeFolders fails st l).2 = none ↔ ∀ k ∈ l, fails k = none := by
  induction l generalizing st with
  | nil => simp [removeFolders]
  | cons x t ih =>
    simp only [removeFolders]
    cases hx : fails x with
    | none => simp only; rw [ih]; simp [hx]
    | some e => simp [hx]

/-- Age of a partition and delay, in absolute time. -/
def Older (now created : Int) (timedelta : Option Int) : Prop :=
  ∀ d, timedelta = some d → now - created > d

/-- C29, full statement. -/
def C29_full : Prop :=
  ∀ (R : Type) (folders : List Key) (timedelta : Option Int) (clock : Clock) (offset now : Int)
    (created : Key → Int) (st : Store R),
    let r := dropPartitions folders timedelta clock offset now created (fun _ => none) st
    (∃ l, r.2 = .ok l ∧ ∀ k, k ∈ l ↔ k ∈ folders ∧ Older now (created k) timedelta) ∧
    ∀ k, (k ∈ folders ∧ Older now (created k) timedelta → r.1 k = none) ∧
      (¬ (k ∈ folders ∧ Older now (created k) timedelta) → r.1 k = st k)

/-- C29: exactly the selected partitions older than the delay are removed and returned, and
everything else is unchanged; if some removals fail, the call raises, the failed ones are
unchanged and the other selected ones are removed.  Missing: with a delay, the file system
must give local times, or local time must be UTC. -/
theorem C29_drop_partial (folders : List Key) (timedelta : Option Int) (clock : Clock)
    (offset now : Int) (created : Key → Int) (fails : Key → Option PyErr) (st : Store R)
    (hclock : timedelta = none ∨ clock = .localTime ∨ offset = 0) :
    let r := dropPartitions folders timedelta clock offset now created fails st
    (∀ k, (k ∈ folders ∧ Older now (created k) timedelta ∧ fails k = none → r.1 k = none) ∧
      (¬ (k ∈ folders ∧ Older now (created k) timedelta ∧ fails k = none) → r.1 k = st k)) ∧
    ((∀ k ∈ folders, Older now (created k) timedelta → fails k = none) →
      ∃ l, r.2 = .ok l ∧ l.Sublist folders ∧
        ∀ k, k ∈ l ↔ k ∈ folders ∧ Older now (created k) timedelta) ∧
    ((∃ k ∈ folders, Older now (created k) timedelta ∧ fails k ≠ none) →
      ∃ e, r.2 = .error e) := by
  have holder : ∀ d, timedelta = some d → ∀ k,
      createdBefore clock offset now (created k) d = true ↔ Older now (created k) timedelta := by
    rintro d rfl k
    simp only [createdBefore, Older, decide_eq_true_eq]
    constructor
    · intro h d' hd'
      cases hd'
      rcases hclock with h' | rfl | rfl
      · cases h'
      · simp only at h; omega
      · cases clock <;> simp only at h <;> omega
    · intro h
      have := h d rfl
      rcases hclock with h' | rfl | rfl
      · cases h'
      · simp only; omega
      · cases clock <;> simp only <;> omega
  cases folders with
  | nil =>
    refine ⟨fun k => ⟨by simp, fun _ => rfl⟩, fun _ => ⟨[], rfl, List.Sublist.refl _, by simp⟩,
      by simp⟩
  | cons x t =>
    have hsel : ∃ sel : List Key, sel.Sublist (x :: t) ∧
        (∀ k, k ∈ sel ↔ k ∈ x :: t ∧ Older now (created k) timedelta) ∧
        dropPartitions (x :: t) timedelta clock offset now created fails st =
          (match removeFolders fails st sel with
            | (st', none) => (st', .ok sel)
            | (st', some e) => (st', .error e)) := by
      cases timedelta with
      | none => exact ⟨x :: t, List.Sublist.refl _, fun k => by simp [Older], rfl⟩
      | some d =>
        refine ⟨(x :: t).filter fun k => createdBefore clock offset now (created k) d,
          List.filter_sublist, ?_, rfl⟩
        intro k
        rw [List.mem_filter, holder d rfl]
    obtain ⟨sel, hsub, hmem, hr⟩ := hsel
    have e1 := fun k h => removeFolders_ok fails sel st k h
    have e2 := fun k e h => removeFolders_fail fails sel st k e h
    have e3 := removeFolders_error fails sel st
    simp only
    rw [hr]
    generalize removeFolders fails st sel = res at *
    obtain ⟨st', err⟩ := res
    have hstate : ∀ k, (k ∈ x :: t ∧ Older now (created k) timedelta ∧ fails k = none →
        st' k = none) ∧ (¬ (k ∈ x :: t ∧ Older now (created k) timedelta ∧ fails k = none) →
        st' k = st k) := by
      intro k
      cases hf : fails k with
      | none =>
        have := e1 k hf
        simp only at this
        rw [this]
        constructor
        · rintro ⟨ha, hb, _⟩; rw [if_pos ((hmem k).2 ⟨ha, hb⟩)]
        · intro h; rw [if_neg fun hc => h ⟨((hmem k).1 hc).1, ((hmem k).1 hc).2, rfl⟩]
      | some e =>
        exact ⟨fun h => by simp at h, fun _ => e2 k e hf⟩
    cases err with
    | none =>
      simp only [true_iff] at e3
      refine ⟨hstate, fun _ => ⟨sel, rfl, hsub, hmem⟩, ?_⟩
      rintro ⟨k, hk, ho, hf⟩
      exact absurd (e3 k ((hmem k).2 ⟨hk, ho⟩)) hf
    | some e =>
      refine ⟨hstate, ?_, fun _ => ⟨e, rfl⟩⟩
      intro h
      have := e3.2 fun k hk => h k ((hmem k).1 hk).1 ((hmem k).1 hk).2
      simp at this

/-- East of Greenwich, on a file system that gives times in UTC (as fsspec does for local
files), a partition that is 30 minutes old is removed by a call with a delay of one hour. -/
theorem C29_counterexample : ¬ C29_full := by
  intro h
  have := ((h Nat [[1]] (some 3600) .utc 7200 10000 (fun _ => 8200) (fun _ => some [5])).2 [1]).2
    (by
      rintro ⟨_, h2⟩
      have := h2 3600 rfl
      omega)
  revert this
  decide +kernel

/-- C29, the general form of the defect: with UTC creation times the delay is wrong by the
offset of the local time zone. -/
theorem C29_delay_shifted (offset now created delta : Int) :
    createdBefore .utc offset now created delta = true ↔ now - created > delta - offset := by
  simp only [createdBefore, decide_eq_true_eq]
  omega

example : (dropPartitions [[1], [2]] (some 3600) .localTime 7200 10000
    (fun k => if k = [1] then 0 else 9000) (fun _ => none)
    (fun k => if k = [1] ∨ k = [2] then some [5] else none)).2 = .ok [[1]] := by decide +kernel

end Verif
