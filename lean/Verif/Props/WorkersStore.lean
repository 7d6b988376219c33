import Verif.Props.Workers
import Verif.Props.Collection

/-! C61: an insertion executed by the workers of a cluster on the files refines the insertion of
`Verif/Model/Collection.lean`, on which C21, C22 and C23 are stated. -/

namespace Verif

open Spec Storage Work

variable {C R : Type}

/-- The records of a partition after its task. -/
def rowsAfter (merge : Option (Coll.Merge R)) (old : Option (List R)) (rows : List R) :
    Option (List R) :=
  match old with
  | none => some rows
  | some o =>
    match Coll.merged merge o rows with
    | .ok l => some l
    | .error _ => some o

/-- The exception raised by the task of a partition. -/
def raisedBy (merge : Option (Coll.Merge R)) (old : Option (List R)) (rows : List R) :
    Option PyErr :=
  match old with
  | none => none
  | some o =>
    match Coll.merged merge o rows with
    | .ok _ => none
    | .error e => some e

theorem insertOne_cases (merge : Option (Coll.Merge R)) (st : Coll.Store R)
    (t : Coll.Key × List R) :
    (∃ l, Coll.insertOne merge st t = .ok (Coll.put st t.1 l) ∧
      rowsAfter merge (st t.1) t.2 = some l ∧ raisedBy merge (st t.1) t.2 = none) ∨
    ∃ e, Coll.insertOne merge st t = .error e ∧ rowsAfter merge (st t.1) t.2 = st t.1 ∧
      raisedBy merge (st t.1) t.2 = some e := by
  unfold Coll.insertOne rowsAfter raisedBy
  cases h : st t.1 with
  | none => exact .inl ⟨t.2, rfl, rfl, rfl⟩
  | some o =>
    simp only
    cases hm : Coll.merged merge o t.2 with
    | ok l => exact .inl ⟨l, rfl, rfl, rfl⟩
    | error e => exact .inr ⟨e, rfl, rfl, rfl⟩

/-- A batch of tasks on distinct partitions. -/
theorem runBatch_exact (merge : Option (Coll.Merge R)) (tasks : List (Coll.Key × List R))
    (st : Coll.Store R) (hnd : (tasks.map (·.1)).Nodup) :
    (∀ k, k ∉ tasks.map (·.1) → (Coll.runBatch merge st tasks).1 k = st k) ∧
    (∀ t ∈ tasks, (Coll.runBatch merge st tasks).1 t.1 = rowsAfter merge (st t.1) t.2) ∧
    (Coll.runBatch merge st tasks).2 = tasks.findSome? fun t => raisedBy merge (st t.1) t.2 := by
  induction tasks generalizing st with
  | nil => exact ⟨fun _ _ => rfl, by simp, rfl⟩
  | cons t ts ih =>
    rw [List.map_cons, List.nodup_cons] at hnd
    have hne : ∀ u ∈ ts, u.1 ≠ t.1 := fun u hu he => hnd.1 (he ▸ List.mem_map_of_mem hu)
    simp only [Coll.runBatch]
    rcases insertOne_cases merge st t with ⟨l, h1, h2, h3⟩ | ⟨e, h1, h2, h3⟩
    · rw [h1]
      obtain ⟨i1, i2, i3⟩ := ih (Coll.put st t.1 l) hnd.2
      have hput : ∀ u ∈ ts, Coll.put st t.1 l u.1 = st u.1 := fun u hu => by
        simp [Coll.put, hne u hu]
      refine ⟨?_, ?_, ?_⟩
      · intro k hk
        simp only [List.map_cons, List.mem_cons, not_or] at hk
        rw [i1 k hk.2]
        simp [Coll.put, hk.1]
      · intro u hu
        rcases List.mem_cons.1 hu with rfl | hu
        · rw [i1 _ hnd.1, h2]; simp [Coll.put]
        · rw [i2 u hu, hput u hu]
      · rw [i3, List.findSome?_cons, h3]
        clear i1 i2 i3 ih hnd hne h1 h2 h3
        induction ts with
        | nil => rfl
        | cons u us ih =>
          rw [List.findSome?_cons, List.findSome?_cons, hput u (by simp),
            ih fun v hv => hput v (by simp [hv])]
    · rw [h1]
      obtain ⟨i1, i2, i3⟩ := ih st hnd.2
      refine ⟨?_, ?_, ?_⟩
      · intro k hk
        simp only [List.map_cons, List.mem_cons, not_or] at hk
        exact i1 k hk.2
      · intro u hu
        rcases List.mem_cons.1 hu with rfl | hu
        · rw [h2]; exact i1 _ hnd.1
        · exact i2 u hu
      · rw [List.findSome?_cons, h3]

/-! ### The files of one task -/

theorem merged_store {c : Codec C R} (merge : Option (Coll.Merge R)) (rows o : List R)
    {tree : Path → Option (Node C)} (h : c.decode tree = some o) :
    c.merged merge rows tree = (Coll.merged merge o rows).map c.encode := by
  unfold Codec.merged Coll.merged
  cases merge with
  | none => rfl
  | some f =>
    simp only [h]
    cases f o rows <;> rfl

theorem job_runnable {m : Machine C} {c : Codec C R} (hc : Faithful c) {root : Path} {fs : FS C}
    (merge : Option (Coll.Merge R)) (t : Coll.Key × List R) (hs : Sane m c root fs t.1) :
    Runnable m root fs (c.job merge t) where
  inserted := hc.valid t.2
  merged := by
    intro g hg
    simp only [Codec.job, Codec.merged] at hg
    split at hg
    · cases hg; exact hc.valid _
    · rename_i f
      split at hg
      · cases hg
      · rename_i o _
        cases hf : f o t.2 with
        | error e => rw [hf] at hg; cases hg
        | ok l => rw [hf] at hg; cases hg; exact hc.valid _
  dest := hs.dest
  temp := hs.temp

theorem store_agree {m : Machine C} {c : Codec C R} {root : Path} {a b : FS C} {k : Coll.Key}
    (h : Agree (region m root (c.path k)) a b) : c.store root a k = c.store root b k := by
  have hd := dest_mem m root (c.path k)
  unfold Codec.store
  rw [exists_agree hd h, sub_agree hd h]

theorem store_sub {c : Codec C R} {root : Path} {a b : FS C} {k : Coll.Key}
    (h : sub a (root ++ c.path k) = sub b (root ++ c.path k)) :
    c.store root a k = c.store root b k := by
  have hz := congrFun h [".zmetadata"]
  simp only [sub] at hz
  unfold Codec.store partitionExists
  rw [hz, h]

theorem sane_agree {m : Machine C} {c : Codec C R} {root : Path} {a b : FS C} {k : Coll.Key}
    (h : Agree (region m root (c.path k)) a b) (hs : Sane m c root b k) : Sane m c root a k := by
  have hd := dest_mem m root (c.path k)
  have ht := temp_mem m root (c.path k)
  refine ⟨?_, ?_, ?_⟩
  · rw [exists_agree hd h, sub_agree hd h]
    rcases hs.whole with k | k
    · exact .inl k
    · exact .inr fun q hq => (h q ⟨_, hd, hq⟩).trans (k q hq)
  · intro rel hrel
    rw [sub_agree hd h]
    exact hs.dest rel (by rw [← at_agree hd h]; exact hrel)
  · intro rel hrel
    rw [sub_agree ht h]
    exact hs.temp rel (by rw [← at_agree ht h]; exact hrel)

theorem store_holds {c : Codec C R} (hc : Faithful c) {root : Path} {s : FS C} {k : Coll.Key}
    {rows : List R} (h : Holds s (root ++ c.path k) (c.encode rows)) :
    c.store root s k = some rows := by
  unfold Codec.store
  rw [holds_partition h]
  simp only [Holds] at h
  rw [if_pos rfl, h]
  exact hc.read rows

theorem raises_store {m : Machine C} {c : Codec C R} {root : Path} {fs : FS C}
    (merge : Option (Coll.Merge R)) (t : Coll.Key × List R) (hs : Sane m c root fs t.1) :
    (c.job merge t).raises root fs = raisedBy merge (c.store root fs t.1) t.2 := by
  rcases hs.whole with ⟨hex, hdec⟩ | hnew
  · obtain ⟨o, ho⟩ := Option.isSome_iff_exists.1 hdec
    have hst : c.store root fs t.1 = some o := by simp [Codec.store, hex, ho]
    simp only [Job.raises, Codec.job, hex, if_true, hst, raisedBy, merged_store merge t.2 o ho]
    cases Coll.merged merge o t.2 <;> rfl
  · have hn : ∀ rel, fs (root ++ c.path t.1 ++ rel) = none :=
      fun rel => hnew _ (List.prefix_append _ _)
    have hst : c.store root fs t.1 = none := by
      simp only [Codec.store, partitionExists, hn]; simp
    rw [hst]
    simp only [Job.raises, Codec.job, partitionExists, hn, raisedBy]
    simp

theorem placed_sub {m : Machine C} {root : Path} {a b : List Path} (h : Placed m root b)
    (hsub : ∀ p ∈ a, p ∈ b) (hnd : a.Nodup) : Placed m root a :=
  ⟨fun p hp => h.keys p (hsub p hp),
    fun p hp q hq => h.depth p (hsub p hp) q (hsub q hq), hnd, h.hash,
    fun p hp q hq => h.distinct p (hsub p hp) q (hsub q hq)⟩

theorem path_inj {c : Codec C R} {keys : List Coll.Key} (hnd : (keys.map c.path).Nodup)
    {k k' : Coll.Key} (hk : k ∈ keys) (hk' : k' ∈ keys) (h : c.path k = c.path k') : k = k' := by
  obtain ⟨i, hi⟩ := List.getElem?_of_mem hk
  obtain ⟨j, hj⟩ := List.getElem?_of_mem hk'
  obtain ⟨li, ei⟩ := List.getElem?_eq_some_iff.1 hi
  obtain ⟨lj, ej⟩ := List.getElem?_eq_some_iff.1 hj
  have : (keys.map c.path)[i]'(by simpa using li) = (keys.map c.path)[j]'(by simpa using lj) := by
    simp [ei, ej, h]
  have hij := (List.getElem_inj hnd).1 this
  subst hij
  exact ei.symm.trans ej

theorem tasks_placed {m : Machine C} {c : Codec C R} {root : Path} {keys : List Coll.Key}
    (hl : Placed m root (keys.map c.path)) (merge : Option (Coll.Merge R))
    {tasks : List (Coll.Key × List R)} (hsub : ∀ t ∈ tasks, t.1 ∈ keys)
    (hnd : (tasks.map (·.1)).Nodup) :
    Placed m root ((tasks.map (c.job merge)).map (·.parts)) := by
  have he : (tasks.map (c.job merge)).map (·.parts) = (tasks.map (·.1)).map c.path := by
    simp [List.map_map, Codec.job, Function.comp_def]
  rw [he]
  have hs' : ∀ k ∈ tasks.map (·.1), k ∈ keys := by
    intro k hk
    obtain ⟨t, ht, rfl⟩ := List.mem_map.1 hk
    exact hsub t ht
  refine placed_sub hl (fun p hp => ?_) ?_
  · obtain ⟨k, hk, rfl⟩ := List.mem_map.1 hp
    exact List.mem_map_of_mem (hs' k hk)
  · unfold List.Nodup at hnd ⊢
    rw [List.pairwise_map] at hnd ⊢
    rw [List.pairwise_map]
    refine hnd.imp_of_mem ?_
    intro a b ha hb hab he
    exact hab (path_inj hl.nodup (hsub a ha) (hsub b hb) he)

/-! ### A batch -/

/-- C61: what a reader finds after a batch of tasks executed by the workers of a cluster, in any
order of their turns, is what the tasks give one after the other; the exception is the same. -/
theorem C61_batch (m : Machine C) (c : Codec C R) (hc : Faithful c) (root : Path)
    (keys : List Coll.Key) (hl : Placed m root (keys.map c.path))
    (merge : Option (Coll.Merge R)) (tasks : List (Coll.Key × List R)) (fs : FS C)
    (schedule : List Nat) (hsub : ∀ t ∈ tasks, t.1 ∈ keys) (hnd : (tasks.map (·.1)).Nodup)
    (hs : ∀ t ∈ tasks, Sane m c root fs t.1)
    (hfin : finished (exec ((tasks.map (c.job merge)).map (Job.program m root)) fs schedule)) :
    (∀ k ∈ keys, c.store root
        (exec ((tasks.map (c.job merge)).map (Job.program m root)) fs schedule).fs k =
      (Coll.runBatch merge (c.store root fs) tasks).1 k) ∧
    (tasks.map (c.job merge)).findSome? (fun j => j.raises root fs) =
      (Coll.runBatch merge (c.store root fs) tasks).2 := by
  obtain ⟨e1, e2, e3⟩ := runBatch_exact merge tasks (c.store root fs) hnd
  have hp := tasks_placed hl merge hsub hnd
  have hrun : ∀ j ∈ tasks.map (c.job merge), Runnable m root fs j := by
    intro j hj
    obtain ⟨t, ht, rfl⟩ := List.mem_map.1 hj
    exact job_runnable hc merge t (hs t ht)
  refine ⟨?_, ?_⟩
  · intro k hk
    by_cases hin : k ∈ tasks.map (·.1)
    · obtain ⟨t, ht, rfl⟩ := List.mem_map.1 hin
      rw [e2 t ht]
      have hj : c.job merge t ∈ tasks.map (c.job merge) := List.mem_map_of_mem ht
      obtain ⟨f1, f2, f3, _⟩ := C61_finished m root _ fs schedule hp hrun hfin _ hj
      rcases (hs t ht).whole with ⟨hex, hdec⟩ | hnew
      · obtain ⟨o, ho⟩ := Option.isSome_iff_exists.1 hdec
        have hst : c.store root fs t.1 = some o := by simp [Codec.store, hex, ho]
        have hmg : (c.job merge t).merged (sub fs (root ++ (c.job merge t).parts)) =
            (Coll.merged merge o t.2).map c.encode := merged_store merge t.2 o ho
        rw [hst]
        simp only [rowsAfter]
        cases hm : Coll.merged merge o t.2 with
        | ok l =>
          rw [hm] at hmg
          exact store_holds hc (f1 _ hex hmg).1.1
        | error e =>
          rw [hm] at hmg
          have hsame := (f2 _ hex hmg).1
          simp only
          rw [← hst]
          exact store_sub hsame
      · have hst : c.store root fs t.1 = none := by
          have hn : ∀ rel, fs (root ++ c.path t.1 ++ rel) = none :=
            fun rel => hnew _ (List.prefix_append _ _)
          simp only [Codec.store, partitionExists, hn]; simp
        rw [hst]
        exact store_holds hc (f3 hnew).1
    · rw [e1 k hin]
      refine store_agree (m := m) (C61_others m root _ fs schedule (c.path k) ?_ hrun)
      have hnot : c.path k ∉ (tasks.map (c.job merge)).map (·.parts) := by
        intro hc'
        rw [List.map_map] at hc'
        obtain ⟨t, ht, he⟩ := List.mem_map.1 hc'
        exact hin (path_inj hl.nodup hk (hsub t ht) he.symm ▸ List.mem_map_of_mem ht)
      refine placed_sub hl ?_ (List.nodup_cons.2 ⟨hnot, hp.nodup⟩)
      intro p hpm
      rcases List.mem_cons.1 hpm with rfl | hpm
      · exact List.mem_map_of_mem hk
      · rw [List.map_map] at hpm
        obtain ⟨t, ht, rfl⟩ := List.mem_map.1 hpm
        exact List.mem_map_of_mem (hsub t ht)
  · rw [e3, List.findSome?_map]
    clear e1 e2 e3 hp hrun hfin hnd hsub
    induction tasks with
    | nil => rfl
    | cons t ts ih =>
      rw [List.findSome?_cons, List.findSome?_cons, ih fun u hu => hs u (by simp [hu])]
      simp only [Function.comp]
      rw [raises_store merge t (hs t (by simp))]

/-! ### The batches of an insertion -/

theorem runBatch_congr (merge : Option (Coll.Merge R)) {keys : List Coll.Key}
    {tasks : List (Coll.Key × List R)} (hsub : ∀ t ∈ tasks, t.1 ∈ keys)
    (hnd : (tasks.map (·.1)).Nodup) {a b : Coll.Store R} (h : ∀ k ∈ keys, a k = b k) :
    (∀ k ∈ keys, (Coll.runBatch merge a tasks).1 k = (Coll.runBatch merge b tasks).1 k) ∧
    (Coll.runBatch merge a tasks).2 = (Coll.runBatch merge b tasks).2 := by
  obtain ⟨a1, a2, a3⟩ := runBatch_exact merge tasks a hnd
  obtain ⟨b1, b2, b3⟩ := runBatch_exact merge tasks b hnd
  refine ⟨?_, ?_⟩
  · intro k hk
    by_cases hin : k ∈ tasks.map (·.1)
    · obtain ⟨t, ht, rfl⟩ := List.mem_map.1 hin
      rw [a2 t ht, b2 t ht, h _ hk]
    · rw [a1 k hin, b1 k hin, h k hk]
  · rw [a3, b3]
    clear a1 a2 a3 b1 b2 b3 hnd
    induction tasks with
    | nil => rfl
    | cons t ts ih =>
      rw [List.findSome?_cons, List.findSome?_cons, h _ (hsub t (by simp)),
        ih fun u hu => hsub u (by simp [hu])]

theorem runBatches_congr (merge : Option (Coll.Merge R)) {keys : List Coll.Key}
    (batches : List (List (Coll.Key × List R))) (hsub : ∀ t ∈ batches.flatten, t.1 ∈ keys)
    (hnd : (batches.flatten.map (·.1)).Nodup) {a b : Coll.Store R} (h : ∀ k ∈ keys, a k = b k) :
    (∀ k ∈ keys, (Coll.runBatches merge a batches).1 k = (Coll.runBatches merge b batches).1 k) ∧
    (Coll.runBatches merge a batches).2 = (Coll.runBatches merge b batches).2 := by
  induction batches generalizing a b with
  | nil => exact ⟨h, rfl⟩
  | cons t ts ih =>
    rw [List.flatten_cons, List.map_append, List.nodup_append] at hnd
    obtain ⟨c1, c2⟩ := runBatch_congr merge
      (fun u hu => hsub u (by simp [hu])) hnd.1 h
    simp only [Coll.runBatches]
    generalize Coll.runBatch merge a t = ra at *
    generalize Coll.runBatch merge b t = rb at *
    obtain ⟨sa, ea⟩ := ra
    obtain ⟨sb, eb⟩ := rb
    simp only at c1 c2
    subst c2
    cases ea with
    | none => exact ih (fun u hu => hsub u (by
        rw [List.flatten_cons]; exact List.mem_append_right _ hu)) hnd.2.1 c1
    | some e => exact ⟨c1, rfl⟩

/-- A batch leaves the directories of the partitions of the other batches as they are. -/
theorem sane_after {m : Machine C} {c : Codec C R} (hc : Faithful c) {root : Path}
    {keys : List Coll.Key} (hl : Placed m root (keys.map c.path))
    (merge : Option (Coll.Merge R)) {tasks : List (Coll.Key × List R)} {fs : FS C}
    (schedule : List Nat) (hsub : ∀ t ∈ tasks, t.1 ∈ keys) (hnd : (tasks.map (·.1)).Nodup)
    (hs : ∀ t ∈ tasks, Sane m c root fs t.1) {k : Coll.Key} (hk : k ∈ keys)
    (hin : k ∉ tasks.map (·.1)) :
    Agree (region m root (c.path k))
      (exec ((tasks.map (c.job merge)).map (Job.program m root)) fs schedule).fs fs := by
  have hp := tasks_placed hl merge hsub hnd
  have hrun : ∀ j ∈ tasks.map (c.job merge), Runnable m root fs j := by
    intro j hj
    obtain ⟨t, ht, rfl⟩ := List.mem_map.1 hj
    exact job_runnable hc merge t (hs t ht)
  refine C61_others m root _ fs schedule (c.path k) ?_ hrun
  have hnot : c.path k ∉ (tasks.map (c.job merge)).map (·.parts) := by
    intro hc'
    rw [List.map_map] at hc'
    obtain ⟨t, ht, he⟩ := List.mem_map.1 hc'
    exact hin (path_inj hl.nodup hk (hsub t ht) he.symm ▸ List.mem_map_of_mem ht)
  refine placed_sub hl ?_ (List.nodup_cons.2 ⟨hnot, hp.nodup⟩)
  intro p hpm
  rcases List.mem_cons.1 hpm with rfl | hpm
  · exact List.mem_map_of_mem hk
  · rw [List.map_map] at hpm
    obtain ⟨t, ht, rfl⟩ := List.mem_map.1 hpm
    exact List.mem_map_of_mem (hsub t ht)

/-- C61: the batches of an insertion, executed on the files one after the other, give what the
batches give on the store; the exception is the same. -/
theorem C61_batches (m : Machine C) (c : Codec C R) (hc : Faithful c) (root : Path)
    (keys : List Coll.Key) (hl : Placed m root (keys.map c.path))
    (merge : Option (Coll.Merge R)) (batches : List (List (Coll.Key × List R))) (fs fs' : FS C)
    (e : Option PyErr) (hsub : ∀ t ∈ batches.flatten, t.1 ∈ keys)
    (hnd : (batches.flatten.map (·.1)).Nodup)
    (hs : ∀ t ∈ batches.flatten, Sane m c root fs t.1)
    (h : Work.Batches m c root merge fs batches fs' e) :
    (∀ k ∈ keys, c.store root fs' k = (Coll.runBatches merge (c.store root fs) batches).1 k) ∧
    e = (Coll.runBatches merge (c.store root fs) batches).2 := by
  induction h with
  | done fs => exact ⟨fun _ _ => rfl, rfl⟩
  | next fs fs' b t schedule e hfin hok hrest ih =>
    rw [List.flatten_cons, List.map_append, List.nodup_append] at hnd
    have hsb : ∀ u ∈ b, u.1 ∈ keys := fun u hu => hsub u (by simp [hu])
    have hst : ∀ u ∈ t.flatten, u.1 ∈ keys := fun u hu => hsub u (by
      rw [List.flatten_cons]; exact List.mem_append_right _ hu)
    have hsn : ∀ u ∈ b, Sane m c root fs u.1 := fun u hu => hs u (by simp [hu])
    obtain ⟨b1, b2⟩ := C61_batch m c hc root keys hl merge b fs schedule hsb hnd.1 hsn hfin
    rw [hok] at b2
    obtain ⟨i1, i2⟩ := ih hst hnd.2.1 (by
      intro u hu
      refine sane_agree (sane_after hc hl merge schedule hsb hnd.1 hsn (hst u hu) ?_)
        (hs u (by rw [List.flatten_cons]; exact List.mem_append_right _ hu))
      intro hin
      exact hnd.2.2 _ hin _ (List.mem_map_of_mem hu) rfl)
    obtain ⟨c1, c2⟩ := runBatches_congr merge t hst hnd.2.1 b1
    simp only [Coll.runBatches]
    generalize hr : Coll.runBatch merge (c.store root fs) b = r at *
    obtain ⟨sr, er⟩ := r
    simp only at b2 c1 c2
    subst b2
    exact ⟨fun k hk => (i1 k hk).trans (c1 k hk), i2.trans c2⟩
  | stop fs b t schedule e hfin herr =>
    rw [List.flatten_cons, List.map_append, List.nodup_append] at hnd
    have hsb : ∀ u ∈ b, u.1 ∈ keys := fun u hu => hsub u (by simp [hu])
    have hsn : ∀ u ∈ b, Sane m c root fs u.1 := fun u hu => hs u (by simp [hu])
    obtain ⟨b1, b2⟩ := C61_batch m c hc root keys hl merge b fs schedule hsb hnd.1 hsn hfin
    rw [herr] at b2
    simp only [Coll.runBatches]
    generalize hr : Coll.runBatch merge (c.store root fs) b = r at *
    obtain ⟨sr, er⟩ := r
    simp only at b1 b2
    subst b2
    exact ⟨b1, rfl⟩

/-- C61: the batches of an insertion can always be executed to the end. -/
theorem C61_batches_progress (m : Machine C) (c : Codec C R) (hc : Faithful c) (root : Path)
    (keys : List Coll.Key) (hl : Placed m root (keys.map c.path))
    (merge : Option (Coll.Merge R)) (batches : List (List (Coll.Key × List R))) (fs : FS C)
    (hsub : ∀ t ∈ batches.flatten, t.1 ∈ keys) (hnd : (batches.flatten.map (·.1)).Nodup)
    (hs : ∀ t ∈ batches.flatten, Sane m c root fs t.1) :
    ∃ fs' e, Work.Batches m c root merge fs batches fs' e := by
  induction batches generalizing fs with
  | nil => exact ⟨fs, none, .done fs⟩
  | cons b t ih =>
    rw [List.flatten_cons, List.map_append, List.nodup_append] at hnd
    have hsb : ∀ u ∈ b, u.1 ∈ keys := fun u hu => hsub u (by simp [hu])
    have hst : ∀ u ∈ t.flatten, u.1 ∈ keys := fun u hu => hsub u (by
      rw [List.flatten_cons]; exact List.mem_append_right _ hu)
    have hsn : ∀ u ∈ b, Sane m c root fs u.1 := fun u hu => hs u (by simp [hu])
    obtain ⟨schedule, hfin⟩ := schedule_exists (jobs_separated (tasks_placed hl merge hsb hnd.1)
      (fs := fs) (by
        intro j hj
        obtain ⟨u, hu, rfl⟩ := List.mem_map.1 hj
        exact job_runnable hc merge u (hsn u hu)))
    cases herr : (b.map (c.job merge)).findSome? (fun j => j.raises root fs) with
    | some e => exact ⟨_, _, .stop fs b t schedule e hfin herr⟩
    | none =>
      obtain ⟨fs', e, hr⟩ := ih
        (exec ((b.map (c.job merge)).map (Job.program m root)) fs schedule).fs hst hnd.2.1 (by
          intro u hu
          refine sane_agree (sane_after hc hl merge schedule hsb hnd.1 hsn (hst u hu) ?_)
            (hs u (by rw [List.flatten_cons]; exact List.mem_append_right _ hu))
          intro hin
          exact hnd.2.2 _ hin _ (List.mem_map_of_mem hu) rfl)
      exact ⟨fs', e, .next fs fs' b t schedule e hfin herr hr⟩

/-! ### The insertion -/

theorem piece_in_column {column : List Coll.Key} {rows : List R} {k : Coll.Key}
    (h : rowsOf column rows k ≠ []) : k ∈ column := by
  unfold rowsOf at h
  have h' : ((column.zip rows).filter fun p => decide (p.1 = k)) ≠ [] := by
    intro hc; rw [hc] at h; exact h rfl
  obtain ⟨p, hp⟩ := List.exists_mem_of_ne_nil _ h'
  rw [List.mem_filter] at hp
  have : p.1 = k := by simpa using hp.2
  rw [← this]
  exact (List.of_mem_zip hp.1).1

/-- C61: an insertion executed by the workers of a cluster on the files of the collection is the
insertion on the store of the collection: what a reader finds and what the call returns or
raises are the same, for all the orders of the turns of the workers. -/
theorem C61_insert (m : Machine C) (c : Codec C R) (hc : Faithful c) (root : Path)
    (keys : List Coll.Key) (hl : Placed m root (keys.map c.path))
    (merge : Option (Coll.Merge R)) (npartitions : Option Int) (delayed : Bool)
    (column : List Coll.Key) (rows : List R) (fs fs' : FS C) (r : Py (List Coll.Key))
    (hlen : column.length = rows.length) (hso : delayed = true ∨ KeysSorted column)
    (hsub : ∀ k ∈ column, k ∈ keys) (hs : ∀ k ∈ column, Sane m c root fs k)
    (h : Work.Insert m c root merge npartitions delayed column rows fs fs' r) :
    (∀ k ∈ keys, c.store root fs' k =
      (Coll.insert merge npartitions delayed column rows (c.store root fs)).1 k) ∧
    r = (Coll.insert merge npartitions delayed column rows (c.store root fs)).2 := by
  have tasks : ∀ ps bs, Split.splitRows column delayed = .ok ps →
      Verif.Batches.insertBatches ps npartitions = .ok bs →
      (∀ t ∈ (bs.map fun b => b.map (Coll.task rows)).flatten, t.1 ∈ column) ∧
      (((bs.map fun b => b.map (Coll.task rows)).flatten).map (·.1)).Nodup := by
    intro ps bs hps hbs
    obtain ⟨hnd, _, h4, _, h6, _⟩ := split_spec delayed column rows hlen hso ps hps
    have hflat := batches_flatten ps npartitions bs hbs
    have hflat' : (bs.map fun b => b.map (Coll.task rows)).flatten = ps.map (Coll.task rows) := by
      rw [← hflat, List.map_flatten]
    rw [hflat']
    refine ⟨?_, ?_⟩
    · intro t ht
      obtain ⟨p, hp, rfl⟩ := List.mem_map.1 ht
      have h7 := h6 p hp
      rw [h4 p hp] at h7
      exact piece_in_column h7
    · rw [List.map_map]; exact hnd
  cases h with
  | split e h => simp [Coll.insert, h]
  | batches pieces e h hb => simp [Coll.insert, h, hb]
  | raised pieces batches fs' e h hb hr =>
    obtain ⟨t1, t2⟩ := tasks pieces batches h hb
    obtain ⟨b1, b2⟩ := C61_batches m c hc root keys hl merge _ fs fs' (some e)
      (fun t ht => hsub _ (t1 t ht)) t2 (fun t ht => hs _ (t1 t ht)) hr
    simp only [Coll.insert, h, hb]
    generalize Coll.runBatches merge (c.store root fs)
      (batches.map fun b => b.map (Coll.task rows)) = q at *
    obtain ⟨sq, eq⟩ := q
    simp only at b1 b2
    subst b2
    exact ⟨b1, rfl⟩
  | finished pieces batches fs' h hb hr =>
    obtain ⟨t1, t2⟩ := tasks pieces batches h hb
    obtain ⟨b1, b2⟩ := C61_batches m c hc root keys hl merge _ fs fs' none
      (fun t ht => hsub _ (t1 t ht)) t2 (fun t ht => hs _ (t1 t ht)) hr
    simp only [Coll.insert, h, hb]
    generalize Coll.runBatches merge (c.store root fs)
      (batches.map fun b => b.map (Coll.task rows)) = q at *
    obtain ⟨sq, eq⟩ := q
    simp only at b1 b2
    subst b2
    exact ⟨b1, rfl⟩

/-- C61: after an insertion by the workers of a cluster, a reader of the files finds in the
partition of each key the records inserted for this key (alone, or merged with the old ones by
the callback), and the other partitions as they were. -/
theorem C61_insert_effect (m : Machine C) (c : Codec C R) (hc : Faithful c) (root : Path)
    (keys : List Coll.Key) (hl : Placed m root (keys.map c.path))
    (merge : Option (Coll.Merge R)) (npartitions : Option Int) (delayed : Bool)
    (column : List Coll.Key) (rows : List R) (fs fs' : FS C) (ks : List Coll.Key)
    (hlen : column.length = rows.length) (hso : delayed = true ∨ KeysSorted column)
    (hsub : ∀ k ∈ column, k ∈ keys) (hs : ∀ k ∈ column, Sane m c root fs k)
    (h : Work.Insert m c root merge npartitions delayed column rows fs fs' (.ok ks)) :
    ∀ k ∈ keys,
      (rowsOf column rows k = [] → c.store root fs' k = c.store root fs k) ∧
      (rowsOf column rows k ≠ [] →
        Effect merge (c.store root fs k) (rowsOf column rows k) (c.store root fs' k)) := by
  obtain ⟨h1, h2⟩ := C61_insert m c hc root keys hl merge npartitions delayed column rows fs fs'
    (.ok ks) hlen hso hsub hs h
  cases hi : Coll.insert merge npartitions delayed column rows (c.store root fs) with
  | mk st' r =>
    rw [hi] at h1 h2
    simp only at h1 h2
    subst h2
    obtain ⟨c1, _⟩ := C22_insert_partial merge npartitions delayed column rows _ st' ks hlen hso hi
    intro k hk
    rw [h1 k hk]
    exact c1 k

/-- C61: an insertion can always be executed to the end. -/
theorem C61_insert_progress (m : Machine C) (c : Codec C R) (hc : Faithful c) (root : Path)
    (keys : List Coll.Key) (hl : Placed m root (keys.map c.path))
    (merge : Option (Coll.Merge R)) (npartitions : Option Int) (delayed : Bool)
    (column : List Coll.Key) (rows : List R) (fs : FS C)
    (hlen : column.length = rows.length) (hso : delayed = true ∨ KeysSorted column)
    (hsub : ∀ k ∈ column, k ∈ keys) (hs : ∀ k ∈ column, Sane m c root fs k) :
    ∃ fs' r, Work.Insert m c root merge npartitions delayed column rows fs fs' r := by
  cases hps : Split.splitRows column delayed with
  | error e => exact ⟨fs, _, .split e hps⟩
  | ok ps =>
    cases hbs : Verif.Batches.insertBatches ps npartitions with
    | error e => exact ⟨fs, _, .batches ps e hps hbs⟩
    | ok bs =>
      obtain ⟨hnd, _, h4, _, h6, _⟩ := split_spec delayed column rows hlen hso ps hps
      have hflat := batches_flatten ps npartitions bs hbs
      have hflat' : (bs.map fun b => b.map (Coll.task rows)).flatten =
          ps.map (Coll.task rows) := by
        rw [← hflat, List.map_flatten]
      have hcol : ∀ t ∈ (bs.map fun b => b.map (Coll.task rows)).flatten, t.1 ∈ column := by
        rw [hflat']
        intro t ht
        obtain ⟨p, hp, rfl⟩ := List.mem_map.1 ht
        have h7 := h6 p hp
        rw [h4 p hp] at h7
        exact piece_in_column h7
      obtain ⟨fs', e, hr⟩ := C61_batches_progress m c hc root keys hl merge
        (bs.map fun b => b.map (Coll.task rows)) fs (fun t ht => hsub _ (hcol t ht))
        (by rw [hflat', List.map_map]; exact hnd) (fun t ht => hs _ (hcol t ht))
      cases e with
      | none => exact ⟨fs', _, .finished ps bs fs' hps hbs hr⟩
      | some e => exact ⟨fs', _, .raised ps bs fs' e hps hbs hr⟩

end Verif
