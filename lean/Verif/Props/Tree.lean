import Verif.Lemmas.Tree

/-! C53: walks and copies of directory trees. -/

namespace Verif

open Spec Tree
open Ds (mapPy)

variable {C : Type}

theorem strLe_trans' (a b c : String) (h1 : decide (a ≤ b) = true) (h2 : decide (b ≤ c) = true) :
    decide (a ≤ c) = true := by
  simp only [decide_eq_true_eq] at *
  exact String.le_trans h1 h2

theorem strLe_total' (a b : String) : (decide (a ≤ b) || decide (b ≤ a)) = true := by
  simp only [Bool.or_eq_true, decide_eq_true_eq]
  exact String.le_total a b

theorem sortNames_perm (sort : Bool) (l : List String) : (sortNames sort l).Perm l := by
  unfold sortNames
  cases sort
  · exact List.Perm.refl _
  · exact Sort.isort_perm l

theorem sortPaths_perm (sort : Bool) (l : List Path) : (sortPaths sort l).Perm l := by
  unfold sortPaths
  cases sort
  · exact List.Perm.refl _
  · exact Sort.isort_perm l

theorem sortNames_sorted (l : List String) : (sortNames true l).Pairwise (· ≤ ·) := by
  have := Sort.isort_pairwise (le := fun a b : String => decide (a ≤ b)) strLe_trans' strLe_total' l
  exact this.imp fun h => by simpa using h

theorem sortPaths_sorted (l : List Path) :
    (sortPaths true l).Pairwise fun a b => baseName a ≤ baseName b := by
  have := Sort.isort_pairwise (le := fun a b : Path => decide (baseName a ≤ baseName b))
    (fun _ _ _ => strLe_trans' _ _ _) (fun _ _ => strLe_total' _ _) l
  exact this.imp fun h => by simpa using h

/-- One directory of a walk. -/
theorem walk_item (fs : FS C) (hg : GoodFS fs) (sort : Bool) (p : Path) :
    WalkItem fs (p, sortPaths sort ((dirNames fs p).map fun n => p ++ [n]),
      sortNames sort (fileNames fs p)) where
  dirs := by
    intro d
    rw [(sortPaths_perm sort _).mem_iff, List.mem_map]
    constructor
    · rintro ⟨n, hn, rfl⟩
      exact ⟨⟨n, rfl⟩, (mem_dirNames fs hg p n).1 hn⟩
    · rintro ⟨⟨n, rfl⟩, h⟩
      exact ⟨n, (mem_dirNames fs hg p n).2 h, rfl⟩
  dirsNodup := by
    rw [(sortPaths_perm sort _).nodup_iff]
    refine List.Pairwise.map _ ?_ ((hg.nodup p).sublist List.filter_sublist)
    intro a b hab he
    exact hab (snoc_inj he).2
  files := by
    intro n
    rw [(sortNames_perm sort _).mem_iff]
    exact mem_fileNames fs hg p n
  filesNodup := by
    rw [(sortNames_perm sort _).nodup_iff]
    exact (hg.nodup p).sublist List.filter_sublist

/-- One step of a walk. -/
theorem walk_step (fs : FS C) (sort : Bool) (k : Nat) (p : Path) (hd : fs.content p = some .dir) :
    walk fs sort (k + 1) p =
      match mapPy (walk fs sort k) (sortPaths sort ((dirNames fs p).map fun n => p ++ [n])) with
      | .error e => .error e
      | .ok rest => .ok ((p, sortPaths sort ((dirNames fs p).map fun n => p ++ [n]),
          sortNames sort (fileNames fs p)) :: rest.flatten) := by
  simp only [walk, ls, hd, filter_snoc, map_base]
  rfl

/-- A walk visits every directory of the tree exactly once, before what it has below, and gives the
directories and the files of each of them, sorted if required. -/
theorem C53_walk (fs : FS C) (hg : GoodFS fs) (sort : Bool) (limit : Nat) (p : Path)
    (hd : fs.content p = some .dir) (hk : NotDeeper fs p limit) :
    ∃ w, walk fs sort limit p = .ok w ∧
      (∀ d, d ∈ w.map (·.1) ↔ p <+: d ∧ fs.content d = some .dir) ∧
      (w.Pairwise fun a b => ¬ b.1 <+: a.1) ∧
      (∀ item ∈ w, WalkItem fs item) ∧
      (sort = true → ∀ item ∈ w, item.2.2.Pairwise (· ≤ ·) ∧
        item.2.1.Pairwise fun a b => baseName a ≤ baseName b) := by
  induction limit generalizing p with
  | zero => exact absurd (hk [] (by rw [List.append_nil, hd]; simp)) (by simp)
  | succ k ih =>
    have inner : ∀ ds : List Path, ds.Nodup →
        (∀ d ∈ ds, (∃ n, d = p ++ [n]) ∧ fs.content d = some .dir) →
        ∃ ws, mapPy (walk fs sort k) ds = .ok ws ∧
          (∀ d, d ∈ ws.flatten.map (·.1) ↔ (∃ c ∈ ds, c <+: d) ∧ fs.content d = some .dir) ∧
          (ws.flatten.Pairwise fun a b => ¬ b.1 <+: a.1) ∧
          (∀ item ∈ ws.flatten, WalkItem fs item) ∧
          (sort = true → ∀ item ∈ ws.flatten, item.2.2.Pairwise (· ≤ ·) ∧
            item.2.1.Pairwise fun a b => baseName a ≤ baseName b) := by
      intro ds
      induction ds with
      | nil =>
        intro _ _
        exact ⟨[], rfl, by simp, by simp, by simp, by simp⟩
      | cons d t iht =>
        intro hnd hall
        rw [List.nodup_cons] at hnd
        obtain ⟨⟨n, rfl⟩, hdd⟩ := hall d (List.mem_cons_self ..)
        obtain ⟨w, a1, a2, a3, a4, a5⟩ := ih (p ++ [n]) hdd (by
          intro q hq
          have := hk (n :: q) (by rw [show p ++ n :: q = p ++ [n] ++ q by simp]; exact hq)
          simp only [List.length_cons] at this
          omega)
        obtain ⟨ws, b1, b2, b3, b4, b5⟩ := iht hnd.2 fun c hc => hall c (List.mem_cons_of_mem _ hc)
        refine ⟨w :: ws, by simp only [mapPy, bind, Except.bind, a1, b1], ?_, ?_, ?_, ?_⟩
        · intro c
          rw [List.flatten_cons, List.map_append, List.mem_append, a2, b2]
          constructor
          · rintro (⟨h1, h2⟩ | ⟨⟨e, he, h1⟩, h2⟩)
            · exact ⟨⟨_, List.mem_cons_self .., h1⟩, h2⟩
            · exact ⟨⟨e, List.mem_cons_of_mem _ he, h1⟩, h2⟩
          · rintro ⟨⟨e, he, h1⟩, h2⟩
            rcases List.mem_cons.1 he with rfl | he
            · exact .inl ⟨h1, h2⟩
            · exact .inr ⟨⟨e, he, h1⟩, h2⟩
        · rw [List.flatten_cons, List.pairwise_append]
          refine ⟨a3, b3, ?_⟩
          intro x hx y hy hyx
          have hx1 := ((a2 x.1).1 (List.mem_map.2 ⟨x, hx, rfl⟩)).1
          obtain ⟨⟨c, hc, hcy⟩, _⟩ := (b2 y.1).1 (List.mem_map.2 ⟨y, hy, rfl⟩)
          obtain ⟨⟨m, rfl⟩, _⟩ := hall c (List.mem_cons_of_mem _ hc)
          have hlen : (p ++ [n]).length = (p ++ [m]).length := by simp
          rcases prefix_total hx1 (hcy.trans hyx) with h | h
          · have := h.eq_of_length hlen
            rw [this] at hnd
            exact hnd.1 hc
          · have := h.eq_of_length hlen.symm
            rw [← this] at hnd
            exact hnd.1 hc
        · intro item hi
          rw [List.flatten_cons, List.mem_append] at hi
          rcases hi with hi | hi
          · exact a4 item hi
          · exact b4 item hi
        · intro hs item hi
          rw [List.flatten_cons, List.mem_append] at hi
          rcases hi with hi | hi
          · exact a5 hs item hi
          · exact b5 hs item hi
    have hit := walk_item fs hg sort p
    obtain ⟨ws, b1, b2, b3, b4, b5⟩ := inner _ hit.dirsNodup fun d hd => (hit.dirs d).1 hd
    refine ⟨_, by rw [walk_step fs sort k p hd, b1], ?_, ?_, ?_, ?_⟩
    · intro d
      rw [List.map_cons, List.mem_cons, b2]
      constructor
      · rintro (rfl | ⟨⟨c, hc, h1⟩, h2⟩)
        · exact ⟨List.prefix_refl _, hd⟩
        · obtain ⟨⟨n, rfl⟩, _⟩ := (hit.dirs c).1 hc
          exact ⟨(List.prefix_append _ _).trans h1, h2⟩
      · rintro ⟨⟨q, rfl⟩, h2⟩
        cases q with
        | nil => exact .inl (by simp)
        | cons n q =>
          refine .inr ⟨⟨p ++ [n], ?_, ⟨q, by simp⟩⟩, h2⟩
          refine (hit.dirs _).2 ⟨⟨n, rfl⟩, ?_⟩
          by_cases hq : q = []
          · subst hq; exact h2
          · exact ancestor_dir fs hg (p ++ n :: q) (p ++ [n]) (by rw [h2]; simp) ⟨q, by simp⟩ (by
              intro he
              apply hq
              have := congrArg List.length he
              simp at this
              exact this)
    · rw [List.pairwise_cons]
      refine ⟨?_, b3⟩
      intro y hy hyp
      obtain ⟨⟨c, hc, hcy⟩, _⟩ := (b2 y.1).1 (List.mem_map.2 ⟨y, hy, rfl⟩)
      obtain ⟨⟨n, rfl⟩, _⟩ := (hit.dirs c).1 hc
      have := (hcy.trans hyp).length_le
      simp at this
      omega
    · intro item hi
      rcases List.mem_cons.1 hi with rfl | hi
      · exact hit
      · exact b4 item hi
    · intro hs item hi
      rcases List.mem_cons.1 hi with rfl | hi
      · subst hs
        exact ⟨sortNames_sorted _, sortPaths_sorted _⟩
      · exact b5 hs item hi

/-- A walk from a path where there is nothing gives one item without directory nor file. -/
theorem C53_walk_missing (fs : FS C) (sort : Bool) (limit : Nat) (p : Path)
    (h : fs.content p = none) : walk fs sort (limit + 1) p = .ok [([], [], [])] := by
  simp only [walk, ls, h]

/-- A walk from a file gives this path as a directory, with the file itself in it. -/
theorem C53_walk_file (fs : FS C) (sort : Bool) (limit : Nat) (p : Path) (name : String) (c : C)
    (h : fs.content (p ++ [name]) = some (.file c)) :
    walk fs sort (limit + 1) (p ++ [name]) = .ok [(p ++ [name], [], [name])] := by
  have h1 : isDir fs (p ++ [name]) = false := by simp [isDir, h]
  have h2 : baseName (p ++ [name]) = name := by simp [baseName]
  cases sort <;>
    simp [walk, ls, h, h1, h2, sortPaths, sortNames, Sort.isort, Sort.insort, mapPy]

/-- The copy of a directory has the same tree, and nothing else is changed except the creation of
the parents of the target. -/
theorem C53_copy (fs : FS C) (hg : GoodFS fs) (limit : Nat) (source target : Path)
    (hs : fs.content source = some .dir) (hk : NotDeeper fs source limit)
    (ht : fs.content target = none) (hin : ¬ source <+: target)
    (ha : ∀ u, u <+: target → ∀ c, fs.content u ≠ some (.file c)) :
    ∃ fs', copyTree limit fs source target = .ok fs' ∧ GoodFS fs' ∧
      SameTree fs' target fs source ∧ (∀ x, x <+: target → fs'.content x = some .dir) ∧
      ∀ x, ¬ target <+: x → ¬ x <+: target → fs'.content x = fs.content x := by
  have hap : Unrelated source target := by
    refine ⟨hin, ?_⟩
    rintro ⟨q, rfl⟩
    rw [none_below fs hg target q ht] at hs
    cases hs
  obtain ⟨F, h1, h2, h3, h4⟩ := mkdir_ok fs hg target ht ha
  have hsrc : ∀ r, F.content (source ++ r) = fs.content (source ++ r) := by
    intro r
    refine h4 _ ?_
    intro hp
    exact hap.1 ((List.prefix_append _ _).trans hp)
  obtain ⟨w, F', a1, a2, a3, a4, a5⟩ := copy_walk source target hap F h2 limit [] F
    (by rw [hsrc, List.append_nil]; exact hs) (by
      intro q hq
      rw [List.append_nil, hsrc] at hq
      exact hk q hq) h2 (fun _ => rfl)
    (by rw [List.append_nil]; exact h3 target (List.prefix_refl _)) (by
      intro n
      rw [List.append_nil, h4 _ (by
        intro hp
        have := hp.length_le
        simp at this
        omega)]
      exact none_below fs hg target [n] ht)
  rw [List.append_nil] at a1
  rw [List.append_nil] at a5
  have hsame : SameTree F' target fs source := by
    intro q
    have := a4 q
    rw [List.append_nil, List.append_nil] at this
    rw [this, hsrc]
  refine ⟨F', ?_, a3, hsame, ?_, ?_⟩
  · simp only [copyTree, ht, ne_eq, not_true_eq_false, if_false, h1, a1, a2]
  · intro x hx
    by_cases he : x = target
    · subst he
      have := hsame []
      rw [List.append_nil, List.append_nil] at this
      rw [this, hs]
    · rw [a5 x (fun hp => he (hx.eq_of_length_le hp.length_le)), h3 x hx]
  · intro x h5 h6
    rw [a5 x h5, h4 x h6]

/-- An existing target is refused, nothing is changed. -/
theorem C53_copy_exists (fs : FS C) (limit : Nat) (source target : Path)
    (h : fs.content target ≠ none) : copyTree limit fs source target = .error .valueError := by
  simp only [copyTree, h, ne_eq, not_false_eq_true, if_true]

/-- The copy of a source that does not exist succeeds: it is an empty directory. -/
theorem C53_copy_missing (fs : FS C) (hg : GoodFS fs) (limit : Nat) (source target : Path)
    (hs : fs.content source = none) (ht : fs.content target = none) (hne : ¬ source <+: target)
    (ha : ∀ u, u <+: target → ∀ c, fs.content u ≠ some (.file c)) :
    ∃ fs', copyTree (limit + 1) fs source target = .ok fs' ∧
      fs'.content target = some .dir ∧ ∀ q, q ≠ [] → fs'.content (target ++ q) = none := by
  obtain ⟨F, h1, h2, h3, h4⟩ := mkdir_ok fs hg target ht ha
  refine ⟨F, ?_, h3 target (List.prefix_refl _), ?_⟩
  · have : F.content source = none := by
      rw [h4 _ hne]
      exact hs
    simp only [copyTree, ht, ne_eq, not_true_eq_false, if_false, h1, C53_walk_missing F false limit
      source this, forEach, copyItem]
  · intro q hq
    rw [h4 _ ?_]
    · exact none_below fs hg target q ht
    · intro hp
      have := hp.length_le
      simp only [List.length_append] at this
      exact hq (List.length_eq_zero_iff.1 (by omega))

/-! ### A concrete tree -/

/-- An empty file system. -/
def emptyFS : FS Nat where
  content := fun x => if x = [] then some .dir else none
  names := fun _ => []

theorem emptyFS_good : GoodFS emptyFS where
  root := rfl
  names := by intro p n; simp [emptyFS]
  parents := by intro p n h; simp [emptyFS] at h
  nodup := by intro p; simp [emptyFS]

/-- A directory `s` with two files and a directory, that has a file. -/
def smallFS : FS Nat :=
  addEntry (addEntry (addEntry (addEntry (addEntry emptyFS [] "s" .dir) ["s"] "b" (.file 1))
    ["s"] "d" .dir) ["s"] "a" (.file 2)) ["s", "d"] "c" (.file 3)

theorem smallFS_good : GoodFS smallFS := by
  refine good_addEntry _ (good_addEntry _ (good_addEntry _ (good_addEntry _ (good_addEntry _
    emptyFS_good _ _ _ ?_ ?_) _ _ _ ?_ ?_) _ _ _ ?_ ?_) _ _ _ ?_ ?_) _ _ _ ?_ ?_ <;>
    first | rfl | (intro h; cases h)

theorem smallFS_depth (p : Path) : NotDeeper smallFS p 4 := by
  intro q hq
  have : (p ++ q).length ≤ 3 := by
    simp only [smallFS, content_addEntry, emptyFS] at hq
    repeat' split at hq
    all_goals first | (next h => rw [h]; decide) | exact absurd rfl hq
  simp only [List.length_append] at this
  omega

/-- The hypotheses of `C53_walk` and of `C53_copy` are met. -/
example : ∃ w, walk smallFS true 4 ["s"] = .ok w ∧ w.Pairwise fun a b => ¬ b.1 <+: a.1 := by
  obtain ⟨w, h1, _, h2, _⟩ := C53_walk smallFS smallFS_good true 4 ["s"] rfl (smallFS_depth _)
  exact ⟨w, h1, h2⟩

example : walk smallFS true 4 ["s"] =
    .ok [(["s"], [["s", "d"]], ["a", "b"]), (["s", "d"], [], ["c"])] := by decide +kernel

example : walk smallFS true 4 ["s", "a"] = .ok [(["s", "a"], [], ["a"])] :=
  C53_walk_file smallFS true 3 ["s"] "a" 2 rfl

example : ∃ fs', copyTree 4 smallFS ["s"] ["t", "u"] = .ok fs' ∧
    SameTree fs' ["t", "u"] smallFS ["s"] := by
  obtain ⟨fs', h1, _, h2, _⟩ := C53_copy smallFS smallFS_good 4 ["s"] ["t", "u"] rfl
    (smallFS_depth _) rfl (by decide) (by
      rintro u ⟨v, hv⟩ c
      cases u with
      | nil => simp [smallFS, content_addEntry, emptyFS]
      | cons a u =>
        have : a = "t" := by simpa using congrArg List.head? hv
        subst this
        simp [smallFS, content_addEntry, emptyFS])
  exact ⟨fs', h1, h2⟩

/-- A copy inside the source has one more directory than the source had. -/
theorem C53_copy_inside : ∃ fs', copyTree 4 smallFS ["s"] ["s", "t"] = .ok fs' ∧
    fs'.content ["s", "t", "t"] = some .dir ∧ smallFS.content ["s", "t"] = none :=
  ⟨_, rfl, by decide +kernel, by decide +kernel⟩

end Verif
