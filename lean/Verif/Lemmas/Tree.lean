import Verif.Spec.Tree
import Verif.Lemmas.OverlapLoad
import Verif.Lemmas.Sort

/-! Lemmas about directory trees. -/

namespace Verif

open Spec Tree
open Ds (mapPy)

variable {C : Type}

/-! ### Paths -/

theorem snoc_inj {p q : Path} {m n : String} (h : p ++ [m] = q ++ [n]) : p = q ∧ m = n := by
  have := List.append_inj' h rfl
  exact ⟨this.1, by simpa using this.2⟩

theorem snoc_ne_self (p : Path) (n : String) : p ≠ p ++ [n] := by
  intro h
  have := congrArg List.length h
  simp at this

theorem relpath_append (s q : Path) (h : q ≠ []) : relpath (s ++ q) s = q := by
  induction s with
  | nil =>
    cases q with
    | nil => exact absurd rfl h
    | cons a t => simp [relpath]
  | cons a s ih => simp only [List.cons_append, relpath, if_true, ih]

theorem getLast_snoc (p : Path) (n : String) : (p ++ [n]).getLast? = some n := by simp

theorem baseName_snoc (p : Path) (n : String) : baseName (p ++ [n]) = n := by
  simp [baseName]

theorem prefix_cases {u p : Path} {n : String} (h : u <+: p ++ [n]) : u <+: p ∨ u = p ++ [n] := by
  rw [List.prefix_concat_iff] at h
  exact h.symm

theorem snoc_prefix {p r : Path} {m n : String} (h : p ++ [m] <+: p ++ [n] ++ r) : m = n := by
  rw [List.append_assoc, List.prefix_append_right_inj, List.singleton_append,
    List.cons_prefix_cons] at h
  exact h.1

/-- Two prefixes of a same path contain one another. -/
theorem prefix_total {a b x : Path} (h1 : a <+: x) (h2 : b <+: x) : a <+: b ∨ b <+: a :=
  List.prefix_or_prefix_of_prefix h1 h2

theorem apart_below {s t : Path} (h : Unrelated s t) (p q : Path) : s ++ p ≠ t ++ q := by
  intro e
  have h1 : s <+: s ++ p := ⟨p, rfl⟩
  have h2 : t <+: s ++ p := ⟨q, e.symm⟩
  rcases prefix_total h1 h2 with h3 | h3
  · exact h.1 h3
  · exact h.2 h3

theorem apart_not_prefix {s t : Path} (h : Unrelated s t) (p q : Path) : ¬ t ++ q <+: s ++ p := by
  rintro ⟨r, e⟩
  exact apart_below h p (q ++ r) (by rw [← List.append_assoc]; exact e.symm)

/-! ### File systems -/

theorem below_dir (fs : FS C) (hg : GoodFS fs) (p q : Path) (h : fs.content (p ++ q) ≠ none) :
    q = [] ∨ fs.content p = some .dir := by
  induction q generalizing p with
  | nil => exact .inl rfl
  | cons n t ih =>
    have e : p ++ n :: t = (p ++ [n]) ++ t := by simp
    rw [e] at h
    refine .inr (hg.parents p n ?_)
    rcases ih (p ++ [n]) h with rfl | h1
    · simpa using h
    · rw [h1]; simp

theorem ancestor_dir (fs : FS C) (hg : GoodFS fs) (p u : Path) (h : fs.content p ≠ none)
    (hu : u <+: p) (hne : u ≠ p) : fs.content u = some .dir := by
  obtain ⟨q, rfl⟩ := hu
  rcases below_dir fs hg u q h with rfl | h1
  · simp at hne
  · exact h1

theorem none_below (fs : FS C) (hg : GoodFS fs) (p q : Path) (h : fs.content p = none) :
    fs.content (p ++ q) = none := by
  apply Classical.byContradiction
  intro hc
  rcases below_dir fs hg p q hc with rfl | h1
  · rw [List.append_nil] at hc; exact hc h
  · rw [h] at h1; cases h1

theorem content_addEntry (fs : FS C) (parent : Path) (n : String) (e : Entry C) (x : Path) :
    (addEntry fs parent n e).content x = if x = parent ++ [n] then some e else fs.content x := rfl

theorem good_addEntry (fs : FS C) (hg : GoodFS fs) (parent : Path) (n : String) (e : Entry C)
    (hp : fs.content parent = some .dir) (he : fs.content (parent ++ [n]) = some .dir → e = .dir) :
    GoodFS (addEntry fs parent n e) where
  root := by
    rw [content_addEntry, if_neg (by simp)]
    exact hg.root
  names := by
    intro p m
    rw [content_addEntry]
    by_cases h : p ++ [m] = parent ++ [n]
    · obtain ⟨rfl, rfl⟩ := snoc_inj h
      rw [if_pos rfl]
      simp only [addEntry, true_and]
      split
      · simp
      · next h1 => simp [Classical.not_not.1 h1]
    · rw [if_neg h, ← hg.names]
      simp only [addEntry]
      split
      · next h1 =>
        rw [List.mem_append]
        constructor
        · rintro (h2 | h2)
          · exact h2
          · exact absurd (by rw [h1.1, List.mem_singleton.1 h2]) h
        · exact .inl
      · rfl
  parents := by
    intro p m h
    rw [content_addEntry] at h ⊢
    by_cases h1 : p ++ [m] = parent ++ [n]
    · obtain ⟨rfl, rfl⟩ := snoc_inj h1
      rw [if_neg (snoc_ne_self p m)]
      exact hp
    · rw [if_neg h1] at h
      have h2 := hg.parents p m h
      by_cases h3 : p = parent ++ [n]
      · rw [if_pos h3]
        rw [h3] at h2
        rw [he h2]
      · rw [if_neg h3]
        exact h2
  nodup := by
    intro p
    simp only [addEntry]
    split
    · next h =>
      rw [List.nodup_append]
      refine ⟨hg.nodup p, by simp, ?_⟩
      intro a ha b hb hab
      rw [List.mem_singleton] at hb
      subst hb
      subst hab
      exact h.2 ha
    · exact hg.nodup p

theorem makedirs_ok (fs : FS C) (hg : GoodFS fs) (done rest : Path)
    (hd : fs.content done = some .dir)
    (hr : ∀ u, u <+: rest → fs.content (done ++ u) = none ∨ fs.content (done ++ u) = some .dir) :
    ∃ fs', makedirs fs done rest = .ok fs' ∧ GoodFS fs' ∧
      (∀ x, (done <+: x ∧ x <+: done ++ rest) → fs'.content x = some .dir) ∧
      ∀ x, ¬ (done <+: x ∧ x <+: done ++ rest) → fs'.content x = fs.content x := by
  induction rest generalizing fs done with
  | nil =>
    refine ⟨fs, rfl, hg, ?_, fun _ _ => rfl⟩
    rintro x ⟨h1, h2⟩
    rw [List.append_nil] at h2
    rw [← h1.eq_of_length_le h2.length_le]
    exact hd
  | cons n t ih =>
    have e : done ++ n :: t = done ++ [n] ++ t := by simp
    -- the rest of the path, from a file system where the directory `done ++ [n]` exists
    have key : ∀ fs1 : FS C, GoodFS fs1 → fs1.content done = some .dir →
        fs1.content (done ++ [n]) = some .dir →
        (∀ x, x ≠ done ++ [n] → fs1.content x = fs.content x) →
        ∃ fs', makedirs fs1 (done ++ [n]) t = .ok fs' ∧ GoodFS fs' ∧
          (∀ x, (done <+: x ∧ x <+: done ++ n :: t) → fs'.content x = some .dir) ∧
          ∀ x, ¬ (done <+: x ∧ x <+: done ++ n :: t) → fs'.content x = fs.content x := by
      intro fs1 hg1 hd1 hn1 hx1
      obtain ⟨fs', h1, h2, h3, h4⟩ := ih fs1 hg1 (done ++ [n]) hn1 (by
        intro u hu
        by_cases hu0 : u = []
        · subst hu0
          rw [List.append_nil]
          exact .inr hn1
        · rw [hx1 _ (by intro he; simp at he; exact hu0 he), List.append_assoc]
          exact hr (n :: u) (by rw [List.cons_prefix_cons]; exact ⟨rfl, hu⟩))
      refine ⟨fs', h1, h2, ?_, ?_⟩
      · rintro x ⟨hx, hx'⟩
        by_cases hxd : x = done
        · subst hxd
          rw [h4 x ?_]
          · exact hd1
          · rintro ⟨h5, _⟩
            have := h5.length_le
            simp at this
            omega
        · refine h3 x ⟨?_, by rw [← e]; exact hx'⟩
          obtain ⟨q, rfl⟩ := hx
          cases q with
          | nil => simp at hxd
          | cons a q =>
            have h6 := (List.prefix_append_right_inj done).1 hx'
            rw [List.cons_prefix_cons] at h6
            rw [h6.1]
            exact ⟨q, by simp⟩
      · intro x hx
        rw [h4 x ?_, hx1 x ?_]
        · rintro rfl
          exact hx ⟨⟨[n], rfl⟩, by rw [e]; exact ⟨t, rfl⟩⟩
        · rintro ⟨h5, h6⟩
          exact hx ⟨(List.prefix_append _ _).trans h5, by rw [e]; exact h6⟩
    simp only [makedirs]
    rcases hr [n] (by rw [List.cons_prefix_cons]; exact ⟨rfl, List.nil_prefix⟩) with h | h
    · rw [h]
      refine key _ (good_addEntry fs hg done n .dir hd fun _ => rfl) ?_ ?_ ?_
      · rw [content_addEntry, if_neg (snoc_ne_self done n)]; exact hd
      · rw [content_addEntry, if_pos rfl]
      · intro x hx; rw [content_addEntry, if_neg hx]
    · rw [h]
      exact key fs hg hd h fun _ _ => rfl

theorem mkdir_ok (fs : FS C) (hg : GoodFS fs) (p : Path) (hp : fs.content p = none)
    (ha : ∀ u, u <+: p → ∀ c, fs.content u ≠ some (.file c)) :
    ∃ fs', mkdir fs p = .ok fs' ∧ GoodFS fs' ∧ (∀ x, x <+: p → fs'.content x = some .dir) ∧
      ∀ x, ¬ x <+: p → fs'.content x = fs.content x := by
  obtain ⟨fs', h1, h2, h3, h4⟩ := makedirs_ok fs hg [] p hg.root (by
    intro u hu
    rw [List.nil_append]
    have := ha u hu
    cases hc : fs.content u with
    | none => exact .inl rfl
    | some e => cases e with
      | dir => exact .inr rfl
      | file c => exact absurd hc (this c))
  refine ⟨fs', ?_, h2, fun x hx => h3 x ⟨List.nil_prefix, hx⟩, fun x hx => h4 x fun h => hx h.2⟩
  simp only [mkdir, hp, ne_eq, not_true_eq_false, if_false]
  exact h1

theorem mkdir_child (fs : FS C) (hg : GoodFS fs) (p : Path) (n : String)
    (hd : fs.content p = some .dir) (hn : fs.content (p ++ [n]) = none) :
    ∃ fs', mkdir fs (p ++ [n]) = .ok fs' ∧ GoodFS fs' ∧
      ∀ x, fs'.content x = if x = p ++ [n] then some .dir else fs.content x := by
  have hanc : ∀ u, u <+: p → fs.content u = some .dir := by
    intro u hu
    by_cases he : u = p
    · rw [he]; exact hd
    · exact ancestor_dir fs hg p u (by rw [hd]; simp) hu he
  obtain ⟨fs', h1, h2, h3, h4⟩ := mkdir_ok fs hg (p ++ [n]) hn (by
    intro u hu c hc
    rcases prefix_cases hu with h | h
    · rw [hanc u h] at hc; cases hc
    · rw [h, hn] at hc; cases hc)
  refine ⟨fs', h1, h2, ?_⟩
  intro x
  by_cases hx : x = p ++ [n]
  · rw [if_pos hx]
    exact h3 x (by rw [hx]; exact List.prefix_refl _)
  · rw [if_neg hx]
    by_cases hxp : x <+: p ++ [n]
    · rw [h3 x hxp]
      rcases prefix_cases hxp with h | h
      · exact (hanc x h).symm
      · exact absurd h hx
    · exact h4 x hxp

theorem isDir_iff (fs : FS C) (p : Path) : isDir fs p = true ↔ fs.content p = some .dir := by
  unfold isDir
  split
  · next h => simp [h]
  · next h =>
    constructor
    · intro e; cases e
    · intro e; exact absurd e h

theorem isDir_false (fs : FS C) (p : Path) : isDir fs p = false ↔ fs.content p ≠ some .dir := by
  rw [← Bool.not_eq_true, isDir_iff]

theorem writeFile_ok (fs : FS C) (hg : GoodFS fs) (p : Path) (n : String) (c : C)
    (hd : fs.content p = some .dir) (hn : fs.content (p ++ [n]) ≠ some .dir) :
    ∃ fs', writeFile fs (p ++ [n]) c = .ok fs' ∧ GoodFS fs' ∧
      ∀ x, fs'.content x = if x = p ++ [n] then some (.file c) else fs.content x := by
  refine ⟨addEntry fs p n (.file c), ?_, good_addEntry fs hg p n _ hd (fun h => absurd h hn),
    fun x => content_addEntry ..⟩
  simp only [writeFile, getLast_snoc, List.dropLast_concat]
  rw [(isDir_iff fs p).2 hd, (isDir_false fs _).2 hn]
  simp

/-! ### Copies -/

theorem forEach_append {α : Type} (f : FS C → α → Py (FS C)) (fs fs' : FS C) (a b : List α)
    (h : forEach f fs a = .ok fs') : forEach f fs (a ++ b) = forEach f fs' b := by
  induction a generalizing fs with
  | nil => simp only [forEach] at h; cases h; rfl
  | cons x t ih =>
    simp only [forEach, List.cons_append] at h ⊢
    split at h
    · cases h
    · next fs1 h1 => exact ih fs1 h

/-- The copy of the files of a directory. -/
theorem copy_names (F0 : FS C) (source target q : Path) (hap : Unrelated source target)
    (files : List String) (hf : ∀ n ∈ files, ∃ c, F0.content (source ++ q ++ [n]) = some (.file c))
    (F : FS C) (hg : GoodFS F) (hsrc : ∀ r, F.content (source ++ r) = F0.content (source ++ r))
    (hd : F.content (target ++ q) = some .dir)
    (hfree : ∀ n ∈ files, F.content (target ++ q ++ [n]) ≠ some .dir) :
    ∃ F', forEach (fun fs name => copyFile fs (source ++ q ++ [name])
        (target ++ relpath (source ++ q ++ [name]) source)) F files = .ok F' ∧ GoodFS F' ∧
      (∀ n ∈ files, F'.content (target ++ q ++ [n]) = F0.content (source ++ q ++ [n])) ∧
      ∀ x, (∀ n ∈ files, x ≠ target ++ q ++ [n]) → F'.content x = F.content x := by
  induction files generalizing F with
  | nil => exact ⟨F, rfl, hg, (fun n hn => by cases hn), fun _ _ => rfl⟩
  | cons n t ih =>
    obtain ⟨c, hc⟩ := hf n (List.mem_cons_self ..)
    have hrel : relpath (source ++ q ++ [n]) source = q ++ [n] := by
      rw [List.append_assoc]
      exact relpath_append _ _ (by simp)
    obtain ⟨F1, h1, h2, h3⟩ := writeFile_ok F hg (target ++ q) n c hd (hfree n (List.mem_cons_self ..))
    have hsrc1 : ∀ r, F1.content (source ++ r) = F0.content (source ++ r) := by
      intro r
      rw [h3, if_neg (by rw [List.append_assoc]; exact apart_below hap _ _), hsrc]
    obtain ⟨F', g1, g2, g3, g4⟩ := ih (fun m hm => hf m (List.mem_cons_of_mem _ hm)) F1 h2 hsrc1
      (by rw [h3, if_neg (snoc_ne_self _ _)]; exact hd) (by
        intro m hm
        rw [h3]
        by_cases he : target ++ q ++ [m] = target ++ q ++ [n]
        · rw [if_pos he]; simp
        · rw [if_neg he]; exact hfree m (List.mem_cons_of_mem _ hm))
    refine ⟨F', ?_, g2, ?_, ?_⟩
    · have hs1 : F.content (source ++ q ++ [n]) = some (.file c) := by
        rw [List.append_assoc, hsrc, ← List.append_assoc]; exact hc
      simp only [forEach, copyFile, hs1]
      rw [hrel, ← List.append_assoc, h1]
      exact g1
    · intro m hm
      by_cases hmt : m ∈ t
      · exact g3 m hmt
      · have hmn : m = n := by
          rcases List.mem_cons.1 hm with h | h
          · exact h
          · exact absurd h hmt
        subst hmn
        rw [g4 _ (by
          intro k hk he
          exact hmt ((snoc_inj he).2 ▸ hk)), h3, if_pos rfl, hc]
    · intro x hx
      rw [g4 x fun m hm => hx m (List.mem_cons_of_mem _ hm), h3,
        if_neg (hx n (List.mem_cons_self ..))]

/-- The creation of the directories of a directory. -/
theorem make_names (source target q : Path) (dirs : List String) (hnd : dirs.Nodup)
    (F : FS C) (hg : GoodFS F) (hd : F.content (target ++ q) = some .dir)
    (hfree : ∀ n ∈ dirs, F.content (target ++ q ++ [n]) = none) :
    ∃ F', forEach (fun fs d => mkdir fs (target ++ relpath d source)) F
        (dirs.map fun n => source ++ q ++ [n]) = .ok F' ∧ GoodFS F' ∧
      (∀ n ∈ dirs, F'.content (target ++ q ++ [n]) = some .dir) ∧
      ∀ x, (∀ n ∈ dirs, x ≠ target ++ q ++ [n]) → F'.content x = F.content x := by
  induction dirs generalizing F with
  | nil => exact ⟨F, rfl, hg, (fun n hn => by cases hn), fun _ _ => rfl⟩
  | cons n t ih =>
    rw [List.nodup_cons] at hnd
    have hrel : relpath (source ++ q ++ [n]) source = q ++ [n] := by
      rw [List.append_assoc]
      exact relpath_append _ _ (by simp)
    obtain ⟨F1, h1, h2, h3⟩ := mkdir_child F hg (target ++ q) n hd (hfree n (List.mem_cons_self ..))
    obtain ⟨F', g1, g2, g3, g4⟩ := ih hnd.2 F1 h2
      (by rw [h3, if_neg (snoc_ne_self _ _)]; exact hd) (by
        intro m hm
        rw [h3, if_neg (by
          intro he
          exact hnd.1 ((snoc_inj he).2 ▸ hm))]
        exact hfree m (List.mem_cons_of_mem _ hm))
    refine ⟨F', ?_, g2, ?_, ?_⟩
    · simp only [List.map_cons, forEach]
      rw [hrel, ← List.append_assoc, h1]
      exact g1
    · intro m hm
      rcases List.mem_cons.1 hm with rfl | h
      · rw [g4 _ (by
          intro k hk he
          exact hnd.1 ((snoc_inj he).2 ▸ hk)), h3, if_pos rfl]
      · exact g3 m h
    · intro x hx
      rw [g4 x fun m hm => hx m (List.mem_cons_of_mem _ hm), h3,
        if_neg (hx n (List.mem_cons_self ..))]

/-! ### Walks -/

/-- The names of the directories and of the files of a directory. -/
def dirNames (fs : FS C) (p : Path) : List String := (fs.names p).filter fun n => isDir fs (p ++ [n])
def fileNames (fs : FS C) (p : Path) : List String :=
  (fs.names p).filter fun n => !isDir fs (p ++ [n])

theorem filter_snoc (f : Path → Bool) (p : Path) (l : List String) :
    (l.map fun n => p ++ [n]).filter f = (l.filter fun n => f (p ++ [n])).map fun n => p ++ [n] := by
  rw [List.filter_map]
  rfl

theorem map_base (p : Path) (l : List String) : (l.map fun n => p ++ [n]).map baseName = l := by
  rw [List.map_map]
  conv => rhs; rw [← List.map_id l]
  refine List.map_congr_left ?_
  intro n _
  simp [Function.comp, baseName_snoc]

/-- One step of an unsorted walk in a directory. -/
theorem walk_dir (fs : FS C) (k : Nat) (p : Path) (hd : fs.content p = some .dir) :
    walk fs false (k + 1) p = match mapPy (walk fs false k) ((dirNames fs p).map fun n => p ++ [n]) with
      | .error e => .error e
      | .ok rest => .ok ((p, (dirNames fs p).map (fun n => p ++ [n]), fileNames fs p) :: rest.flatten) := by
  simp only [walk, ls, hd, sortPaths, sortNames, Bool.false_eq_true, if_false, filter_snoc, map_base]
  rfl

theorem mem_dirNames (fs : FS C) (hg : GoodFS fs) (p : Path) (n : String) :
    n ∈ dirNames fs p ↔ fs.content (p ++ [n]) = some .dir := by
  unfold dirNames
  rw [List.mem_filter, isDir_iff, hg.names]
  constructor
  · exact fun h => h.2
  · intro h; exact ⟨by rw [h]; simp, h⟩

theorem mem_fileNames (fs : FS C) (hg : GoodFS fs) (p : Path) (n : String) :
    n ∈ fileNames fs p ↔ ∃ c, fs.content (p ++ [n]) = some (.file c) := by
  unfold fileNames
  rw [List.mem_filter, Bool.not_eq_true', isDir_false, hg.names]
  constructor
  · rintro ⟨h1, h2⟩
    cases hc : fs.content (p ++ [n]) with
    | none => exact absurd hc h1
    | some e => cases e with
      | dir => exact absurd hc h2
      | file c => exact ⟨c, rfl⟩
  · rintro ⟨c, hc⟩
    rw [hc]
    simp

/-- The copies of the directories of a walk. -/
theorem copy_walk (source target : Path) (hap : Unrelated source target) (F0 : FS C) (hg0 : GoodFS F0)
    (k : Nat) : ∀ (q : Path) (F : FS C), F0.content (source ++ q) = some .dir →
      NotDeeper F0 (source ++ q) k → GoodFS F →
      (∀ r, F.content (source ++ r) = F0.content (source ++ r)) →
      F.content (target ++ q) = some .dir → (∀ n, F.content (target ++ q ++ [n]) = none) →
      ∃ w F', walk F0 false k (source ++ q) = .ok w ∧ forEach (copyItem source target) F w = .ok F' ∧
        GoodFS F' ∧ SameTree F' (target ++ q) F0 (source ++ q) ∧
        ∀ x, ¬ target ++ q <+: x → F'.content x = F.content x := by
  induction k with
  | zero =>
    intro q F hd hk
    exact absurd (hk [] (by rw [List.append_nil, hd]; simp)) (by simp)
  | succ k ih =>
    intro q F hd hk hg hsrc ht hempty
    -- the files and the directories
    obtain ⟨F1, a1, a2, a3, a4⟩ := copy_names F0 source target q hap (fileNames F0 (source ++ q))
      (fun n hn => (mem_fileNames F0 hg0 _ n).1 hn) F hg hsrc ht
      (fun n _ => by rw [hempty n]; simp)
    have hnd : (dirNames F0 (source ++ q)).Nodup := (hg0.nodup _).sublist List.filter_sublist
    have hdisj : ∀ n ∈ dirNames F0 (source ++ q), n ∉ fileNames F0 (source ++ q) := by
      intro n h1 h2
      obtain ⟨c, hc⟩ := (mem_fileNames F0 hg0 _ n).1 h2
      rw [(mem_dirNames F0 hg0 _ n).1 h1] at hc
      cases hc
    obtain ⟨F2, b1, b2, b3, b4⟩ := make_names source target q (dirNames F0 (source ++ q)) hnd F1 a2
      (by
        rw [a4 _ fun n _ => snoc_ne_self _ _]
        exact ht) (by
        intro n hn
        rw [a4 _ (by
          intro m hm he
          exact hdisj n hn ((snoc_inj he).2 ▸ hm))]
        exact hempty n)
    have hsrc2 : ∀ r, F2.content (source ++ r) = F0.content (source ++ r) := by
      intro r
      rw [b4 _ fun n _ => by rw [List.append_assoc]; exact apart_below hap _ _,
        a4 _ fun n _ => by rw [List.append_assoc]; exact apart_below hap _ _, hsrc]
    have hF2 : ∀ x, (∀ n, x ≠ target ++ q ++ [n]) → F2.content x = F.content x := by
      intro x hx
      rw [b4 x fun n _ => hx n, a4 x fun n _ => hx n]
    have hone : ∀ n, F2.content (target ++ q ++ [n]) = F0.content (source ++ q ++ [n]) := by
      intro n
      by_cases h1 : n ∈ dirNames F0 (source ++ q)
      · rw [b3 n h1, (mem_dirNames F0 hg0 _ n).1 h1]
      · rw [b4 (target ++ q ++ [n]) fun m hm he => h1 ((snoc_inj he).2 ▸ hm)]
        by_cases h2 : n ∈ fileNames F0 (source ++ q)
        · exact a3 n h2
        · rw [a4 (target ++ q ++ [n]) fun m hm he => h2 ((snoc_inj he).2 ▸ hm), hempty n]
          cases hc : F0.content (source ++ q ++ [n]) with
          | none => rfl
          | some e => cases e with
            | dir => exact absurd ((mem_dirNames F0 hg0 _ n).2 hc) h1
            | file c => exact absurd ((mem_fileNames F0 hg0 _ n).2 ⟨c, hc⟩) h2
    have hempty2 : ∀ n m, F2.content (target ++ q ++ [n] ++ [m]) = none := by
      intro n m
      rw [hF2 _ fun j he => snoc_ne_self (target ++ q) n (snoc_inj he).1.symm]
      apply Classical.byContradiction
      intro hc
      have := hg.parents _ _ hc
      rw [hempty n] at this
      cases this
    -- the directories below
    have inner : ∀ (ds : List String), ds.Nodup → (∀ n ∈ ds, n ∈ dirNames F0 (source ++ q)) →
        ∀ F : FS C, GoodFS F → (∀ r, F.content (source ++ r) = F0.content (source ++ r)) →
        (∀ n ∈ ds, F.content (target ++ q ++ [n]) = some .dir) →
        (∀ n ∈ ds, ∀ m, F.content (target ++ q ++ [n] ++ [m]) = none) →
        ∃ ws F', mapPy (walk F0 false k) (ds.map fun n => source ++ q ++ [n]) = .ok ws ∧
          forEach (copyItem source target) F ws.flatten = .ok F' ∧ GoodFS F' ∧
          (∀ n ∈ ds, SameTree F' (target ++ q ++ [n]) F0 (source ++ q ++ [n])) ∧
          ∀ x, (∀ n ∈ ds, ¬ target ++ q ++ [n] <+: x) → F'.content x = F.content x := by
      intro ds
      induction ds with
      | nil =>
        intro _ _ F hg _ _ _
        exact ⟨[], F, rfl, rfl, hg, (fun n hn => by cases hn), fun _ _ => rfl⟩
      | cons n t iht =>
        intro hnd hsub F hg hsrc hdir hemp
        rw [List.nodup_cons] at hnd
        have hn := hsub n (List.mem_cons_self ..)
        obtain ⟨w, F1, c1, c2, c3, c4, c5⟩ := ih (q ++ [n]) F
          (by rw [← List.append_assoc]; exact (mem_dirNames F0 hg0 _ n).1 hn) (by
            intro r hr
            have := hk (n :: r) (by
              rw [show source ++ q ++ n :: r = source ++ (q ++ [n]) ++ r by simp]
              exact hr)
            simp only [List.length_cons] at this
            omega) hg hsrc
          (by rw [← List.append_assoc]; exact hdir n (List.mem_cons_self ..))
          (by
            intro m
            rw [← List.append_assoc]
            exact hemp n (List.mem_cons_self ..) m)
        rw [← List.append_assoc] at c1 c4 c5
        have hother : ∀ m ∈ t, ∀ r, ¬ target ++ q ++ [n] <+: target ++ q ++ [m] ++ r := by
          intro m hm r hp
          exact hnd.1 (snoc_prefix hp ▸ hm)
        obtain ⟨ws, F', d1, d2, d3, d4, d5⟩ := iht hnd.2
          (fun m hm => hsub m (List.mem_cons_of_mem _ hm)) F1 c3 (by
            intro r
            rw [c5 _ (by rw [List.append_assoc]; exact apart_not_prefix hap _ _)]
            exact hsrc r) (by
            intro m hm
            rw [c5 _ (by have := hother m hm []; rwa [List.append_nil] at this)]
            exact hdir m (List.mem_cons_of_mem _ hm)) (by
            intro m hm j
            rw [c5 _ (hother m hm [j])]
            exact hemp m (List.mem_cons_of_mem _ hm) j)
        refine ⟨w :: ws, F', ?_, ?_, d3, ?_, ?_⟩
        · simp only [List.map_cons, mapPy, bind, Except.bind, c1, d1]
        · rw [List.flatten_cons, forEach_append _ _ F1 _ _ c2]
          exact d2
        · intro m hm
          rcases List.mem_cons.1 hm with rfl | h
          · intro r
            rw [d5 _ (by
              intro j hj hp
              exact hnd.1 (snoc_prefix hp ▸ hj))]
            have := c4 r
            rw [← List.append_assoc] at this
            exact this
          · exact d4 m h
        · intro x hx
          rw [d5 x fun m hm => hx m (List.mem_cons_of_mem _ hm), c5 x (hx n (List.mem_cons_self ..))]
    obtain ⟨ws, F', e1, e2, e3, e4, e5⟩ := inner (dirNames F0 (source ++ q)) hnd (fun _ h => h) F2 b2
      hsrc2 b3 (fun n _ m => hempty2 n m)
    refine ⟨_, F', by rw [walk_dir F0 k _ hd, e1], ?_, e3, ?_, ?_⟩
    · simp only [forEach, copyItem, a1, b1]
      exact e2
    · intro r
      cases r with
      | nil =>
        rw [List.append_nil, List.append_nil, hd, e5 _ (by
          intro n _ hp
          have := hp.length_le
          simp at this
          omega), hF2 _ fun n => snoc_ne_self _ _]
        exact ht
      | cons n r =>
        rw [show target ++ q ++ n :: r = target ++ q ++ [n] ++ r by simp,
          show source ++ q ++ n :: r = source ++ q ++ [n] ++ r by simp]
        by_cases h1 : n ∈ dirNames F0 (source ++ q)
        · exact e4 n h1 r
        · have hnot : ∀ m ∈ dirNames F0 (source ++ q), ¬ target ++ q ++ [m] <+: target ++ q ++ [n] ++ r := by
            intro m hm hp
            exact h1 (snoc_prefix hp ▸ hm)
          rw [e5 _ hnot]
          cases r with
          | nil => rw [List.append_nil, List.append_nil]; exact hone n
          | cons m r =>
            rw [show target ++ q ++ [n] ++ m :: r = target ++ q ++ [n] ++ [m] ++ r by simp,
              none_below F2 b2 _ r (hempty2 n m)]
            apply Eq.symm
            apply Classical.byContradiction
            intro hc
            rcases below_dir F0 hg0 (source ++ q ++ [n]) (m :: r) hc with h2 | h2
            · cases h2
            · exact h1 ((mem_dirNames F0 hg0 _ n).2 h2)
    · intro x hx
      rw [e5 x fun n _ hp => hx ((List.prefix_append _ _).trans hp), hF2 x ?_]
      rintro n rfl
      exact hx ⟨[n], rfl⟩

end Verif
