import Verif.Props.Tree
import Verif.Props.Batches

/-! C46: copies of collections. -/

namespace Verif

open Spec Tree
open Ds (mapPy)

variable {C : Type}

theorem forEach_flatten {α : Type} (f : FS C → α → Py (FS C)) (fs : FS C) (l : List (List α)) :
    forEach (fun fs block => forEach f fs block) fs l = forEach f fs l.flatten := by
  induction l generalizing fs with
  | nil => rfl
  | cons b t ih =>
    simp only [forEach, List.flatten_cons]
    cases h : forEach f fs b with
    | error e =>
      have : ∀ (a c : List α) (fs : FS C), forEach f fs a = .error e → forEach f fs (a ++ c) = .error e := by
        intro a c
        induction a with
        | nil => intro fs h; simp [forEach] at h
        | cons x a iha =>
          intro fs h
          simp only [forEach, List.cons_append] at h ⊢
          split at h
          · next e' h1 => rw [h]
          · next fs1 h1 => exact iha fs1 h
      rw [this b t.flatten fs h]
    | ok fs1 =>
      rw [forEach_append f fs fs1 b _ h]
      exact ih fs1

theorem forEach_map {α β : Type} (f : FS C → β → Py (FS C)) (g : α → β) (fs : FS C) (l : List α) :
    forEach f fs (l.map g) = forEach (fun fs a => f fs (g a)) fs l := by
  induction l generalizing fs with
  | nil => rfl
  | cons a t ih =>
    simp only [List.map_cons, forEach]
    cases f fs (g a) with
    | error e => rfl
    | ok fs1 => exact ih fs1

/-- The copies of the partitions. -/
theorem copy_parts (fs : FS C) (limit : Nat) (base target : Path) (hap : Unrelated base target)
    (depth : Nat) (hdepth : 0 < depth) (rels : List Path) (hnd : rels.Nodup)
    (hlen : ∀ rel ∈ rels, rel.length = depth)
    (hdir : ∀ rel ∈ rels, fs.content (base ++ rel) = some .dir)
    (hk : ∀ rel ∈ rels, NotDeeper fs (base ++ rel) limit)
    (F : FS C) (hg : GoodFS F) (hsrc : ∀ r, F.content (base ++ r) = fs.content (base ++ r))
    (hfree : ∀ rel ∈ rels, F.content (target ++ rel) = none)
    (hanc : ∀ rel ∈ rels, ∀ u, u <+: target ++ rel → ∀ c, F.content u ≠ some (.file c)) :
    ∃ F', forEach (fun fs p => copyTree limit fs p (target ++ relpath p base)) F
        (rels.map fun rel => base ++ rel) = .ok F' ∧ GoodFS F' ∧
      (∀ rel ∈ rels, SameTree F' (target ++ rel) fs (base ++ rel)) ∧
      (∀ rel ∈ rels, ∀ x, x <+: target ++ rel → F'.content x = some .dir) ∧
      ∀ x, (∀ rel ∈ rels, ¬ target ++ rel <+: x ∧ ¬ x <+: target ++ rel) →
        F'.content x = F.content x := by
  induction rels generalizing F with
  | nil => exact ⟨F, rfl, hg, (fun _ h => by cases h), (fun _ h => by cases h), fun _ _ => rfl⟩
  | cons rel t ih =>
    rw [List.nodup_cons] at hnd
    have hm := List.mem_cons_self (a := rel) (l := t)
    have hne : rel ≠ [] := by
      rintro rfl
      have := hlen [] hm
      simp at this
      omega
    obtain ⟨F1, a1, a2, a3, a4, a5⟩ := C53_copy F hg limit (base ++ rel) (target ++ rel)
      (by rw [hsrc]; exact hdir rel hm) (by
        intro q hq
        rw [List.append_assoc, hsrc, ← List.append_assoc] at hq
        exact hk rel hm q hq) (hfree rel hm)
      (fun hp => apart_not_prefix ⟨hap.2, hap.1⟩ _ _ hp) (hanc rel hm)
    -- two partitions do not contain one another
    have hother : ∀ r ∈ t, ¬ target ++ rel <+: target ++ r ∧ ¬ target ++ r <+: target ++ rel := by
      intro r hr
      have hl : rel.length = r.length := by
        rw [hlen rel hm, hlen r (List.mem_cons_of_mem _ hr)]
      rw [List.prefix_append_right_inj, List.prefix_append_right_inj]
      exact ⟨fun h => hnd.1 (h.eq_of_length hl ▸ hr), fun h => hnd.1 (h.eq_of_length hl.symm ▸ hr)⟩
    have hsrc1 : ∀ r, F1.content (base ++ r) = fs.content (base ++ r) := by
      intro r
      rw [a5 _ (apart_not_prefix hap _ _) (by
        intro hp
        exact hap.1 (by
          rcases prefix_total ((List.prefix_append base r).trans hp) (List.prefix_append target rel) with h | h
          · exact h
          · exact absurd h hap.2)), hsrc]
    obtain ⟨F', b1, b2, b3, b4, b5⟩ := ih hnd.2 (fun r hr => hlen r (List.mem_cons_of_mem _ hr))
      (fun r hr => hdir r (List.mem_cons_of_mem _ hr)) (fun r hr => hk r (List.mem_cons_of_mem _ hr))
      F1 a2 hsrc1 (by
        intro r hr
        rw [a5 _ (hother r hr).1 (hother r hr).2]
        exact hfree r (List.mem_cons_of_mem _ hr)) (by
        intro r hr u hu c
        by_cases h1 : u <+: target ++ rel
        · rw [a4 u h1]; simp
        · rw [a5 u (fun h2 => (hother r hr).1 (h2.trans hu)) h1]
          exact hanc r (List.mem_cons_of_mem _ hr) u hu c)
    refine ⟨F', ?_, b2, ?_, ?_, ?_⟩
    · simp only [List.map_cons, forEach]
      rw [relpath_append _ _ hne, a1]
      exact b1
    · intro r hr
      rcases List.mem_cons.1 hr with rfl | hr
      · intro q
        by_cases hq : ∃ r' ∈ t, target ++ r ++ q <+: target ++ r'
        · obtain ⟨r', hr', hp⟩ := hq
          exact absurd ((List.prefix_append _ _).trans hp) (hother r' hr').1
        · rw [b5 _ (by
            intro r' hr'
            refine ⟨?_, fun hp => hq ⟨r', hr', hp⟩⟩
            intro hp
            rcases prefix_total hp (List.prefix_append (target ++ r) q) with h | h
            · exact (hother r' hr').2 h
            · exact (hother r' hr').1 h), a3 q, List.append_assoc, hsrc]
      · exact b3 r hr
    · intro r hr x hx
      rcases List.mem_cons.1 hr with rfl | hr
      · by_cases hq : ∃ r' ∈ t, x <+: target ++ r'
        · obtain ⟨r', hr', hp⟩ := hq
          exact b4 r' hr' x hp
        · rw [b5 x (by
            intro r' hr'
            exact ⟨fun hp => (hother r' hr').2 (hp.trans hx), fun hp => hq ⟨r', hr', hp⟩⟩)]
          exact a4 x hx
      · exact b4 r hr x hx
    · intro x hx
      rw [b5 x fun r hr => hx r (List.mem_cons_of_mem _ hr), a5 x (hx rel hm).1 (hx rel hm).2]

/-- The copy of a collection has the selected partitions with all that they store, and the files at
the root of the collection.  It has nothing else, and nothing else is modified.  Partial: a filter
that selects no partition raises, and the directory of the immutable variables is not copied
(`C46_counterexample`). -/
theorem C46_copy_partial (fs : FS C) (hg : GoodFS fs) (limit : Nat) (base target : Path)
    (depth : Nat) (hdepth : 0 < depth) (rels : List Path) (hne : rels ≠ []) (hnd : rels.Nodup)
    (hvis : ∀ rel ∈ rels, VisibleDir fs base depth (base ++ rel))
    (hk : ∀ rel ∈ rels, NotDeeper fs (base ++ rel) limit) (hap : Unrelated base target)
    (ht : fs.content target = none)
    (hanc : ∀ u, u <+: target → ∀ c, fs.content u ≠ some (.file c)) (n : Int) (hn : 0 < n) :
    ∃ fs', copyCollection limit fs base target (rels.map fun rel => base ++ rel) n = .ok fs' ∧
      (∀ rel ∈ rels, SameTree fs' (target ++ rel) fs (base ++ rel)) ∧
      (∀ m c, fs.content (base ++ [m]) = some (.file c) →
        fs'.content (target ++ [m]) = some (.file c)) ∧
      (∀ rel, VisibleDir fs' target depth (target ++ rel) ↔ rel ∈ rels) ∧
      (∀ x, fs'.content (target ++ x) ≠ none → (∃ rel ∈ rels, rel <+: x ∨ x <+: rel) ∨
        ∃ m c, x = [m] ∧ fs.content (base ++ [m]) = some (.file c)) ∧
      ∀ x, ¬ target <+: x → ¬ x <+: target → fs'.content x = fs.content x := by
  have hlen : ∀ rel ∈ rels, rel.length = depth := by
    intro rel hr
    obtain ⟨r, h1, h2, _⟩ := hvis rel hr
    rw [List.append_cancel_left h1]
    exact h2
  have hdir : ∀ rel ∈ rels, fs.content (base ++ rel) = some .dir := by
    intro rel hr
    obtain ⟨r, _, _, h3, _⟩ := hvis rel hr
    exact h3
  obtain ⟨bs, s1, s2, _⟩ := C19_split_sequence
    ((rels.map fun rel => base ++ rel).map fun p => (p, target ++ relpath p base)) (some n)
    (by simpa using hne) (by rintro k hk'; cases hk'; exact hn)
  obtain ⟨F1, a1, a2, a3, a4, a5⟩ := copy_parts fs limit base target hap depth hdepth rels hnd hlen
    hdir hk fs hg (fun _ => rfl) (fun rel _ => none_below fs hg target rel ht) (by
      intro rel _ u hu c hc
      rcases prefix_total hu (List.prefix_append target rel) with h | h
      · exact hanc u h c hc
      · obtain ⟨q, rfl⟩ := h
        rw [none_below fs hg target q ht] at hc
        cases hc)
  have hunrel : ∀ r x, ¬ target <+: x → ¬ x <+: target → ¬ target ++ r <+: x ∧ ¬ x <+: target ++ r := by
    intro r x h1 h2
    refine ⟨fun hp => h1 ((List.prefix_append _ _).trans hp), ?_⟩
    intro hp
    rcases prefix_total hp (List.prefix_append target r) with h | h
    · exact h2 h
    · exact h1 h
  have hsrc1 : ∀ r, F1.content (base ++ r) = fs.content (base ++ r) := by
    intro r
    refine a5 _ fun rel _ => ?_
    refine ⟨apart_not_prefix hap _ _, ?_⟩
    intro hp
    rcases prefix_total ((List.prefix_append base r).trans hp) (List.prefix_append target rel) with h | h
    · exact hap.1 h
    · exact hap.2 h
  obtain ⟨rel0, hrel0⟩ := List.exists_mem_of_ne_nil _ hne
  have hbase : F1.content base = some .dir := by
    have h1 := hdir rel0 hrel0
    have h2 := hsrc1 []
    rw [List.append_nil] at h2
    rw [h2]
    refine ancestor_dir fs hg (base ++ rel0) base (by rw [h1]; simp) (List.prefix_append _ _) ?_
    intro he
    have := congrArg List.length he
    rw [List.length_append, hlen rel0 hrel0] at this
    omega
  -- a name of the root of the copy is that of the first component of a partition
  have hroot : ∀ m, (∃ rel ∈ rels, [m] <+: rel) ∨ F1.content (target ++ [m]) = none := by
    intro m
    by_cases h : ∃ rel ∈ rels, [m] <+: rel
    · exact .inl h
    · refine .inr ?_
      rw [a5 _ ?_]
      · exact none_below fs hg target [m] ht
      · intro rel hr
        rw [List.prefix_append_right_inj, List.prefix_append_right_inj]
        refine ⟨?_, fun hp => h ⟨rel, hr, hp⟩⟩
        intro hp
        have h1 := hp.length_le
        rw [hlen rel hr, List.length_singleton] at h1
        have h2 : rel = [m] := hp.eq_of_length (by rw [hlen rel hr, List.length_singleton]; omega)
        exact h ⟨rel, hr, h2 ▸ List.prefix_refl _⟩
  obtain ⟨F2, b1, b2, b3, b4⟩ := copy_names fs base target [] hap (fileNames F1 base) (by
      intro m hm
      obtain ⟨c, hc⟩ := (mem_fileNames F1 a2 base m).1 hm
      rw [hsrc1] at hc
      exact ⟨c, by rw [List.append_nil]; exact hc⟩) F1 a2 hsrc1 (by
      rw [List.append_nil]
      exact a4 rel0 hrel0 target (List.prefix_append _ _)) (by
      intro m hm
      obtain ⟨c, hc⟩ := (mem_fileNames F1 a2 base m).1 hm
      rw [hsrc1] at hc
      rw [List.append_nil]
      rcases hroot m with ⟨rel, hr, hp⟩ | h
      · have hmd : fs.content (base ++ [m]) = some .dir := by
          by_cases he : [m] = rel
          · rw [he]; exact hdir rel hr
          · refine ancestor_dir fs hg (base ++ rel) (base ++ [m]) (by rw [hdir rel hr]; simp)
              ((List.prefix_append_right_inj _).2 hp) ?_
            intro he'
            exact he (List.append_cancel_left he')
        rw [hc] at hmd
        cases hmd
      · rw [h]; simp)
  rw [List.append_nil] at b3 b4
  rw [List.append_nil] at b3
  have hnot : ∀ x, (∀ m c, fs.content (base ++ [m]) = some (.file c) → x ≠ target ++ [m]) →
      F2.content x = F1.content x := by
    intro x hx
    refine b4 x fun m hm => ?_
    obtain ⟨c, hc⟩ := (mem_fileNames F1 a2 base m).1 hm
    rw [hsrc1] at hc
    exact hx m c hc
  -- the partitions are not modified by the copies of the files
  have hpart : ∀ rel ∈ rels, ∀ x, rel <+: x ∨ x <+: rel → F2.content (target ++ x) = F1.content (target ++ x) := by
    intro rel hr x hx
    refine hnot _ ?_
    intro m c hc he
    have hxm := List.append_cancel_left he
    subst hxm
    have hpre : [m] <+: rel := by
      rcases hx with h | h
      · have h1 := h.length_le
        rw [hlen rel hr, List.length_singleton] at h1
        have : rel = [m] := h.eq_of_length (by rw [hlen rel hr, List.length_singleton]; omega)
        exact this ▸ List.prefix_refl _
      · exact h
    by_cases hem : [m] = rel
    · rw [hem, hdir rel hr] at hc; cases hc
    · have := ancestor_dir fs hg (base ++ rel) (base ++ [m]) (by rw [hdir rel hr]; simp)
        ((List.prefix_append_right_inj _).2 hpre) (fun h => hem (List.append_cancel_left h))
      rw [hc] at this
      cases this
  have hsame : ∀ rel ∈ rels, SameTree F2 (target ++ rel) fs (base ++ rel) := by
    intro rel hr q
    have := hpart rel hr (rel ++ q) (.inl (List.prefix_append _ _))
    rw [← List.append_assoc] at this
    rw [this]
    exact a3 rel hr q
  have honly : ∀ x, F2.content (target ++ x) ≠ none → (∃ rel ∈ rels, rel <+: x ∨ x <+: rel) ∨
      ∃ m c, x = [m] ∧ fs.content (base ++ [m]) = some (.file c) := by
    intro x hx
    apply Classical.byContradiction
    intro hc
    rw [not_or] at hc
    apply hx
    rw [hnot _ (fun m c h1 h2 => hc.2 ⟨m, c, List.append_cancel_left h2, h1⟩), a5 _ (by
      intro rel hr
      rw [List.prefix_append_right_inj, List.prefix_append_right_inj]
      exact ⟨fun h => hc.1 ⟨rel, hr, .inl h⟩, fun h => hc.1 ⟨rel, hr, .inr h⟩⟩)]
    exact none_below fs hg target x ht
  have hfiles : ∀ m c, fs.content (base ++ [m]) = some (.file c) →
      F2.content (target ++ [m]) = some (.file c) := by
    intro m c hc
    have h1 : m ∈ fileNames F1 base := (mem_fileNames F1 a2 base m).2 ⟨c, by rw [hsrc1]; exact hc⟩
    rw [b3 m h1, hc]
  refine ⟨F2, ?_, hsame, hfiles, ?_, honly, ?_⟩
  · unfold copyCollection
    rw [s1]
    simp only
    rw [forEach_flatten, s2, forEach_map, a1]
    simp only [ls, hbase, copyFiles]
    rw [filter_snoc, forEach_map]
    have : (fun (fs : FS C) (a : String) => copyFile fs (base ++ [a]) (target ++ [baseName (base ++ [a])])) =
        fun fs name => copyFile fs (base ++ [] ++ [name]) (target ++ relpath (base ++ [] ++ [name]) base) := by
      funext f a
      rw [List.append_nil, baseName_snoc, relpath_append _ _ (by simp)]
    rw [this]
    exact b1
  · intro rel
    constructor
    · rintro ⟨r, h1, h2, h3, h4⟩
      have := List.append_cancel_left h1
      subst this
      rcases honly rel (by rw [h3]; simp) with ⟨r, hr, h⟩ | ⟨m, c, rfl, hc⟩
      · have hl : rel.length = r.length := by rw [h2, hlen r hr]
        rcases h with h | h
        · exact h.eq_of_length hl.symm ▸ hr
        · exact h.eq_of_length hl ▸ hr
      · rw [hfiles m c hc] at h3
        cases h3
    · intro hr
      obtain ⟨r, h1, h2, h3, h4⟩ := hvis rel hr
      have := List.append_cancel_left h1
      subst this
      refine ⟨rel, rfl, h2, ?_, h4⟩
      have := hsame rel hr []
      rw [List.append_nil, List.append_nil] at this
      rw [this]
      exact h3
  · intro x h1 h2
    rw [hnot x (by
      rintro m c _ rfl
      exact h1 (List.prefix_append _ _)), a5 x fun rel _ => hunrel rel x h1 h2]

/-- A copy without partition raises. -/
theorem C46_empty_raises (fs : FS C) (limit : Nat) (base target : Path) (n : Int) (hn : 0 < n) :
    copyCollection limit fs base target [] n = .error .zeroDivisionError := by
  have : Batches.splitSequence ([] : List (Path × Path)) (some n) = .error .zeroDivisionError := by
    simp [Batches.splitSequence]
    omega
  simp only [copyCollection, List.map_nil, this]

/-- The full statement: what is at the root of the collection, except the directories of the
partitions that are not selected, is copied too. -/
def C46_full : Prop :=
  ∀ (fs : FS Nat), GoodFS fs → ∀ (limit : Nat) (base target : Path) (depth : Nat), 0 < depth →
    ∀ (rels : List Path), rels ≠ [] → rels.Nodup →
    (∀ rel ∈ rels, VisibleDir fs base depth (base ++ rel)) →
    (∀ p, NotDeeper fs p limit) → Unrelated base target → fs.content target = none →
    (∀ u, u <+: target → ∀ c, fs.content u ≠ some (.file c)) → ∀ (n : Int), 0 < n →
    ∃ fs', copyCollection limit fs base target (rels.map fun rel => base ++ rel) n = .ok fs' ∧
      (∀ rel ∈ rels, SameTree fs' (target ++ rel) fs (base ++ rel)) ∧
      SameTree fs' (target ++ [".immutable"]) fs (base ++ [".immutable"])

/-- The directory of the immutable variables is not copied. -/
theorem C46_immutable_lost (fs : FS C) (hg : GoodFS fs) (limit : Nat) (base target : Path)
    (depth : Nat) (hdepth : 0 < depth) (rels : List Path) (hne : rels ≠ []) (hnd : rels.Nodup)
    (hvis : ∀ rel ∈ rels, VisibleDir fs base depth (base ++ rel))
    (hk : ∀ rel ∈ rels, NotDeeper fs (base ++ rel) limit) (hap : Unrelated base target)
    (ht : fs.content target = none)
    (hanc : ∀ u, u <+: target → ∀ c, fs.content u ≠ some (.file c)) (n : Int) (hn : 0 < n)
    (him : fs.content (base ++ [".immutable"]) = some .dir) :
    ∃ fs', copyCollection limit fs base target (rels.map fun rel => base ++ rel) n = .ok fs' ∧
      fs'.content (target ++ [".immutable"]) = none := by
  obtain ⟨fs', h1, _, _, _, h2, _⟩ := C46_copy_partial fs hg limit base target depth hdepth rels hne
    hnd hvis hk hap ht hanc n hn
  refine ⟨fs', h1, ?_⟩
  apply Classical.byContradiction
  intro hc
  rcases h2 [".immutable"] hc with ⟨rel, hr, h⟩ | ⟨m, c, hm, hf⟩
  · obtain ⟨r, e1, e2, e3, e4⟩ := hvis rel hr
    have := List.append_cancel_left e1
    subst this
    have hhead : rel.head? = some ".immutable" := by
      cases rel with
      | nil => simp at e2; omega
      | cons a t =>
        rcases h with h | h
        · rw [List.cons_prefix_cons] at h
          rw [h.1]; rfl
        · rw [List.cons_prefix_cons] at h
          rw [h.1]; rfl
    exact e4 _ hhead (by decide)
  · cases hm
    rw [him] at hf
    cases hf

/-- A collection with two partitions, a configuration, and immutable variables. -/
def smallCollection : FS Nat :=
  addEntry (addEntry (addEntry (addEntry (addEntry (addEntry emptyFS [] "s" .dir)
    ["s"] ".zcollection" (.file 1)) ["s"] ".immutable" .dir) ["s"] "y=1" .dir) ["s"] "y=2" .dir)
    ["s", "y=2"] "z" (.file 3)

theorem smallCollection_good : GoodFS smallCollection := by
  refine good_addEntry _ (good_addEntry _ (good_addEntry _ (good_addEntry _ (good_addEntry _
    (good_addEntry _ emptyFS_good _ _ _ ?_ ?_) _ _ _ ?_ ?_) _ _ _ ?_ ?_) _ _ _ ?_ ?_) _ _ _ ?_ ?_)
    _ _ _ ?_ ?_ <;>
    first | rfl | (intro h; cases h)

theorem smallCollection_depth (p : Path) : NotDeeper smallCollection p 4 := by
  intro q hq
  have : (p ++ q).length ≤ 3 := by
    simp only [smallCollection, content_addEntry, emptyFS] at hq
    repeat' split at hq
    all_goals first | (next h => rw [h]; decide) | exact absurd rfl hq
  simp only [List.length_append] at this
  omega

theorem smallCollection_target (u : Path) (hu : u <+: ["t"]) (c : Nat) :
    smallCollection.content u ≠ some (.file c) := by
  obtain ⟨v, hv⟩ := hu
  cases u with
  | nil => simp [smallCollection, content_addEntry, emptyFS]
  | cons a u =>
    have : a = "t" := by simpa using congrArg List.head? hv
    subst this
    simp [smallCollection, content_addEntry, emptyFS]

theorem smallCollection_visible (rel : Path) (h : rel ∈ [["y=1"], ["y=2"]]) :
    VisibleDir smallCollection ["s"] 1 (["s"] ++ rel) := by
  simp only [List.mem_cons, List.not_mem_nil, or_false] at h
  rcases h with rfl | rfl
  · exact ⟨["y=1"], rfl, rfl, rfl, by intro n hn; cases hn; decide⟩
  · exact ⟨["y=2"], rfl, rfl, rfl, by intro n hn; cases hn; decide⟩

theorem C46_counterexample : ¬ C46_full := by
  intro h
  obtain ⟨fs1, h1, _, h2⟩ := h smallCollection smallCollection_good 4 ["s"] ["t"] 1 (by decide)
    [["y=1"], ["y=2"]] (by decide) (by decide) smallCollection_visible smallCollection_depth
    ⟨by decide, by decide⟩ rfl smallCollection_target 2 (by decide)
  obtain ⟨fs2, g1, g2⟩ := C46_immutable_lost smallCollection smallCollection_good 4 ["s"] ["t"] 1
    (by decide) [["y=1"], ["y=2"]] (by decide) (by decide) smallCollection_visible
    (fun _ _ => smallCollection_depth _) ⟨by decide, by decide⟩ rfl smallCollection_target 2
    (by decide) rfl
  rw [h1] at g1
  cases g1
  have := h2 []
  rw [List.append_nil, g2] at this
  cases this

/-- The hypotheses of `C46_copy_partial` are met, with one of the two partitions. -/
example : ∃ fs', copyCollection 4 smallCollection ["s"] ["t"] [["s", "y=2"]] 1 = .ok fs' ∧
    ∀ rel, VisibleDir fs' ["t"] 1 (["t"] ++ rel) ↔ rel ∈ [["y=2"]] := by
  obtain ⟨fs', h1, _, _, h2, _⟩ := C46_copy_partial smallCollection smallCollection_good 4 ["s"]
    ["t"] 1 (by decide) [["y=2"]] (by decide) (by decide)
    (fun rel h => smallCollection_visible rel (List.mem_cons_of_mem _ h))
    (fun _ _ => smallCollection_depth _) ⟨by decide, by decide⟩ rfl smallCollection_target 1
    (by decide)
  exact ⟨fs', h1, h2⟩

end Verif
