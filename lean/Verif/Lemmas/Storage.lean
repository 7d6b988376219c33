import Verif.Spec.Storage

/-! Lemmas about the files of a partition. -/

namespace Verif.Storage

open Spec

variable {C : Type}

theorem run_append (fs : FS C) (a b : List (Step C)) : run fs (a ++ b) = run (run fs a) b := by
  simp [run]

theorem run_cons (fs : FS C) (a : Step C) (b : List (Step C)) :
    run fs (a :: b) = run (apply fs a) b := rfl

/-- Two prefixes of the same path are comparable. -/
theorem prefix_cases {a b q : Path} (ha : a <+: q) (hb : b <+: q) : a <+: b ∨ b <+: a :=
  List.prefix_or_prefix_of_prefix ha hb

theorem rename_outside {d s t q : Path} (hs : d <+: s) (ht : d <+: t) (hq : ¬ d <+: q)
    (fs : FS C) : rename s t fs q = fs q := by
  unfold rename
  rw [if_neg fun h => hq (ht.trans h), if_neg fun h => hq (hs.trans h)]

theorem apply_outside {d : Path} {st : Step C} (h : Below d st) (fs : FS C) :
    SameOutside d fs (apply fs st) := by
  intro q hq
  cases st with
  | mkdirs p =>
    simp only [apply]
    split
    · next hc =>
      rcases prefix_cases hc.1 h with hqd | hdq
      · right; exact ⟨hqd, by simpa using hc.2, rfl⟩
      · exact absurd hdq hq
    · left; rfl
  | write p c =>
    left
    simp only [apply]
    rw [if_neg]; rintro rfl; exact hq h
  | remove p =>
    left
    simp only [apply]
    rw [if_neg]; rintro rfl; exact hq h
  | move s t =>
    left
    have h1 : ∀ n, rename s (t ++ [n]) fs q = fs q := fun n =>
      rename_outside h.1 (h.2.trans (List.prefix_append _ _)) hq fs
    have h2 : rename s t fs q = fs q := rename_outside h.1 h.2 hq fs
    simp only [apply]
    rcases hft : fs t with _ | (_ | c)
    · simpa using h2
    · cases hs : s.getLast? with
      | none => simp
      | some n => simpa using h1 n
    · simpa using h2

theorem sameOutside_refl (d : Path) (fs : FS C) : SameOutside d fs fs := fun _ _ => .inl rfl

theorem sameOutside_trans {d : Path} {a b c : FS C} (h1 : SameOutside d a b)
    (h2 : SameOutside d b c) : SameOutside d a c := by
  intro q hq
  rcases h1 q hq with h | ⟨h, h', h''⟩
  · rcases h2 q hq with k | ⟨k, k', k''⟩
    · left; rw [k, h]
    · right; exact ⟨k, by rw [← h, k'], k''⟩
  · rcases h2 q hq with k | ⟨k, k', k''⟩
    · right; exact ⟨h, h', by rw [k, h'']⟩
    · rw [h''] at k'; cases k'

theorem run_outside {d : Path} (steps : List (Step C)) (h : ∀ s ∈ steps, Below d s) (fs : FS C) :
    SameOutside d fs (run fs steps) := by
  induction steps generalizing fs with
  | nil => exact sameOutside_refl d fs
  | cons s t ih =>
    exact sameOutside_trans (apply_outside (h s (by simp)) fs)
      (ih (fun x hx => h x (by simp [hx])) _)

theorem removeTree_outside (d : Path) (fs : FS C) : SameOutside d fs (removeTree d fs) := by
  intro q hq; left; simp [removeTree, hq]

theorem removeTree_below {d q : Path} (h : d <+: q) (fs : FS C) : removeTree d fs q = none := by
  simp [removeTree, h]

/-- What is below another directory is unchanged. -/
theorem sub_outside {d e : Path} {fs fs' : FS C} (h : SameOutside d fs fs') (hde : ¬ d <+: e)
    (hed : ¬ e <+: d) : sub fs' e = sub fs e := by
  funext rel
  rcases h (e ++ rel) (fun hc => by
    rcases prefix_cases hc (List.prefix_append e rel) with k | k
    · exact hde k
    · exact hed k) with k | ⟨k, _, _⟩
  · exact k
  · exact absurd ((List.prefix_append e rel).trans k) hed

theorem dropLast_append_of_ne_nil' {d r : Path} (hr : r ≠ []) :
    (d ++ r).dropLast = d ++ r.dropLast := by
  rw [List.dropLast_append_of_ne_nil hr]

theorem fileSteps_below (atomic : Bool) (d r : Path) (hr : r ≠ []) (c : C) :
    ∀ s ∈ fileSteps atomic (d ++ r) c, Below d s := by
  intro s hs
  simp only [fileSteps, dropLast_append_of_ne_nil' hr] at hs
  cases atomic <;> simp at hs
  · rcases hs with rfl | rfl | rfl <;> exact List.prefix_append _ _
  · rcases hs with rfl | rfl <;> exact List.prefix_append _ _

theorem writesSteps_below (atomic : Bool) (d : Path) (ws : List (Path × C))
    (h : ∀ w ∈ ws, w.1 ≠ []) :
    ∀ s ∈ ws.flatMap (fun w => fileSteps atomic (d ++ w.1) w.2), Below d s := by
  intro s hs
  obtain ⟨w, hw, hs⟩ := List.mem_flatMap.1 hs
  exact fileSteps_below atomic d w.1 (h w hw) w.2 s hs

theorem writes_ne {g : Group C} (hg : ValidGroup g) : ∀ w ∈ g.writes, w.1 ≠ [] := by
  intro w hw
  simp only [Group.writes, List.mem_cons, List.mem_append, List.not_mem_nil, or_false] at hw
  rcases hw with rfl | hw | rfl
  · simp
  · exact hg.notRoot w hw
  · simp

theorem groupSteps_below (atomic : Bool) (d : Path) {g : Group C} (hg : ValidGroup g) :
    ∀ s ∈ groupSteps atomic d g, Below d s :=
  writesSteps_below atomic d _ (writes_ne hg)

theorem removeSteps_below {d : Path} {order : List Path} (h : ∀ p ∈ order, d <+: p) :
    ∀ s ∈ removeSteps (C := C) order, Below d s := by
  intro s hs
  obtain ⟨p, hp, rfl⟩ := List.mem_map.1 hs
  exact h p hp

/-- Effect of the removal of a list of nodes. -/
theorem run_removeSteps (order : List Path) (fs : FS C) (q : Path) :
    run fs (removeSteps order) q = if q ∈ order then none else fs q := by
  induction order generalizing fs with
  | nil => simp [removeSteps, run]
  | cons p t ih =>
    have : run fs (removeSteps (p :: t)) = run (apply fs (.remove p)) (removeSteps t) := rfl
    rw [this, ih]
    simp only [apply, List.mem_cons]
    by_cases h1 : q ∈ t <;> by_cases h2 : q = p <;> simp [h1, h2]

theorem removed_of_covers {order : List Path} {d : Path} {fs : FS C} (h : Covers order d fs) :
    run fs (removeSteps order) = removeTree d fs := by
  funext q
  rw [run_removeSteps, removeTree]
  by_cases hq : q ∈ order
  · rw [if_pos hq, if_pos (h.below q hq)]
  · rw [if_neg hq]
    by_cases hd : d <+: q
    · rw [if_pos hd]
      by_cases hs : (fs q).isSome
      · exact absurd (h.all q hd hs) hq
      · simpa using hs
    · rw [if_neg hd]

/-! ### The tree that is written -/

theorem treeOf_snoc (ws : List (Path × C)) (w : Path × C) (rel : Path) :
    treeOf (ws ++ [w]) rel =
      if rel = w.1 then some (.file (some w.2))
      else if rel <+: w.1 ∧ (treeOf ws rel).isNone then some .dir else treeOf ws rel := by
  unfold treeOf
  obtain ⟨p, c⟩ := w
  simp only [List.reverse_append, List.reverse_cons, List.reverse_nil, List.nil_append,
    List.singleton_append, List.lookup_cons]
  by_cases h : rel = p
  · subst h; simp
  · have hb : (rel == p) = false := by simpa using h
    simp only [hb, if_neg h]
    cases hl : List.lookup rel ws.reverse with
    | some x => simp
    | none =>
      simp only [List.any_append, List.any_cons, List.any_nil, Bool.or_false]
      by_cases ha : (ws.any fun f => rel.isPrefixOf f.1) = true
      · simp [ha]
      · simp only [Bool.not_eq_true] at ha
        simp only [ha, Bool.false_or]
        simp

theorem run_fileSteps (atomic : Bool) (d r : Path) (hr : r ≠ []) (c : C) (fs : FS C) (rel : Path) :
    run fs (fileSteps atomic (d ++ r) c) (d ++ rel) =
      if rel = r then some (.file (some c))
      else if rel <+: r ∧ (fs (d ++ rel)).isNone then some .dir else fs (d ++ rel) := by
  have hp : rel ≠ r → ((d ++ rel) <+: (d ++ r.dropLast) ↔ rel <+: r) := by
    intro hne
    rw [List.prefix_append_right_inj]
    constructor
    · intro h; exact h.trans (List.dropLast_prefix r)
    · intro h
      have hl := h.length_le
      have : rel.length ≠ r.length := fun he => hne (h.eq_of_length he)
      rw [List.prefix_iff_eq_take] at h ⊢
      rw [List.dropLast_eq_take, List.take_take, Nat.min_eq_left (by omega)]
      exact h
  cases atomic <;>
  · simp only [fileSteps, dropLast_append_of_ne_nil' hr, run,
      List.append_nil, List.cons_append, List.nil_append, List.foldl_cons, List.foldl_nil, apply,
      if_true, Bool.false_eq_true, if_false, List.append_cancel_left_eq]
    by_cases h : rel = r
    · simp [h]
    · simp only [if_neg h, hp h]

theorem run_writes (atomic : Bool) (d : Path) (ws : List (Path × C)) (h : ∀ w ∈ ws, w.1 ≠ [])
    (fs : FS C) (hfs : ∀ rel, fs (d ++ rel) = none) :
    sub (run fs (ws.flatMap fun w => fileSteps atomic (d ++ w.1) w.2)) d = treeOf ws := by
  obtain ⟨rs, rfl⟩ : ∃ rs, ws = rs.reverse := ⟨ws.reverse, by simp⟩
  induction rs with
  | nil => funext rel; simp [run, sub, hfs, treeOf]
  | cons w t ih =>
    funext rel
    have ih' := fun rel => congrFun (ih fun x hx => h x (by simp at hx ⊢; exact .inl hx)) rel
    simp only [sub] at ih'
    simp only [List.reverse_cons, List.flatMap_append, run_append, sub, List.flatMap_cons,
      List.flatMap_nil, List.append_nil]
    rw [run_fileSteps atomic d w.1 (h w (by simp)), ih', treeOf_snoc]

theorem run_group (atomic : Bool) (d : Path) {g : Group C} (hg : ValidGroup g) (fs : FS C)
    (hfs : ∀ rel, fs (d ++ rel) = none) :
    sub (run fs (groupSteps atomic d g)) d = treeOf g.writes :=
  run_writes atomic d _ (writes_ne hg) fs hfs

/-- The move of a directory to a free place. -/
theorem move_free {s d : Path} {fs : FS C} (h : fs d = none) :
    apply fs (.move s d) = rename s d fs := by
  simp [apply, h]

/-- The move of a directory onto an existing one goes into it. -/
theorem move_onto {s d : Path} {fs : FS C} {n : String} (h : fs d = some .dir)
    (hs : s.getLast? = some n) : apply fs (.move s d) = rename s (d ++ [n]) fs := by
  simp [apply, h, hs]

theorem sub_rename (s d : Path) (fs : FS C) : sub (rename s d fs) d = sub fs s := by
  funext rel
  simp [sub, rename]

/-! ### Removal with retries -/

/-- The nodes removed by an attempt. -/
def Attempt.removed : Attempt → List Path
  | .complete => []
  | .incomplete r => r

theorem rmLoop_outside (d : Path) (n : Nat) (attempts : List Attempt) (fs : FS C)
    (hb : ∀ a ∈ attempts, ∀ p ∈ a.removed, d <+: p) :
    SameOutside d fs (rmLoop d n attempts fs) := by
  induction n generalizing attempts fs with
  | zero => exact sameOutside_refl d fs
  | succ n ih =>
    match attempts with
    | [] => exact sameOutside_refl d fs
    | .complete :: t => exact removeTree_outside d fs
    | .incomplete r :: t =>
      exact sameOutside_trans
        (run_outside _ (removeSteps_below (hb (.incomplete r) (by simp))) fs)
        (ih t _ fun x hx => hb x (by simp [hx]))

theorem rmLoop_complete (d : Path) (n : Nat) (attempts : List Attempt) (fs : FS C)
    (hc : Attempt.complete ∈ attempts.take n) (q : Path) (hq : d <+: q) :
    rmLoop d n attempts fs q = none := by
  induction n generalizing attempts fs with
  | zero => simp at hc
  | succ n ih =>
    match attempts with
    | [] => simp at hc
    | .complete :: t => exact removeTree_below hq fs
    | .incomplete r :: t => exact ih t _ (by simpa using hc)

theorem rmLoop_incomplete (d : Path) (n : Nat) (fs : FS C) :
    rmLoop d n (List.replicate n (.incomplete [])) fs = fs := by
  induction n with
  | zero => rfl
  | succ n ih => simpa [List.replicate_succ, rmLoop, removeSteps, run] using ih

/-! ### The temporary directory -/

theorem extractRoot_parts (root parts : Path) (hp : ∀ c ∈ parts, '=' ∈ c.toList) :
    extractRoot (root ++ parts) = extractRoot root := by
  have h : parts.filter (fun c => decide (¬ '=' ∈ c.toList)) = [] :=
    List.filter_eq_nil_iff.2 (by simpa using hp)
  simp only [extractRoot, List.filter_append, h, List.append_nil]

theorem filter_not_prefix (h : String) (hh : '=' ∉ h.toList) (other : Path)
    (ho : ∀ c ∈ other, '=' ∈ c.toList) (root : Path) : ¬ extractRoot root ++ [h] <+: root ++ other := by
  induction root with
  | nil =>
    intro hpre
    exact hh (ho h (hpre.subset (by simp [extractRoot])))
  | cons c r ih =>
    intro hpre
    by_cases hc : '=' ∈ c.toList
    · have he : extractRoot (c :: r) = extractRoot r := by simp [extractRoot, hc]
      rw [he] at hpre
      cases hx : extractRoot r with
      | nil =>
        rw [hx, List.nil_append, List.cons_append, List.cons_prefix_cons] at hpre
        exact hh (hpre.1 ▸ hc)
      | cons d l =>
        rw [hx, List.cons_append, List.cons_append, List.cons_prefix_cons] at hpre
        have hd : d ∈ extractRoot r := by simp [hx]
        rw [extractRoot, List.mem_filter] at hd
        have := hpre.1 ▸ hc
        simp [this] at hd
    · have he : extractRoot (c :: r) = c :: extractRoot r := by simp [extractRoot, hc]
      rw [he, List.cons_append, List.cons_append, List.cons_prefix_cons] at hpre
      exact ih hpre.2

/-- The temporary directory of a partition and the directory of any partition are apart. -/
theorem temp_cross (hash : Path → String) (root parts other : Path)
    (hp : ∀ c ∈ parts, '=' ∈ c.toList) (ho : ∀ c ∈ other, '=' ∈ c.toList) (hne : other ≠ [])
    (hh : ∀ p, '=' ∉ (hash p).toList) :
    ¬ tempDir hash (root ++ parts) <+: root ++ other ∧
    ¬ (root ++ other) <+: tempDir hash (root ++ parts) := by
  obtain ⟨c, hc⟩ := List.exists_mem_of_ne_nil other hne
  rw [tempDir, extractRoot_parts root parts hp]
  refine ⟨filter_not_prefix _ (hh _) other ho root, ?_⟩
  intro h
  have hm : c ∈ extractRoot root ++ [hash (root ++ parts)] := h.subset (by simp [hc])
  rw [List.mem_append, List.mem_singleton] at hm
  rcases hm with hm | rfl
  · rw [extractRoot, List.mem_filter] at hm
    have := ho c hc
    simp [this] at hm
  · exact hh _ (ho _ hc)

theorem temp_disjoint (hash : Path → String) (root parts : Path)
    (hp : ∀ c ∈ parts, '=' ∈ c.toList) (hne : parts ≠ []) (hh : ∀ p, '=' ∉ (hash p).toList) :
    ¬ tempDir hash (root ++ parts) <+: root ++ parts ∧
    ¬ (root ++ parts) <+: tempDir hash (root ++ parts) :=
  temp_cross hash root parts parts hp hp hne hh

/-! ### Prefixes of the steps -/

theorem take_below {d : Path} {steps : List (Step C)} (h : ∀ s ∈ steps, Below d s) (k : Nat) :
    ∀ s ∈ steps.take k, Below d s := fun s hs => h s (List.mem_of_mem_take hs)

/-- A path that is neither written nor an ancestor of what is written is untouched. -/
theorem run_untouched {q : Path} (steps : List (Step C))
    (h : ∀ s ∈ steps, match s with
      | .mkdirs p => ¬ q <+: p
      | .write p _ => p ≠ q
      | .remove p => p ≠ q
      | .move _ _ => False) (fs : FS C) : run fs steps q = fs q := by
  induction steps generalizing fs with
  | nil => rfl
  | cons s t ih =>
    rw [run_cons, ih (fun x hx => h x (by simp [hx]))]
    have := h s (by simp)
    cases s with
    | mkdirs p => simp [apply, this]
    | write p c => simp only [apply]; rw [if_neg fun hc => this hc.symm]
    | remove p => simp only [apply]; rw [if_neg fun hc => this hc.symm]
    | move a b => exact this.elim

/-- The last steps of the creation. -/
theorem groupSteps_split (atomic : Bool) (d : Path) (g : Group C) :
    groupSteps atomic d g =
      (([".zgroup"], g.zgroup) :: g.body).flatMap
        (fun w => fileSteps atomic (d ++ w.1) w.2) ++
      fileSteps atomic (d ++ [".zmetadata"]) g.zmetadata := by
  simp [groupSteps, Group.writes, List.flatMap_append]

theorem groupSteps_first (atomic : Bool) (d : Path) (g : Group C) :
    groupSteps atomic d g =
      fileSteps atomic (d ++ [".zgroup"]) g.zgroup ++ bodySteps atomic d g := by
  simp [groupSteps, Group.writes, bodySteps]

/-- Without the last step the consolidated metadata do not exist. -/
theorem no_metadata (d : Path) {g : Group C} (hg : ValidGroup g) (fs : FS C)
    (hfs : fs (d ++ [".zmetadata"]) = none) (k : Nat)
    (hk : k < (groupSteps true d g).length) :
    run fs ((groupSteps true d g).take k) (d ++ [".zmetadata"]) = none := by
  have hd : (d ++ [".zmetadata"]).dropLast = d := by simp
  have hsplit : groupSteps true d g =
      ((([".zgroup"], g.zgroup) :: g.body).flatMap
        (fun w => fileSteps true (d ++ w.1) w.2) ++ [.mkdirs d]) ++
      [.write (d ++ [".zmetadata"]) (some g.zmetadata)] := by
    rw [groupSteps_split]; simp [fileSteps, hd]
  rw [hsplit] at hk ⊢
  rw [List.take_append_of_le_length (by
    rw [List.length_append] at hk; simpa using Nat.le_of_lt_succ hk)]
  rw [run_untouched]
  · exact hfs
  · intro s hs
    have hs := List.mem_of_mem_take hs
    rw [List.mem_append, List.mem_singleton, List.mem_flatMap] at hs
    rcases hs with ⟨w, hw, hs⟩ | rfl
    · have hw1 : w.1 ≠ [] ∧ ¬ [".zmetadata"] <+: w.1 := by
        rcases List.mem_cons.1 hw with rfl | hw
        · exact ⟨by simp, by simp⟩
        · exact ⟨hg.notRoot w hw, hg.noMeta w hw⟩
      simp only [fileSteps, dropLast_append_of_ne_nil' hw1.1] at hs
      simp at hs
      rcases hs with rfl | rfl
      · simp only [List.prefix_append_right_inj]
        exact fun h => hw1.2 (h.trans (List.dropLast_prefix _))
      · simp only [ne_eq, List.append_cancel_left_eq]
        intro h
        exact hw1.2 (h ▸ List.prefix_refl _)
    · simp only
      intro h
      have := h.length_le
      simp only [List.length_append, List.length_singleton] at this
      omega

theorem mkdirs_idem (p : Path) (fs : FS C) :
    apply (apply fs (.mkdirs p)) (.mkdirs p) = apply fs (.mkdirs p) := by
  funext q
  simp only [apply]
  by_cases h : q <+: p ∧ (fs q).isNone
  · simp only [if_pos h]; split <;> rfl
  · simp only [if_neg h]

/-- The file `.zgroup` is there once it was written: no later step removes it. -/
theorem zgroup_stays (steps : List (Step C))
    (h : ∀ s ∈ steps, (∃ p, s = .mkdirs p) ∨ ∃ p c, s = .write p c) (fs : FS C) (q : Path)
    (hq : (fs q).isSome) : (run fs steps q).isSome := by
  induction steps generalizing fs with
  | nil => exact hq
  | cons s t ih =>
    rw [run_cons]
    apply ih fun x hx => h x (by simp [hx])
    rcases h s (by simp) with ⟨p, rfl⟩ | ⟨p, c, rfl⟩
    · simp only [apply]; split <;> simp [hq]
    · simp only [apply]; split <;> simp [hq]

end Verif.Storage
