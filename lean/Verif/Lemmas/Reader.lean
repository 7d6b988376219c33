import Verif.Lemmas.Jobs
import Verif.Spec.Reader

/-! Lemmas on the reading of a partition file by file. -/

namespace Verif

open Spec Storage Work Read

variable {C A : Type}

theorem readChunk_congr {a b : FS C} {p q : Path} (h : a p = b q) :
    readChunk a p = readChunk b q := by
  unfold readChunk
  rw [h]

theorem readChunk_ok {fs : FS C} {p : Path} (h : fs p ≠ some (.file none)) :
    readChunk fs p = .ok (contentOf (fs p)) := by
  unfold readChunk
  cases hf : fs p with
  | none => rfl
  | some n =>
    cases n with
    | dir => rfl
    | file c =>
      cases c with
      | none => exact absurd hf h
      | some c => rfl

theorem readChunks_congr {a b : Nat → FS C} {d e : Path} (l : List Path) (i : Nat)
    (h : ∀ j, i ≤ j → j < i + l.length → ∀ rel, a j (d ++ rel) = b j (e ++ rel)) :
    readChunks a d i l = readChunks b e i l := by
  induction l generalizing i with
  | nil => rfl
  | cons p t ih =>
    simp only [readChunks]
    rw [readChunk_congr (h i (Nat.le_refl _) (by simp) p), ih (i + 1) fun j h1 h2 =>
      h j (by omega) (by simp only [List.length_cons]; omega)]

/-- The reading depends only on what is in the directory at the moments of the readings. -/
theorem openGroup_congr (f : Format C A) {a b : Nat → FS C} {d e : Path}
    (h0 : ∀ rel, a 0 (d ++ rel) = b 0 (e ++ rel))
    (h : ∀ m, a 0 (d ++ [".zmetadata"]) = some (.file (some m)) →
      ∀ j, 0 < j → j ≤ (f.chunks m).length → ∀ rel, a j (d ++ rel) = b j (e ++ rel)) :
    openGroup f d a = openGroup f e b := by
  unfold openGroup
  rw [← h0]
  cases hm : a 0 (d ++ [".zmetadata"]) with
  | none => rfl
  | some n =>
    cases n with
    | dir => rfl
    | file c =>
      cases c with
      | none => rfl
      | some m =>
        simp only
        rw [readChunks_congr (f.chunks m) 1 fun j h1 h2 => h m hm j (by omega) (by omega)]

theorem readChunks_ok {view : Nat → FS C} {d : Path} (l : List Path) (i : Nat)
    (h : ∀ j rel, view j (d ++ rel) ≠ some (.file none)) :
    ∃ cs, readChunks view d i l = .ok cs ∧ cs.length = l.length ∧
      ∀ (k : Nat) p c, l[k]? = some p → cs[k]? = some c →
        c = contentOf (view (i + k) (d ++ p)) := by
  induction l generalizing i with
  | nil => exact ⟨[], rfl, rfl, fun k p c hp => by simp at hp⟩
  | cons p t ih =>
    obtain ⟨cs, e, hl, hc⟩ := ih (i + 1)
    refine ⟨contentOf (view i (d ++ p)) :: cs, ?_, by simp [hl], ?_⟩
    · simp only [readChunks, readChunk_ok (h i p), e, bind, Except.bind]
    · intro k q c hq hk
      cases k with
      | zero =>
        simp only [List.getElem?_cons_zero, Option.some.injEq] at hq hk
        subst hq hk
        rfl
      | succ k =>
        simp only [List.getElem?_cons_succ] at hq hk
        rw [hc k q c hq hk, show i + 1 + k = i + (k + 1) by omega]

/-- A reader that finds metadata gets a dataset, whatever happens to the chunks. -/
theorem openGroup_madeOf (f : Format C A) {view : Nat → FS C} {d : Path} {m : C}
    (hm : view 0 (d ++ [".zmetadata"]) = some (.file (some m)))
    (h : ∀ j rel, view j (d ++ rel) ≠ some (.file none)) {allowed : Path → Option C → Prop}
    (ha : ∀ j p, allowed p (contentOf (view j (d ++ p)))) :
    MadeOf f m allowed (openGroup f d view) := by
  obtain ⟨cs, e, hl, hc⟩ := readChunks_ok (f.chunks m) 1 h
  refine ⟨cs, ?_, hl, ?_⟩
  · unfold openGroup
    rw [hm]
    simp only [e, bind, Except.bind]
  · intro i p c hp hk
    rw [hc i p c hp hk]
    exact ha _ _

theorem openGroup_missing (f : Format C A) {view : Nat → FS C} {d : Path}
    (hm : view 0 (d ++ [".zmetadata"]) = none) : openGroup f d view = .error .keyError := by
  unfold openGroup
  rw [hm]

theorem treeOf_whole (files : List (Path × C)) (rel : Path) :
    treeOf files rel ≠ some (.file none) := by
  unfold treeOf
  split
  · simp
  · split <;> simp

/-! ### The replacement of a partition, step by step -/

/-- The directory of a partition during its replacement: until the removal it is unchanged, then
its nodes disappear, then it holds the new group. -/
structure Phases (fs : FS C) (dest temp : Path) (g : Group C) (state : Nat → FS C)
    (n1 n2 : Nat) : Prop where
  before : ∀ k, k ≤ n1 → sub (state k) dest = sub fs dest
  during : ∀ k, k ≤ n2 → ∀ rel, sub (state k) dest rel = sub fs dest rel ∨
    sub (state k) dest rel = none
  gone : ∀ k k', k ≤ k' → k' ≤ n2 → ∀ rel, sub (state k) dest rel = none →
    sub (state k') dest rel = none
  after : ∀ k, n2 < k → sub (state k) dest = treeOf g.writes
  moved : ∀ k, n2 < k → ∀ rel, state k (temp ++ rel) = none

theorem replace_phases (atomic : Bool) (hash : Path → String) (root parts : Path)
    (g : Group C) (orderTemp orderDest : List Path) (fs : FS C) (hg : ValidGroup g)
    (hh : ∀ p, '=' ∉ (hash p).toList)
    (hp : ∀ c ∈ parts, '=' ∈ c.toList) (hne : parts ≠ [])
    (hot : Covers orderTemp (tempDir hash (root ++ parts)) fs)
    (hod : Covers orderDest (root ++ parts) fs) :
    ∃ n1 n2, Phases fs (root ++ parts) (tempDir hash (root ++ parts)) g
      (fun k => run fs ((replaceSteps atomic (tempDir hash (root ++ parts)) (root ++ parts) g
        orderTemp orderDest).take k)) n1 n2 := by
  obtain ⟨hd1, hd2⟩ := temp_disjoint hash root parts hp hne hh
  generalize htemp : tempDir hash (root ++ parts) = temp at *
  generalize hdest : root ++ parts = dest at *
  have hbelow : ∀ s ∈ removeSteps orderTemp ++ groupSteps atomic temp g, Below temp s := by
    intro s hs
    rcases List.mem_append.1 hs with hs | hs
    · exact removeSteps_below hot.below s hs
    · exact groupSteps_below atomic _ hg s hs
  have hnew : sub (run fs (removeSteps orderTemp ++ groupSteps atomic temp g)) temp =
      treeOf g.writes := by
    rw [run_append, removed_of_covers hot]
    exact run_group atomic temp hg _ fun rel => removeTree_below (List.prefix_append _ _) fs
  unfold replaceSteps
  generalize hfst : removeSteps orderTemp ++ groupSteps atomic temp g = first at *
  have hb : ∀ k, k ≤ first.length →
      sub (run fs ((first ++ removeSteps orderDest ++ [Step.move temp dest]).take k)) dest =
        sub fs dest := by
    intro k hk
    rw [List.append_assoc, List.take_append_of_le_length hk]
    exact sub_outside (run_outside _ (take_below hbelow k) fs) hd1 hd2
  have hfull := hb first.length (Nat.le_refl _)
  rw [List.append_assoc, List.take_left] at hfull
  have hd : ∀ k, first.length ≤ k → k ≤ first.length + orderDest.length → ∀ rel,
      sub (run fs ((first ++ removeSteps orderDest ++ [Step.move temp dest]).take k)) dest rel =
        if dest ++ rel ∈ orderDest.take (k - first.length) then none else sub fs dest rel := by
    intro k h1 h2 rel
    rw [List.append_assoc, List.take_append, List.take_of_length_le h1, run_append,
      List.take_append_of_le_length (by simp [removeSteps]; omega)]
    rw [show (removeSteps orderDest : List (Step C)).take (k - first.length) =
      removeSteps (orderDest.take (k - first.length)) by simp [removeSteps, List.map_take]]
    simp only [sub]
    rw [run_removeSteps]
    split
    · rfl
    · exact congrFun hfull rel
  have ha : ∀ k, first.length + orderDest.length < k →
      run fs ((first ++ removeSteps orderDest ++ [Step.move temp dest]).take k) =
        rename temp dest (removeTree dest (run fs first)) := by
    intro k hk
    rw [List.take_of_length_le (by simp [removeSteps]; omega), run_append, run_append]
    have hcov : Covers orderDest dest (run fs first) := by
      refine ⟨hod.below, ?_⟩
      rintro p ⟨t, rfl⟩ hs
      have := congrFun hfull t
      simp only [sub] at this
      rw [this] at hs
      exact hod.all _ (List.prefix_append _ _) hs
    rw [removed_of_covers hcov]
    have h0 : removeTree dest (run fs first) dest = none :=
      removeTree_below (List.prefix_refl _) _
    rw [run_cons, move_free h0]
    rfl
  refine ⟨first.length, first.length + orderDest.length, hb, ?_, ?_, ?_, ?_⟩
  · intro k hk rel
    by_cases h1 : k ≤ first.length
    · exact .inl (congrFun (hb k h1) rel)
    · rw [hd k (by omega) hk rel]
      split
      · exact .inr rfl
      · exact .inl rfl
  · intro k k' hkk hk' rel hn
    by_cases h1 : k' ≤ first.length
    · rw [hb k (by omega)] at hn
      rw [hb k' h1]
      exact hn
    · rw [hd k' (by omega) hk' rel]
      split
      · rfl
      · rename_i hnot
        by_cases h2 : k ≤ first.length
        · rw [hb k h2] at hn
          exact hn
        · rw [hd k (by omega) (by omega) rel] at hn
          rw [if_neg] at hn
          · exact hn
          · intro hc
            exact hnot (List.mem_of_mem_take (i := k - first.length) (by
              rw [List.take_take, Nat.min_eq_left (by omega)]
              exact hc))
  · intro k hk
    rw [ha k hk]
    exact (sub_rename _ _ _).trans
      ((sub_outside (removeTree_outside dest _) hd2 hd1).trans hnew)
  · intro k hk rel
    rw [ha k hk]
    have h1 : ¬ dest <+: temp ++ rel := fun hc => by
      rcases prefix_cases hc (List.prefix_append temp rel) with h | h
      · exact hd2 h
      · exact hd1 h
    simp [rename, h1]

end Verif
