import Verif.Spec.Collection
import Verif.Lemmas.Lists
import Verif.Props.Split

/-! Lemmas about collections. -/

namespace Verif.Coll

open Spec

variable {R : Type}

/-! ### Records of a key -/

theorem filter_blocks_mem {A : Type} (blocks : List (Key × List (Key × A)))
    (hk : ∀ b ∈ blocks, ∀ x ∈ b.2, x.1 = b.1) (hnd : (blocks.map (·.1)).Nodup)
    (b : Key × List (Key × A)) (hb : b ∈ blocks) :
    (blocks.flatMap (·.2)).filter (fun p => decide (p.1 = b.1)) = b.2 := by
  induction blocks with
  | nil => simp at hb
  | cons c t ih =>
    rw [List.map_cons, List.nodup_cons] at hnd
    rw [List.flatMap_cons, List.filter_append]
    rcases List.mem_cons.1 hb with rfl | hb2
    · have h1 : b.2.filter (fun p => decide (p.1 = b.1)) = b.2 := by
        rw [List.filter_eq_self]
        intro x hx
        simpa using hk b (by simp) x hx
      have h2 : (t.flatMap (·.2)).filter (fun p => decide (p.1 = b.1)) = [] := by
        rw [List.filter_eq_nil_iff]
        intro x hx
        obtain ⟨d, hd, hx⟩ := List.mem_flatMap.1 hx
        rw [hk d (by simp [hd]) x hx]
        simp only [decide_eq_true_eq]
        intro hc
        exact hnd.1 (hc ▸ List.mem_map_of_mem hd)
      rw [h1, h2, List.append_nil]
    · have h1 : c.2.filter (fun p => decide (p.1 = b.1)) = [] := by
        rw [List.filter_eq_nil_iff]
        intro x hx
        rw [hk c (by simp) x hx]
        simp only [decide_eq_true_eq]
        intro hc
        exact hnd.1 (hc ▸ List.mem_map_of_mem hb2)
      rw [h1, List.nil_append]
      exact ih (fun d hd => hk d (by simp [hd])) hnd.2 hb2

theorem filter_blocks_not_mem {A : Type} (blocks : List (Key × List (Key × A)))
    (hk : ∀ b ∈ blocks, ∀ x ∈ b.2, x.1 = b.1) (k : Key) (h : k ∉ blocks.map (·.1)) :
    (blocks.flatMap (·.2)).filter (fun p => decide (p.1 = k)) = [] := by
  rw [List.filter_eq_nil_iff]
  intro x hx
  obtain ⟨d, hd, hx⟩ := List.mem_flatMap.1 hx
  rw [hk d hd x hx]
  simp only [decide_eq_true_eq]
  rintro rfl
  exact h (List.mem_map_of_mem hd)

theorem slice_zip {A B : Type} (a : List A) (b : List B) (i j : Nat) :
    Np.slice (a.zip b) i j = (Np.slice a i j).zip (Np.slice b i j) := by
  simp [Np.slice, List.zip_eq_zipWith, List.take_zipWith, List.drop_zipWith]

theorem slice_snd {A B : Type} (a : List A) (b : List B) (h : a.length = b.length) (i j : Nat) :
    (Np.slice (a.zip b) i j).map (·.2) = Np.slice b i j := by
  rw [slice_zip, List.map_snd_zip]
  simp [Np.slice, h]

theorem mem_slice {A : Type} (l : List A) (i j : Nat) (x : A) (h : x ∈ Np.slice l i j) :
    ∃ m, i ≤ m ∧ m < j ∧ l[m]? = some x := by
  simp only [Np.slice] at h
  obtain ⟨n, hn⟩ := List.mem_iff_getElem?.1 h
  rw [List.getElem?_drop, List.getElem?_take] at hn
  split at hn
  · exact ⟨i + n, by omega, by omega, hn⟩
  · simp at hn

/-- The pieces of a correct split hold the records of their keys. -/
theorem pieces_rows (column : List Key) (rows : List R) (hlen : column.length = rows.length)
    (ps : List (Key × (Nat × Nat))) (hchain : Chain 0 column.length (ps.map (·.2)))
    (hkeys : KeysCorrect column ps) (hnd : (ps.map (·.1)).Nodup) :
    (∀ p ∈ ps, (task rows p).2 = rowsOf column rows p.1) ∧
    (∀ k, k ∉ ps.map (·.1) → rowsOf column rows k = []) ∧
    (∀ p ∈ ps, (task rows p).2 ≠ []) := by
  have hz : (column.zip rows).length = column.length := by simp [hlen]
  have hcat := C09_concat (column.zip rows) (ps.map (·.2)) (by rw [hz]; exact hchain)
  let blocks : List (Key × List (Key × R)) :=
    ps.map fun p => (p.1, Np.slice (column.zip rows) p.2.1 p.2.2)
  have hblocks : blocks.flatMap (·.2) = column.zip rows := by
    rw [← hcat, List.flatMap, List.map_map, List.map_map]
    rfl
  have hk : ∀ b ∈ blocks, ∀ x ∈ b.2, x.1 = b.1 := by
    intro b hb x hx
    obtain ⟨p, hp, rfl⟩ := List.mem_map.1 hb
    obtain ⟨m, h1, h2, h3⟩ := mem_slice _ _ _ _ hx
    have := hkeys p hp m h1 h2
    rw [List.getElem?_zip_eq_some] at h3
    rw [h3.1] at this
    exact Option.some.inj this
  have hmap : blocks.map (·.1) = ps.map (·.1) := by simp [blocks, List.map_map, Function.comp_def]
  refine ⟨?_, ?_, ?_⟩
  · intro p hp
    have := filter_blocks_mem blocks hk (by rw [hmap]; exact hnd)
      (p.1, Np.slice (column.zip rows) p.2.1 p.2.2) (List.mem_map.2 ⟨p, hp, rfl⟩)
    rw [hblocks] at this
    simp only [rowsOf, task]
    rw [this, slice_snd _ _ hlen]
  · intro k hk'
    have := filter_blocks_not_mem blocks hk k (by rw [hmap]; exact hk')
    rw [hblocks] at this
    simp [rowsOf, this]
  · intro p hp hnil
    have hne : ∀ a n (l : List (Nat × Nat)), Chain a n l → ∀ s ∈ l, s.1 < s.2 ∧ s.2 ≤ n := by
      intro a n l
      induction l generalizing a with
      | nil => intro _ s hs; simp at hs
      | cons s t ih =>
        intro hc s' hs'
        obtain ⟨s0, e0⟩ := s
        have hle : ∀ a l, Chain a n l → a ≤ n := by
          intro a l
          induction l generalizing a with
          | nil => intro h; simp only [Chain] at h; omega
          | cons s t ih =>
            intro h
            obtain ⟨_, h2, h3⟩ := h
            have := ih _ h3
            omega
        rcases List.mem_cons.1 hs' with rfl | hs'
        · exact ⟨hc.2.1, hle _ _ hc.2.2⟩
        · exact ih _ hc.2.2 s' hs'
    obtain ⟨h1, h2⟩ := hne 0 _ _ hchain p.2 (List.mem_map_of_mem hp)
    have hl := congrArg List.length hnil
    simp only [task, Np.slice, List.length_drop, List.length_take, List.length_nil] at hl
    omega

/-! ### Execution of the tasks -/

theorem insertOne_spec (merge : Option (Merge R)) (st st' : Store R) (t : Key × List R)
    (h : insertOne merge st t = .ok st') :
    Effect merge (st t.1) t.2 (st' t.1) ∧ ∀ k, k ≠ t.1 → st' k = st k := by
  unfold insertOne at h
  unfold Effect
  cases hs : st t.1 with
  | none =>
    rw [hs] at h
    cases h
    exact ⟨by simp [put], fun k hk => by simp [put, hk]⟩
  | some old =>
    rw [hs] at h
    simp only [bind, Except.bind] at h
    cases hm : merged merge old t.2 with
    | error e => rw [hm] at h; cases h
    | ok m =>
      rw [hm] at h
      cases h
      refine ⟨?_, fun k hk => by simp [put, hk]⟩
      cases merge with
      | none => cases hm; simp [put]
      | some f => exact ⟨m, hm, by simp [put]⟩

theorem runBatch_spec (merge : Option (Merge R)) (tasks : List (Key × List R)) (st : Store R)
    (hnd : (tasks.map (·.1)).Nodup) :
    (∀ k, k ∉ tasks.map (·.1) → (runBatch merge st tasks).1 k = st k) ∧
    (∀ t ∈ tasks, Effect merge (st t.1) t.2 ((runBatch merge st tasks).1 t.1) ∨
      ((runBatch merge st tasks).2 ≠ none ∧ (runBatch merge st tasks).1 t.1 = st t.1)) := by
  induction tasks generalizing st with
  | nil => exact ⟨fun _ _ => rfl, by simp⟩
  | cons t ts ih =>
    rw [List.map_cons, List.nodup_cons] at hnd
    simp only [runBatch]
    cases h : insertOne merge st t with
    | ok st' =>
      obtain ⟨h1, h2⟩ := insertOne_spec merge st st' t h
      obtain ⟨h3, h4⟩ := ih st' hnd.2
      refine ⟨?_, ?_⟩
      · intro k hk
        simp only [List.map_cons, List.mem_cons, not_or] at hk
        simp only
        rw [h3 k hk.2, h2 k hk.1]
      · intro u hu
        simp only
        rcases List.mem_cons.1 hu with rfl | hu2
        · left
          rw [h3 _ hnd.1]
          exact h1
        · have hne : u.1 ≠ t.1 := fun hc => hnd.1 (hc ▸ List.mem_map_of_mem hu2)
          rw [← h2 u.1 hne]
          exact h4 u hu2
    | error e =>
      obtain ⟨h3, h4⟩ := ih st hnd.2
      refine ⟨?_, ?_⟩
      · intro k hk
        simp only [List.map_cons, List.mem_cons, not_or] at hk
        exact h3 k hk.2
      · intro u hu
        simp only
        rcases List.mem_cons.1 hu with rfl | hu2
        · right
          exact ⟨by simp, h3 _ hnd.1⟩
        · rcases h4 u hu2 with h | h
          · exact .inl h
          · exact .inr ⟨by simp, h.2⟩

theorem runBatches_spec (merge : Option (Merge R)) (batches : List (List (Key × List R)))
    (st : Store R) (hnd : (batches.flatten.map (·.1)).Nodup) :
    (∀ k, k ∉ batches.flatten.map (·.1) → (runBatches merge st batches).1 k = st k) ∧
    (∀ t ∈ batches.flatten, Effect merge (st t.1) t.2 ((runBatches merge st batches).1 t.1) ∨
      ((runBatches merge st batches).2 ≠ none ∧ (runBatches merge st batches).1 t.1 = st t.1)) := by
  induction batches generalizing st with
  | nil => exact ⟨fun _ _ => rfl, by simp⟩
  | cons b bs ih =>
    rw [List.flatten_cons, List.map_append, List.nodup_append] at hnd
    obtain ⟨h1, h2⟩ := runBatch_spec merge b st hnd.1
    simp only [runBatches]
    generalize hb : runBatch merge st b = r at *
    obtain ⟨st', e⟩ := r
    simp only at h1 h2
    cases e with
    | none =>
      obtain ⟨h3, h4⟩ := ih st' hnd.2.1
      refine ⟨?_, ?_⟩
      · intro k hk
        rw [List.flatten_cons, List.map_append, List.mem_append, not_or] at hk
        simp only
        rw [h3 k hk.2, h1 k hk.1]
      · intro t ht
        simp only
        rcases List.mem_append.1 (List.flatten_cons ▸ ht) with ht | ht
        · left
          have hn : t.1 ∉ bs.flatten.map (·.1) := fun hc =>
            hnd.2.2 _ (List.mem_map_of_mem ht) _ hc rfl
          rw [h3 _ hn]
          exact (h2 t ht).resolve_right (by simp)
        · have hn : t.1 ∉ b.map (·.1) := fun hc =>
            hnd.2.2 _ hc _ (List.mem_map_of_mem ht) rfl
          rw [← h1 _ hn]
          exact h4 t ht
    | some e =>
      refine ⟨?_, ?_⟩
      · intro k hk
        rw [List.flatten_cons, List.map_append, List.mem_append, not_or] at hk
        exact h1 k hk.1
      · intro t ht
        simp only
        rcases List.mem_append.1 (List.flatten_cons ▸ ht) with ht | ht
        · rcases h2 t ht with h | h
          · exact .inl h
          · exact .inr ⟨by simp, h.2⟩
        · have hn : t.1 ∉ b.map (·.1) := fun hc =>
            hnd.2.2 _ hc _ (List.mem_map_of_mem ht) rfl
          exact .inr ⟨by simp, h1 _ hn⟩

theorem effect_unique {merge : Option (Merge R)} {old : Option (List R)} {rows : List R}
    {a b : Option (List R)} (ha : Effect merge old rows a) (hb : Effect merge old rows b) :
    a = b := by
  unfold Effect at ha hb
  cases old with
  | none => rw [ha, hb]
  | some o =>
    cases merge with
    | none => rw [ha, hb]
    | some f =>
      obtain ⟨m, h1, h2⟩ := ha
      obtain ⟨m', h1', h2'⟩ := hb
      rw [h1] at h1'
      cases h1'
      rw [h2, h2']

/-! ### Loading -/

theorem readAll_spec (st : Store R) (f : Key → List R) (ks : List Key)
    (h : ∀ k ∈ ks, st k = some (f k)) : readAll st ks = .ok (ks.flatMap f) := by
  induction ks with
  | nil => rfl
  | cons k t ih =>
    simp only [readAll, h k (by simp), ih fun x hx => h x (by simp [hx]), bind, Except.bind, pure,
      Except.pure, List.flatMap_cons]

/-- Two strictly sorted lists with the same elements are equal. -/
theorem sorted_unique {a b : List Key} (ha : a.Pairwise (· < ·)) (hb : b.Pairwise (· < ·))
    (h : ∀ k, k ∈ a ↔ k ∈ b) : a = b := by
  have irr : ∀ x y : Key, x < y → y < x → x = y := fun x y h1 h2 =>
    absurd (List.lt_trans h1 h2) (List.lt_irrefl x)
  have hna : a.Nodup := ha.imp fun {x y} h hc => by subst hc; exact List.lt_irrefl x h
  have hnb : b.Nodup := hb.imp fun {x y} h hc => by subst hc; exact List.lt_irrefl x h
  exact List.Perm.eq_of_pairwise (fun x y _ _ => irr x y) ha hb
    ((List.perm_ext_iff_of_nodup hna hnb).2 h)

end Verif.Coll
