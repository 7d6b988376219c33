import Verif.Lemmas.Path
import Verif.Lemmas.Sort
import Verif.Spec.Listing

/-! Lemmas on the listing of partitions. -/

namespace Verif.Listing

open Spec Path

theorem lexLe_refl (a : List Int) : lexLe a a = true := by
  induction a with
  | nil => rfl
  | cons x a ih => simp [lexLe, ih]

theorem lexLe_total (a b : List Int) : (lexLe a b || lexLe b a) = true := by
  induction a generalizing b with
  | nil => rfl
  | cons x a ih =>
    cases b with
    | nil => simp [lexLe]
    | cons y b =>
      have := ih b
      simp only [lexLe]
      by_cases h : x = y
      · simpa [h] using this
      · have h' : ¬ y = x := fun e => h e.symm
        simp only [h, h', if_false, Bool.or_eq_true, decide_eq_true_eq]
        omega

theorem lexLe_trans (a b c : List Int) (h1 : lexLe a b = true) (h2 : lexLe b c = true) :
    lexLe a c = true := by
  induction a generalizing b c with
  | nil => rfl
  | cons x a ih =>
    cases b with
    | nil => simp [lexLe] at h1
    | cons y b =>
      cases c with
      | nil => simp [lexLe] at h2
      | cons z c =>
        simp only [lexLe] at h1 h2 ⊢
        split at h1 <;> split at h2 <;> split
        all_goals first
          | exact ih _ _ h1 h2
          | (simp only [decide_eq_true_eq] at *; omega)

theorem lexLe_lt (a b : List Int) (h : lexLe a b = true) (hne : a ≠ b) : a < b := by
  induction a generalizing b with
  | nil =>
    cases b with
    | nil => exact absurd rfl hne
    | cons y b => exact List.nil_lt_cons y b
  | cons x a ih =>
    cases b with
    | nil => simp [lexLe] at h
    | cons y b =>
      simp only [lexLe] at h
      rw [List.cons_lt_cons_iff]
      split at h
      · next he =>
        subst he
        exact .inr ⟨rfl, ih b h fun e => hne (by rw [e])⟩
      · exact .inl (by simpa using h)

theorem joinWith_child (fmt : Int → List Char) (base : List Char) (k : String) (v : Int)
    (t : List (String × Int)) (ht : t ≠ []) :
    partitionPath fmt (child base (dirName fmt k v)) t = partitionPath fmt base ((k, v) :: t) := by
  cases t with
  | nil => exact absurd rfl ht
  | cons kv t =>
    simp [partitionPath, joinWith_cons, child, dirName]

theorem partitionPath_single (fmt : Int → List Char) (base : List Char) (k : String) (v : Int) :
    child base (dirName fmt k v) = partitionPath fmt base [(k, v)] := rfl

theorem Stored_names {fmt : Int → List Char} {ks : List String} {n : Node}
    {kvs : List (String × Int)} (h : Stored fmt ks n kvs) : kvs.map (·.1) = ks := by
  induction ks generalizing n kvs with
  | nil => simp [show kvs = [] from h]
  | cons k ks ih =>
    obtain ⟨es, v, c, t, _, _, rfl, hs⟩ := h
    simp [ih hs]

/-- The paths found below a list of entries. -/
def entryPaths (ks : List String) (base : List Char) (es : List (List Char × Node)) :
    List (List Char) :=
  match ks with
  | [] => es.map fun e => child base e.1
  | _ :: ks => es.flatMap fun e => deep ks.length (child base e.1) e.2

theorem dirName_inj {fmt : Int → List Char} (hf : GoodFmt fmt) {k : String} {v w : Int}
    (h : dirName fmt k v = dirName fmt k w) : v = w := by
  have h1 : fmt v = fmt w := by simpa [dirName] using h
  have h2 := hf.inv v
  rw [h1, hf.inv w] at h2
  exact (Except.ok.inj h2).symm

theorem deep_spec (fmt : Int → List Char) (hf : GoodFmt fmt) (ks : List String) (k : String)
    (base : List Char) (es : List (List Char × Node)) (hnd : (es.map (·.1)).Nodup)
    (hl : ∀ e ∈ es, ∃ v, e.1 = dirName fmt k v ∧ Layout fmt ks e.2) :
    ∃ kl : List (List (String × Int)),
      entryPaths ks base es = kl.map (partitionPath fmt base) ∧ kl.Nodup ∧
      ∀ kvs, kvs ∈ kl ↔ Stored fmt (k :: ks) (.dir es) kvs := by
  induction ks generalizing k base es with
  | nil =>
    induction es with
    | nil =>
      refine ⟨[], rfl, List.nodup_nil, ?_⟩
      intro kvs
      simp [Stored]
    | cons e es ih =>
      rw [List.map_cons, List.nodup_cons] at hnd
      obtain ⟨kl, h1, h2, h3⟩ := ih hnd.2 fun e he => hl e (List.mem_cons_of_mem _ he)
      obtain ⟨v, hv, _⟩ := hl e List.mem_cons_self
      refine ⟨[(k, v)] :: kl, ?_, ?_, ?_⟩
      · simp only [entryPaths] at h1 ⊢
        rw [List.map_cons, List.map_cons, h1, hv, partitionPath_single]
      · rw [List.nodup_cons]
        refine ⟨fun hmem => ?_, h2⟩
        obtain ⟨es', w, c, t, he, hm, heq, _⟩ := (h3 _).1 hmem
        cases he
        cases heq
        exact hnd.1 (List.mem_map.2 ⟨_, hm, hv.symm⟩)
      · intro kvs
        rw [List.mem_cons, h3]
        constructor
        · rintro (rfl | ⟨es', w, c, t, he, hm, rfl, hs⟩)
          · exact ⟨_, v, e.2, [], rfl, by rw [← hv]; exact List.mem_cons_self, rfl, rfl⟩
          · cases he
            exact ⟨_, w, c, t, rfl, List.mem_cons_of_mem _ hm, rfl, hs⟩
        · rintro ⟨es', w, c, t, he, hm, rfl, hs⟩
          cases he
          rcases List.mem_cons.1 hm with rfl | hm
          · left
            rw [show t = [] from hs, dirName_inj hf hv]
          · exact .inr ⟨_, w, c, t, rfl, hm, rfl, hs⟩
  | cons k' ks ihk =>
    induction es with
    | nil =>
      refine ⟨[], rfl, List.nodup_nil, ?_⟩
      intro kvs
      simp [Stored]
    | cons e es ih =>
      rw [List.map_cons, List.nodup_cons] at hnd
      obtain ⟨kl, h1, h2, h3⟩ := ih hnd.2 fun e he => hl e (List.mem_cons_of_mem _ he)
      obtain ⟨v, hv, es', hes', hnd', hl'⟩ := hl e List.mem_cons_self
      obtain ⟨kl', g1, g2, g3⟩ := ihk k' (child base (dirName fmt k v)) es' hnd' hl'
      have hkl' : ∀ t ∈ kl', t ≠ [] := by
        intro t ht hnil
        have := Stored_names ((g3 t).1 ht)
        simp [hnil] at this
      refine ⟨kl'.map (fun t => (k, v) :: t) ++ kl, ?_, ?_, ?_⟩
      · simp only [entryPaths, List.flatMap_cons] at h1 ⊢
        rw [h1, List.map_append, List.map_map]
        congr 1
        have hd : deep ks.length (child base e.1) e.2 =
            entryPaths ks (child base (dirName fmt k v)) es' := by
          rw [hv, hes']
          cases ks with
          | nil => simp [deep, ls, entryPaths]
          | cons k2 ks => simp [deep, ls, entryPaths, List.flatMap_map]
        rw [hd, g1]
        apply List.map_congr_left
        intro t ht
        exact joinWith_child fmt base k v t (hkl' t ht)
      · rw [List.nodup_append]
        refine ⟨?_, h2, ?_⟩
        · exact List.Pairwise.map _ (fun a b hab he => hab (by simpa using he)) g2
        · intro a ha b hb hab
          subst hab
          obtain ⟨t, ht, rfl⟩ := List.mem_map.1 ha
          obtain ⟨es2, w, c, t', he, hm, heq, _⟩ := (h3 _).1 hb
          cases he
          cases heq
          exact hnd.1 (List.mem_map.2 ⟨_, hm, hv.symm⟩)
      · intro kvs
        rw [List.mem_append, h3]
        constructor
        · rintro (hm | ⟨es2, w, c, t, he, hm, rfl, hs⟩)
          · obtain ⟨t, ht, rfl⟩ := List.mem_map.1 hm
            refine ⟨_, v, e.2, t, rfl, by rw [← hv]; exact List.mem_cons_self, rfl, ?_⟩
            rw [hes']
            exact (g3 t).1 ht
          · cases he
            exact ⟨_, w, c, t, rfl, List.mem_cons_of_mem _ hm, rfl, hs⟩
        · rintro ⟨es2, w, c, t, he, hm, rfl, hs⟩
          cases he
          rcases List.mem_cons.1 hm with rfl | hm
          · left
            rw [dirName_inj hf hv]
            refine List.mem_map.2 ⟨t, (g3 t).2 ?_, rfl⟩
            rw [← hes']
            exact hs
          · exact .inr ⟨_, w, c, t, rfl, hm, rfl, hs⟩

theorem listPartitions_spec (fmt : Int → List Char) (hf : GoodFmt fmt) (k : String)
    (ks : List String) (base : List Char) (root : Node) (hroot : RootLayout fmt k ks root)
    (hdot : ∀ t, k.toList ≠ '.' :: t) :
    ∃ kl : List (List (String × Int)),
      listPartitions (k :: ks).length base root = kl.map (partitionPath fmt base) ∧ kl.Nodup ∧
      ∀ kvs, kvs ∈ kl ↔ Stored fmt (k :: ks) root kvs := by
  obtain ⟨es, rfl, hnd, hl⟩ := hroot
  have hnohid : ∀ v t, dirName fmt k v ≠ '.' :: t := by
    intro v t h
    unfold dirName at h
    cases hk : k.toList with
    | nil => simp [hk] at h
    | cons c s =>
      simp only [hk, List.cons_append, List.cons.injEq] at h
      exact hdot s (by rw [hk, h.1])
  have hl' : ∀ e ∈ es.filter (fun e => e.2.isDir && !(e.1.head? == some '.')),
      ∃ v, e.1 = dirName fmt k v ∧ Layout fmt ks e.2 := by
    intro e he
    rw [List.mem_filter] at he
    rcases hl e he.1 with h | ⟨t, h⟩ | ⟨_, h⟩
    · simp [h.1, Node.isDir] at he
    · simp [h] at he
    · exact h
  have hnd' : ((es.filter (fun e => e.2.isDir && !(e.1.head? == some '.'))).map (·.1)).Nodup :=
    hnd.sublist (List.filter_sublist.map _)
  obtain ⟨kl, h1, h2, h3⟩ := deep_spec fmt hf ks k base _ hnd' hl'
  refine ⟨kl, ?_, h2, ?_⟩
  · rw [← h1]
    cases ks with
    | nil => simp [listPartitions, folders, entryPaths]
    | cons k' ks => simp [listPartitions, folders, entryPaths, List.flatMap_map]
  · intro kvs
    rw [h3]
    constructor
    · rintro ⟨es', v, c, t, he, hm, rfl, hs⟩
      cases he
      exact ⟨_, v, c, t, rfl, (List.mem_filter.1 hm).1, rfl, hs⟩
    · rintro ⟨es', v, c, t, he, hm, rfl, hs⟩
      cases he
      refine ⟨_, v, c, t, rfl, List.mem_filter.2 ⟨hm, ?_⟩, rfl, hs⟩
      rcases hl _ hm with h | ⟨t, h⟩ | ⟨h, _⟩
      · exact absurd rfl (h.2 v)
      · exact absurd h (hnohid v t)
      · simp only [h, Bool.true_and, Bool.not_eq_true', beq_eq_false_iff_ne, ne_eq]
        intro hh
        cases hd : dirName fmt k v with
        | nil => simp [hd] at hh
        | cons c s =>
          simp only [hd, List.head?_cons, Option.some.injEq] at hh
          exact hnohid v s (by rw [hd, hh])

theorem parse_partitionPath (fmt : Int → List Char) (hf : GoodFmt fmt) (base : List Char)
    (k : String) (ks : List String) (kvs : List (String × Int))
    (hn : kvs.map (·.1) = k :: ks) (hk : ∀ x ∈ k :: ks, '=' ∉ x.toList)
    (hb : ¬ (k.toList ++ ['=']) <:+: base ++ ['/']) :
    parse (k :: ks) (partitionPath fmt base kvs) = .ok kvs := by
  cases kvs with
  | nil => simp at hn
  | cons kv t =>
    have h1 : kv.1 = k := by simpa using congrArg List.head? hn
    have := parse_join fmt hf (base ++ ['/']) kv t (by rw [h1]; exact hb) (by
      intro x hx
      apply hk
      rw [← hn]
      exact List.mem_map_of_mem hx)
    rw [hn] at this
    rw [← this]
    simp [partitionPath]

theorem keyed_map (fmt : Int → List Char) (keys : List String) (base : List Char)
    (kl : List (List (String × Int)))
    (h : ∀ kvs ∈ kl, parse keys (partitionPath fmt base kvs) = .ok kvs) :
    keyed keys (kl.map (partitionPath fmt base)) =
      .ok (kl.map fun kvs => (partitionPath fmt base kvs, values kvs)) := by
  induction kl with
  | nil => rfl
  | cons a t ih =>
    simp only [List.map_cons, keyed, h a List.mem_cons_self,
      ih fun x hx => h x (List.mem_cons_of_mem _ hx), bind, Except.bind, pure, Except.pure, values]

theorem isort_map {α β : Type} (f : α → β) (le : β → β → Bool) (l : List α) :
    Sort.isort le (l.map f) = (Sort.isort (fun a b => le (f a) (f b)) l).map f := by
  induction l with
  | nil => rfl
  | cons x t ih =>
    simp only [List.map_cons, Sort.isort, ih]
    generalize Sort.isort (fun a b => le (f a) (f b)) t = u
    induction u with
    | nil => rfl
    | cons y u ihu =>
      simp only [List.map_cons, Sort.insort]
      split
      · rfl
      · rw [ihu]
        rfl

theorem values_inj {a b : List (String × Int)} (h1 : a.map (·.1) = b.map (·.1))
    (h2 : values a = values b) : a = b := by
  unfold values at h2
  induction a generalizing b with
  | nil =>
    cases b with
    | nil => rfl
    | cons _ _ => simp at h1
  | cons x a ih =>
    cases b with
    | nil => simp at h1
    | cons y b =>
      simp only [List.map_cons, List.cons.injEq] at h1 h2
      rw [ih h1.2 h2.2, Prod.ext h1.1 h2.1]

theorem sortedPartitions_spec (fmt : Int → List Char) (hf : GoodFmt fmt) (k : String)
    (ks : List String) (base : List Char) (root : Node) (hroot : RootLayout fmt k ks root)
    (hdot : ∀ t, k.toList ≠ '.' :: t) (hk : ∀ x ∈ k :: ks, '=' ∉ x.toList)
    (hb : ¬ (k.toList ++ ['=']) <:+: base ++ ['/']) :
    ∃ kl : List (List (String × Int)),
      sortedPartitions (k :: ks) (k :: ks).length base root =
        .ok (kl.map (partitionPath fmt base)) ∧
      (∀ kvs, kvs ∈ kl ↔ Stored fmt (k :: ks) root kvs) ∧
      kl.Pairwise (fun a b => values a < values b) := by
  obtain ⟨kl, h1, h2, h3⟩ := listPartitions_spec fmt hf k ks base root hroot hdot
  have hp : ∀ kvs ∈ kl, parse (k :: ks) (partitionPath fmt base kvs) = .ok kvs := fun kvs hm =>
    parse_partitionPath fmt hf base k ks kvs (Stored_names ((h3 kvs).1 hm)) hk hb
  refine ⟨Sort.isort (fun a b => lexLe (values a) (values b)) kl, ?_, ?_, ?_⟩
  · unfold sortedPartitions
    rw [h1, keyed_map fmt (k :: ks) base kl hp]
    simp only [bind, Except.bind, pure, Except.pure]
    rw [isort_map (fun kvs => (partitionPath fmt base kvs, values kvs))
      (fun a b => lexLe a.2 b.2), List.map_map]
    rfl
  · intro kvs
    rw [← h3, (Sort.isort_perm kl).mem_iff]
  · have hs := Sort.isort_pairwise (le := fun a b => lexLe (values a) (values b))
      (fun a b c => lexLe_trans _ _ _) (fun a b => lexLe_total _ _) kl
    have hnd : (Sort.isort (fun a b => lexLe (values a) (values b)) kl).Nodup :=
      (Sort.isort_perm kl).nodup_iff.2 h2
    have hand := hs.and hnd
    refine List.Pairwise.imp_of_mem ?_ hand
    intro a b ha hb' hab
    have na := Stored_names ((h3 a).1 ((Sort.isort_perm kl).mem_iff.1 ha))
    have nb := Stored_names ((h3 b).1 ((Sort.isort_perm kl).mem_iff.1 hb'))
    exact lexLe_lt _ _ hab.1 fun e => hab.2 (values_inj (na.trans nb.symm) e)

theorem unique_of_pairwise_lt {kl kl' : List (List (String × Int))}
    (h1 : kl.Pairwise fun a b => values a < values b)
    (h2 : kl'.Pairwise fun a b => values a < values b) (hm : ∀ x, x ∈ kl ↔ x ∈ kl') :
    kl = kl' := by
  have nd : ∀ l : List (List (String × Int)), l.Pairwise (fun a b => values a < values b) →
      l.Nodup := fun l hl => hl.imp fun hab he => by
    subst he
    exact List.lt_irrefl _ hab
  have hp : kl.Perm kl' := (List.perm_ext_iff_of_nodup (nd _ h1) (nd _ h2)).2 hm
  refine List.Perm.eq_of_pairwise ?_ h1 h2 hp
  intro a b _ _ hab hba
  exact absurd (List.lt_trans hab hba) (List.lt_irrefl _)

theorem removeAll_prefix (b s : List Char) (hb : b ≠ []) :
    removeAll b (b ++ s) = removeAll b s := by
  cases b with
  | nil => exact absurd rfl hb
  | cons c b =>
    rw [List.cons_append, removeAll, if_pos]
    · simp
    · rw [List.isPrefixOf_iff_prefix]
      exact ⟨s, rfl⟩

theorem removeAll_absent (b s : List Char) (h : ¬ b <:+: s) : removeAll b s = s := by
  induction s with
  | nil => cases b <;> simp [removeAll]
  | cons c s ih =>
    cases b with
    | nil => exact absurd List.nil_infix h
    | cons o b =>
      rw [removeAll, if_neg, ih]
      · exact fun hh => h (hh.trans (List.infix_cons List.infix_rfl))
      · rw [List.isPrefixOf_iff_prefix]
        exact fun hh => h hh.isInfix

theorem isSelected_path (fmt : Int → List Char) (hf : GoodFmt fmt) (k : String)
    (ks : List String) (base : List Char) (kvs : List (String × Int)) (hne : base ≠ [])
    (hn : kvs.map (·.1) = k :: ks) (hk : ∀ x ∈ k :: ks, '=' ∉ x.toList)
    (hb : ¬ base <:+: '/' :: joinWith fmt ['/'] kvs)
    (f : List (String × Int) → Py Bool) :
    isSelected (k :: ks) base (partitionPath fmt base kvs) (some f) = f kvs := by
  have e : removeAll base (partitionPath fmt base kvs) = partitionPath fmt [] kvs := by
    unfold partitionPath
    rw [removeAll_prefix _ _ hne, removeAll_absent _ _ hb]
    rfl
  simp only [isSelected, e]
  rw [parse_partitionPath fmt hf [] k ks kvs hn hk]
  · rfl
  · intro hinf
    have : '=' ∈ ([] ++ ['/'] : List Char) := hinf.subset (by simp)
    simp at this

end Verif.Listing
