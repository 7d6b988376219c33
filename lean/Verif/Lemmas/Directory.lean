import Verif.Spec.Directory
import Verif.Lemmas.Listing

/-! Lemmas on the directories of a collection. -/

namespace Verif

open Spec Listing Dir Path

section Entries

theorem setEntry_names (name : List Char) (n : Node) (es : List (List Char × Node)) :
    (setEntry name n es).map (·.1) =
      if name ∈ es.map (·.1) then es.map (·.1) else es.map (·.1) ++ [name] := by
  induction es with
  | nil => simp [setEntry]
  | cons e t ih =>
    simp only [setEntry]
    by_cases h : e.1 = name
    · simp [h]
    · rw [if_neg h]
      simp only [List.map_cons, ih, List.mem_cons]
      have h' : ¬ name = e.1 := fun x => h x.symm
      by_cases hm : name ∈ t.map (·.1)
      · rw [if_pos hm, if_pos (Or.inr hm)]
      · rw [if_neg hm, if_neg (by simp only [h', hm, or_self, not_false_eq_true])]
        rfl

theorem setEntry_nodup {name : List Char} {n : Node} {es : List (List Char × Node)}
    (h : (es.map (·.1)).Nodup) : ((setEntry name n es).map (·.1)).Nodup := by
  rw [setEntry_names]
  split
  · exact h
  · next hm =>
    rw [List.nodup_append]
    refine ⟨h, by simp, ?_⟩
    intro a ha b hb e
    rw [List.mem_singleton] at hb
    exact hm (hb ▸ e ▸ ha)

theorem mem_setEntry {name : List Char} {n : Node} {es : List (List Char × Node)}
    (h : (es.map (·.1)).Nodup) (e : List Char × Node) :
    e ∈ setEntry name n es ↔ e = (name, n) ∨ (e ∈ es ∧ e.1 ≠ name) := by
  induction es with
  | nil => simp [setEntry]
  | cons x t ih =>
    rw [List.map_cons, List.nodup_cons] at h
    have ih := ih h.2
    simp only [setEntry]
    by_cases hx : x.1 = name
    · rw [if_pos hx]
      simp only [List.mem_cons]
      have : ∀ y ∈ t, y.1 ≠ name := fun y hy hn => h.1 (List.mem_map.2 ⟨y, hy, hn.trans hx.symm⟩)
      constructor
      · rintro (rfl | h1)
        · exact .inl rfl
        · exact .inr ⟨.inr h1, this e h1⟩
      · rintro (rfl | ⟨rfl | h1, h2⟩)
        · exact .inl rfl
        · exact absurd hx h2
        · exact .inr h1
    · rw [if_neg hx]
      simp only [List.mem_cons, ih]
      constructor
      · rintro (rfl | rfl | ⟨h1, h2⟩)
        · exact .inr ⟨.inl rfl, hx⟩
        · exact .inl rfl
        · exact .inr ⟨.inr h1, h2⟩
      · rintro (rfl | ⟨rfl | h1, h2⟩)
        · exact .inr (.inl rfl)
        · exact .inl rfl
        · exact .inr (.inr ⟨h1, h2⟩)

theorem lookup_entry {name : List Char} {n : Node} {es : List (List Char × Node)}
    (h : (es.map (·.1)).Nodup) : es.lookup name = some n ↔ (name, n) ∈ es := by
  induction es with
  | nil => simp
  | cons x t ih =>
    obtain ⟨a, b⟩ := x
    rw [List.map_cons, List.nodup_cons] at h
    rw [List.lookup_cons]
    by_cases hx : name = a
    · subst hx
      simp only [beq_self_eq_true, Option.some.injEq, List.mem_cons, Prod.mk.injEq, true_and]
      constructor
      · exact fun e => .inl e.symm
      · rintro (e | e)
        · exact e.symm
        · exact absurd (List.mem_map.2 ⟨_, e, rfl⟩) h.1
    · rw [beq_false_of_ne hx]
      simp only [ih h.2, List.mem_cons, Prod.mk.injEq, hx, false_and, false_or]

theorem lookup_entry_none {name : List Char} {es : List (List Char × Node)} :
    es.lookup name = none ↔ ∀ e ∈ es, e.1 ≠ name := by
  rw [List.lookup_eq_none_iff]
  constructor
  · intro h e he hn
    have := h e he
    rw [hn, bne_self_eq_false] at this
    cases this
  · intro h p hp
    exact bne_iff_ne.2 fun e => h p hp e.symm

end Entries

/-- The names of the directories of keys and values. -/
def comps (fmt : Int → List Char) (l : List (String × Int)) : List (List Char) :=
  l.map fun kv => dirName fmt kv.1 kv.2

theorem dirs_empty (fmt : Int → List Char) (ks : List String) : Dirs fmt ks (.dir []) := by
  cases ks with
  | nil => rfl
  | cons k ks => exact ⟨[], rfl, by simp, by simp⟩

theorem Spec.Dirs.layout {fmt : Int → List Char} {ks : List String} {n : Node} (h : Dirs fmt ks n) :
    Layout fmt ks n := by
  induction ks generalizing n with
  | nil => trivial
  | cons k ks ih =>
    obtain ⟨es, rfl, h1, h2⟩ := h
    exact ⟨es, rfl, h1, fun e he => by
      obtain ⟨v, h3, h4⟩ := h2 e he
      exact ⟨v, h3, ih h4⟩⟩

theorem Spec.Dirs.isDir {fmt : Int → List Char} {ks : List String} {n : Node} (h : Dirs fmt ks n) :
    n.isDir = true := by
  cases ks with
  | nil => exact h
  | cons k ks =>
    obtain ⟨es, rfl, _⟩ := h
    rfl

theorem Spec.RootDirs.layout {fmt : Int → List Char} {k : String} {ks : List String} {n : Node}
    (h : RootDirs fmt k ks n) : RootLayout fmt k ks n := by
  obtain ⟨es, rfl, h1, h2⟩ := h
  refine ⟨es, rfl, h1, fun e he => ?_⟩
  rcases h2 e he with ⟨h3 | h3, h4⟩ | ⟨v, h3, h4⟩
  · exact .inl ⟨h3, h4⟩
  · exact .inr (.inl h3)
  · exact .inr (.inr ⟨h4.isDir, v, h3, h4.layout⟩)

/-- The entries of a directory: those of the level `k` and others. -/
def Entries (fmt : Int → List Char) (other : List Char × Node → Prop) (k : String)
    (ks : List String) (es : List (List Char × Node)) : Prop :=
  (es.map (·.1)).Nodup ∧ ∀ e ∈ es, (other e ∧ ∀ v, e.1 ≠ dirName fmt k v) ∨
    ∃ v, e.1 = dirName fmt k v ∧ Dirs fmt ks e.2

theorem dirs_entries {fmt : Int → List Char} {k : String} {ks : List String} {n : Node} :
    Dirs fmt (k :: ks) n ↔ ∃ es, n = .dir es ∧ Entries fmt (fun _ => False) k ks es := by
  constructor
  · rintro ⟨es, rfl, h1, h2⟩
    exact ⟨es, rfl, h1, fun e he => .inr (h2 e he)⟩
  · rintro ⟨es, rfl, h1, h2⟩
    exact ⟨es, rfl, h1, fun e he => (h2 e he).elim (fun h => h.1.elim) id⟩

theorem rootDirs_entries {fmt : Int → List Char} {k : String} {ks : List String} {n : Node} :
    RootDirs fmt k ks n ↔ ∃ es, n = .dir es ∧
      Entries fmt (fun e => e.2 = .file ∨ ∃ t, e.1 = '.' :: t) k ks es := Iff.rfl

theorem stored_dir {fmt : Int → List Char} {k : String} {ks : List String}
    {es : List (List Char × Node)} {l : List (String × Int)} :
    Stored fmt (k :: ks) (.dir es) l ↔
      ∃ v c t, (dirName fmt k v, c) ∈ es ∧ l = (k, v) :: t ∧ Stored fmt ks c t := by
  constructor
  · rintro ⟨es', v, c, t, h1, h2, h3, h4⟩
    cases h1
    exact ⟨v, c, t, h2, h3, h4⟩
  · rintro ⟨v, c, t, h2, h3, h4⟩
    exact ⟨es, v, c, t, rfl, h2, h3, h4⟩

theorem stored_empty {fmt : Int → List Char} {ks : List String} {l l' : List (String × Int)}
    (h : Stored fmt ks (.dir []) l) (hl : l'.map (·.1) = ks) : l = l' := by
  cases ks with
  | nil =>
    rw [List.map_eq_nil_iff] at hl
    rw [hl]
    exact h
  | cons k ks =>
    rw [stored_dir] at h
    obtain ⟨v, c, t, h, _⟩ := h
    cases h

section Steps

variable {fmt : Int → List Char}

/-- `makedirs` at one level. -/
theorem entries_set {other : List Char × Node → Prop} {k : String} {ks : List String}
    {es : List (List Char × Node)} (h : Entries fmt other k ks es) {v : Int} {n : Node}
    (hn : Dirs fmt ks n) : Entries fmt other k ks (setEntry (dirName fmt k v) n es) := by
  refine ⟨setEntry_nodup h.1, fun e he => ?_⟩
  rcases (mem_setEntry h.1 e).1 he with rfl | ⟨h1, _⟩
  · exact .inr ⟨v, rfl, hn⟩
  · exact h.2 e h1

variable (hf : GoodFmt fmt)
include hf

theorem stored_set {k : String} {ks : List String} {es : List (List Char × Node)}
    (h : (es.map (·.1)).Nodup) {v : Int} {n : Node} {l : List (String × Int)} :
    Stored fmt (k :: ks) (.dir (setEntry (dirName fmt k v) n es)) l ↔
      (∃ t, l = (k, v) :: t ∧ Stored fmt ks n t) ∨
      (Stored fmt (k :: ks) (.dir es) l ∧ ∀ t, l ≠ (k, v) :: t) := by
  rw [stored_dir, stored_dir]
  constructor
  · rintro ⟨u, c, t, h1, rfl, h3⟩
    rcases (mem_setEntry h _).1 h1 with h1 | ⟨h1, h2⟩
    · simp only [Prod.mk.injEq] at h1
      cases dirName_inj hf h1.1
      cases h1.2
      exact .inl ⟨t, rfl, h3⟩
    · refine .inr ⟨⟨u, c, t, h1, rfl, h3⟩, ?_⟩
      intro t' e
      cases e
      exact h2 rfl
  · rintro (⟨t, rfl, h1⟩ | ⟨⟨u, c, t, h1, rfl, h3⟩, h4⟩)
    · exact ⟨v, n, t, (mem_setEntry h _).2 (.inl rfl), rfl, h1⟩
    · refine ⟨u, c, t, (mem_setEntry h _).2 (.inr ⟨h1, ?_⟩), rfl, h3⟩
      intro e
      cases dirName_inj hf e
      exact h4 t rfl

/-- One level of `makedirs`, given the levels below. -/
theorem makedirs_level {other : List Char × Node → Prop} {k : String} {ks : List String}
    (ih : ∀ (n : Node) (l : List (String × Int)), Dirs fmt ks n → l.map (·.1) = ks →
      ∃ n', makedirs (comps fmt l) n = .ok n' ∧ Dirs fmt ks n' ∧
        ∀ l', Stored fmt ks n' l' ↔ Stored fmt ks n l' ∨ l' = l)
    {es : List (List Char × Node)} (h : Entries fmt other k ks es) (v : Int)
    (l : List (String × Int)) (hl : l.map (·.1) = ks) :
    ∃ es', makedirs (comps fmt ((k, v) :: l)) (.dir es) = .ok (.dir es') ∧
      Entries fmt other k ks es' ∧
      (∀ e, other e → (∀ v, e.1 ≠ dirName fmt k v) → (e ∈ es' ↔ e ∈ es)) ∧
      ∀ l', Stored fmt (k :: ks) (.dir es') l' ↔
        Stored fmt (k :: ks) (.dir es) l' ∨ l' = (k, v) :: l := by
  have key : ∀ n0 : Node, Dirs fmt ks n0 →
      below (dirName fmt k v) es = n0 →
      (∀ t, Stored fmt ks n0 t → t ≠ l → Stored fmt (k :: ks) (.dir es) ((k, v) :: t)) →
      (∀ t, Stored fmt (k :: ks) (.dir es) ((k, v) :: t) → Stored fmt ks n0 t) →
      ∃ es', makedirs (comps fmt ((k, v) :: l)) (.dir es) = .ok (.dir es') ∧
        Entries fmt other k ks es' ∧
        (∀ e, other e → (∀ v, e.1 ≠ dirName fmt k v) → (e ∈ es' ↔ e ∈ es)) ∧
        ∀ l', Stored fmt (k :: ks) (.dir es') l' ↔
          Stored fmt (k :: ks) (.dir es) l' ∨ l' = (k, v) :: l := by
    intro n0 hn0 hlook hs1 hs2
    obtain ⟨n', h1, h2, h3⟩ := ih n0 l hn0 hl
    refine ⟨setEntry (dirName fmt k v) n' es, ?_, entries_set h h2, ?_, ?_⟩
    · simp only [comps, List.map_cons, makedirs, hlook]
      simp only [comps] at h1
      rw [h1]
      rfl
    · intro e _ hne
      rw [mem_setEntry h.1]
      constructor
      · rintro (rfl | h4)
        · exact absurd rfl (hne v)
        · exact h4.1
      · exact fun h4 => .inr ⟨h4, hne v⟩
    · intro l'
      rw [stored_set hf h.1]
      constructor
      · rintro (⟨t, rfl, h4⟩ | h4)
        · rcases (h3 t).1 h4 with h5 | rfl
          · by_cases ht : t = l
            · exact .inr (by rw [ht])
            · exact .inl (hs1 t h5 ht)
          · exact .inr rfl
        · exact .inl h4.1
      · intro h4
        by_cases hv : ∃ t, l' = (k, v) :: t
        · obtain ⟨t, rfl⟩ := hv
          refine .inl ⟨t, rfl, (h3 t).2 ?_⟩
          rcases h4 with h4 | h4
          · exact .inl (hs2 t h4)
          · cases h4
            exact .inr rfl
        · rcases h4 with h4 | rfl
          · exact .inr ⟨h4, fun t e => hv ⟨t, e⟩⟩
          · exact absurd ⟨l, rfl⟩ hv
  cases hlk : es.lookup (dirName fmt k v) with
  | none =>
    refine key (.dir []) (dirs_empty _ _) (by rw [below, hlk]) ?_ ?_
    · intro t ht hne
      exact absurd (stored_empty ht hl) hne
    · intro t ht
      obtain ⟨u, c, t', h1, h2, h3⟩ := stored_dir.1 ht
      cases h2
      exact absurd rfl (lookup_entry_none.1 hlk _ h1)
  | some n0 =>
    have hm := (lookup_entry h.1).1 hlk
    have hd : Dirs fmt ks n0 := by
      rcases h.2 _ hm with h1 | ⟨u, _, h1⟩
      · exact absurd rfl (h1.2 v)
      · exact h1
    refine key n0 hd (by rw [below, hlk]) ?_ ?_
    · intro t ht _
      exact stored_dir.2 ⟨v, n0, t, hm, rfl, ht⟩
    · intro t ht
      obtain ⟨u, c, t', h1, h2, h3⟩ := stored_dir.1 ht
      cases h2
      have := (lookup_entry h.1).2 h1
      rw [hlk] at this
      cases this
      exact h3

theorem makedirs_spec (ks : List String) (n : Node) (l : List (String × Int))
    (h : Dirs fmt ks n) (hl : l.map (·.1) = ks) :
    ∃ n', makedirs (comps fmt l) n = .ok n' ∧ Dirs fmt ks n' ∧
      ∀ l', Stored fmt ks n' l' ↔ Stored fmt ks n l' ∨ l' = l := by
  induction ks generalizing n l with
  | nil =>
    rw [List.map_eq_nil_iff] at hl
    subst hl
    cases n with
    | file => cases h
    | dir es => exact ⟨.dir es, rfl, rfl, fun l' => by simp [Stored]⟩
  | cons k ks ih =>
    cases l with
    | nil => cases hl
    | cons x l =>
      obtain ⟨a, v⟩ := x
      simp only [List.map_cons, List.cons.injEq] at hl
      obtain ⟨rfl, hl⟩ := hl
      obtain ⟨es, rfl, he⟩ := dirs_entries.1 h
      obtain ⟨es', h1, h2, _, h4⟩ := makedirs_level hf ih he v l hl
      exact ⟨_, h1, dirs_entries.2 ⟨es', rfl, h2⟩, h4⟩

theorem makedirs_root {k : String} {ks : List String} {n : Node} {l : List (String × Int)}
    (h : RootDirs fmt k ks n) (hl : l.map (·.1) = k :: ks) :
    ∃ n', makedirs (comps fmt l) n = .ok n' ∧ RootDirs fmt k ks n' ∧
      ∀ l', Stored fmt (k :: ks) n' l' ↔ Stored fmt (k :: ks) n l' ∨ l' = l := by
  cases l with
  | nil => cases hl
  | cons x l =>
    obtain ⟨a, v⟩ := x
    simp only [List.map_cons, List.cons.injEq] at hl
    obtain ⟨rfl, hl⟩ := hl
    obtain ⟨es, rfl, he⟩ := rootDirs_entries.1 h
    obtain ⟨es', h1, h2, _, h4⟩ := makedirs_level hf (makedirs_spec hf ks) he v l hl
    exact ⟨_, h1, rootDirs_entries.2 ⟨es', rfl, h2⟩, h4⟩

/-- One level of `rmtree`, given the levels below. -/
theorem rmtree_level {other : List Char × Node → Prop} {k : String} {ks : List String}
    (ih : ∀ (n : Node) (l : List (String × Int)), ks ≠ [] → Dirs fmt ks n → Stored fmt ks n l →
      ∃ n', rmtree (comps fmt l) n = .ok n' ∧ Dirs fmt ks n' ∧
        ∀ l', Stored fmt ks n' l' ↔ Stored fmt ks n l' ∧ l' ≠ l)
    {es : List (List Char × Node)} (h : Entries fmt other k ks es) (l : List (String × Int))
    (hs : Stored fmt (k :: ks) (.dir es) l) :
    ∃ es', rmtree (comps fmt l) (.dir es) = .ok (.dir es') ∧ Entries fmt other k ks es' ∧
      ∀ l', Stored fmt (k :: ks) (.dir es') l' ↔ Stored fmt (k :: ks) (.dir es) l' ∧ l' ≠ l := by
  obtain ⟨v, c, t, hm, rfl, hc⟩ := stored_dir.1 hs
  have hlk := (lookup_entry h.1).2 hm
  have hd : Dirs fmt ks c := by
    rcases h.2 _ hm with h1 | ⟨u, _, h1⟩
    · exact absurd rfl (h1.2 v)
    · exact h1
  cases ks with
  | nil =>
    have ht : t = [] := hc
    subst ht
    refine ⟨es.filter fun e => decide (e.1 ≠ dirName fmt k v), ?_, ?_, ?_⟩
    · simp only [comps, List.map_cons, List.map_nil, rmtree, hlk]
    · refine ⟨?_, fun e he => h.2 e (List.mem_filter.1 he).1⟩
      exact h.1.sublist (List.Sublist.map _ List.filter_sublist)
    · intro l'
      rw [stored_dir, stored_dir]
      constructor
      · rintro ⟨u, c', t', h1, rfl, h3⟩
        rw [List.mem_filter] at h1
        refine ⟨⟨u, c', t', h1.1, rfl, h3⟩, ?_⟩
        intro e
        cases e
        simpa using h1.2
      · rintro ⟨⟨u, c', t', h1, rfl, h3⟩, hne⟩
        have ht' : t' = [] := h3
        subst ht'
        refine ⟨u, c', [], List.mem_filter.2 ⟨h1, ?_⟩, rfl, rfl⟩
        simp only [decide_eq_true_eq]
        intro e
        cases dirName_inj hf e
        exact hne rfl
  | cons k' ks =>
    obtain ⟨n', h1, h2, h3⟩ := ih c t (by simp) hd hc
    refine ⟨setEntry (dirName fmt k v) n' es, ?_, entries_set h h2, ?_⟩
    · cases t with
      | nil =>
        obtain ⟨_, _, _, _, _, _, hh, _⟩ := hc
        cases hh
      | cons x t =>
        simp only [comps, List.map_cons, rmtree, hlk]
        simp only [comps, List.map_cons] at h1
        rw [h1]
        rfl
    · intro l'
      rw [stored_set hf h.1]
      constructor
      · rintro (⟨t', rfl, h4⟩ | ⟨h4, h5⟩)
        · obtain ⟨h5, h6⟩ := (h3 t').1 h4
          refine ⟨stored_dir.2 ⟨v, c, t', hm, rfl, h5⟩, ?_⟩
          intro e
          cases e
          exact h6 rfl
        · exact ⟨h4, h5 t⟩
      · rintro ⟨h4, h5⟩
        by_cases hv : ∃ t', l' = (k, v) :: t'
        · obtain ⟨t', rfl⟩ := hv
          refine .inl ⟨t', rfl, (h3 t').2 ⟨?_, fun e => h5 (by rw [e])⟩⟩
          obtain ⟨u, c', t2, g1, g2, g3⟩ := stored_dir.1 h4
          cases g2
          have := (lookup_entry h.1).2 g1
          rw [hlk] at this
          cases this
          exact g3
        · exact .inr ⟨h4, fun t' e => hv ⟨t', e⟩⟩

theorem rmtree_spec (ks : List String) (n : Node) (l : List (String × Int)) (hne : ks ≠ [])
    (h : Dirs fmt ks n) (hs : Stored fmt ks n l) :
    ∃ n', rmtree (comps fmt l) n = .ok n' ∧ Dirs fmt ks n' ∧
      ∀ l', Stored fmt ks n' l' ↔ Stored fmt ks n l' ∧ l' ≠ l := by
  induction ks generalizing n l with
  | nil => exact absurd rfl hne
  | cons k ks ih =>
    obtain ⟨es, rfl, he⟩ := dirs_entries.1 h
    obtain ⟨es', h1, h2, h4⟩ := rmtree_level hf (fun n l a b c => ih n l a b c) he l hs
    exact ⟨_, h1, dirs_entries.2 ⟨es', rfl, h2⟩, h4⟩

theorem rmtree_root {k : String} {ks : List String} {n : Node} {l : List (String × Int)}
    (h : RootDirs fmt k ks n) (hs : Stored fmt (k :: ks) n l) :
    ∃ n', rmtree (comps fmt l) n = .ok n' ∧ RootDirs fmt k ks n' ∧
      ∀ l', Stored fmt (k :: ks) n' l' ↔ Stored fmt (k :: ks) n l' ∧ l' ≠ l := by
  obtain ⟨es, rfl, he⟩ := rootDirs_entries.1 h
  obtain ⟨es', h1, h2, h4⟩ := rmtree_level hf (fun n l a b c => rmtree_spec hf ks n l a b c) he l hs
  exact ⟨_, h1, rootDirs_entries.2 ⟨es', rfl, h2⟩, h4⟩

end Steps

end Verif
