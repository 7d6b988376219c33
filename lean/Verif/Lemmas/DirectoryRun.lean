import Verif.Lemmas.Directory
import Verif.Lemmas.Schema

/-! Lemmas on the calls that create and remove directories. -/

namespace Verif

open Spec Listing Dir Path Sch Upd Ds

variable {P V : Type}

theorem Spec.GoodNaming.fmtOk {nm : Naming P} (h : GoodNaming nm) : GoodFmt nm.fmt := by
  rcases h.format with e | e <;> rw [e]
  · exact goodFmt_int
  · exact goodFmt_02

theorem Spec.GoodNaming.inj {nm : Naming P} (h : GoodNaming nm) {p q : P}
    {l : List (String × Int)} (hp : nm.kvs p = .ok l) (hq : nm.kvs q = .ok l) : p = q :=
  Option.some.inj ((h.back p l hp).symm.trans (h.back q l hq))

theorem components_ok {nm : Naming P} {p : P} {l : List (String × Int)} (h : nm.kvs p = .ok l) :
    components nm p = .ok (comps nm.fmt l) := by
  simp only [components, h, bind, Except.bind]
  rfl

/-- Two stores with the same partitions. -/
def SameKeys (st st' : Store P V) : Prop := ∀ p, st p = none ↔ st' p = none

theorem mirrors_congr {nm : Naming P} {root : Node} {st st' : Store P V}
    (h : Mirrors nm root st) (hs : SameKeys st st') : Mirrors nm root st' := by
  have hs' : ∀ p, st' p ≠ none ↔ st p ≠ none := fun p => not_congr (hs p).symm
  refine ⟨h.layout, fun p hp => h.named p ((hs' p).1 hp), fun l => (h.same l).trans ?_⟩
  exact exists_congr fun p => and_congr_right fun _ => (hs' p).symm

theorem mirrors_create [DecidableEq P] {nm : Naming P} (hg : GoodNaming nm) {root : Node}
    {st : Store P V} (h : Mirrors nm root st) {p : P} {l : List (String × Int)}
    (hl : nm.kvs p = .ok l) :
    ∃ new, makedirs (comps nm.fmt l) root = .ok new ∧
      (∀ vars, Mirrors nm new (setPart st p vars)) ∧ (st p ≠ none → Mirrors nm new st) ∧
      (st p = none → ∃ root', rmtree (comps nm.fmt l) new = .ok root' ∧ Mirrors nm root' st) := by
  obtain ⟨new, h1, h2, h3⟩ := makedirs_root hg.fmtOk h.layout (hg.names p l hl)
  have hset : ∀ vars, Mirrors nm new (setPart st p vars) := by
    intro vars
    refine ⟨h2, ?_, ?_⟩
    · intro q hq
      by_cases e : q = p
      · exact ⟨l, e ▸ hl⟩
      · simp only [setPart, if_neg e] at hq
        exact h.named q hq
    · intro l'
      refine (h3 l').trans ?_
      constructor
      · rintro (h4 | rfl)
        · obtain ⟨q, h5, h6⟩ := (h.same l').1 h4
          refine ⟨q, h5, ?_⟩
          simp only [setPart]
          split
          · simp
          · exact h6
        · exact ⟨p, hl, by simp [setPart]⟩
      · rintro ⟨q, h5, h6⟩
        by_cases e : q = p
        · subst e
          rw [hl] at h5
          cases h5
          exact .inr rfl
        · simp only [setPart, if_neg e] at h6
          exact .inl ((h.same l').2 ⟨q, h5, h6⟩)
  refine ⟨new, h1, hset, ?_, ?_⟩
  · intro hp
    cases hv : st p with
    | none => exact absurd hv hp
    | some vars =>
      refine mirrors_congr (hset vars) fun q => ?_
      simp only [setPart]
      split
      · next e => rw [e, hv]
      · exact Iff.rfl
  · intro hp
    have hs : Stored nm.fmt (nm.first :: nm.others) new l := (h3 l).2 (.inr rfl)
    obtain ⟨root', g1, g2, g3⟩ := rmtree_root hg.fmtOk h2 hs
    refine ⟨root', g1, g2, h.named, fun l' => (g3 l').trans ?_⟩
    have hnot : ¬ Stored nm.fmt nm.keys root l := by
      intro hc
      obtain ⟨q, h5, h6⟩ := (h.same l).1 hc
      cases hg.inj h5 hl
      exact h6 hp
    rw [h3 l', ← h.same l']
    constructor
    · rintro ⟨h4 | h4, h5⟩
      · exact h4
      · exact absurd h4 h5
    · intro h4
      exact ⟨.inl h4, fun e => hnot (e ▸ h4)⟩

theorem mirrors_remove [DecidableEq P] {nm : Naming P} (hg : GoodNaming nm) {root : Node}
    {st : Store P V} (h : Mirrors nm root st) {p : P} (hp : st p ≠ none) :
    ∃ l root', nm.kvs p = .ok l ∧ rmtree (comps nm.fmt l) root = .ok root' ∧
      Mirrors nm root' (fun q => if q = p then none else st q) := by
  obtain ⟨l, hl⟩ := h.named p hp
  have hs : Stored nm.fmt (nm.first :: nm.others) root l := (h.same l).2 ⟨p, hl, hp⟩
  obtain ⟨root', g1, g2, g3⟩ := rmtree_root hg.fmtOk h.layout hs
  refine ⟨l, root', hl, g1, g2, ?_, ?_⟩
  · intro q hq
    split at hq
    · exact absurd rfl hq
    · exact h.named q hq
  · intro l'
    refine (g3 l').trans ?_
    constructor
    · rintro ⟨h4, h5⟩
      obtain ⟨q, h6, h7⟩ := (h.same l').1 h4
      refine ⟨q, h6, ?_⟩
      have e : q ≠ p := by
        rintro rfl
        rw [hl] at h6
        cases h6
        exact h5 rfl
      simp only [if_neg e]
      exact h7
    · rintro ⟨q, h6, h7⟩
      split at h7
      · exact absurd rfl h7
      · next e =>
        refine ⟨(h.same l').2 ⟨q, h6, h7⟩, ?_⟩
        rintro rfl
        exact e (hg.inj h6 hl)

theorem mirrors_hidden {nm : Naming P} (hg : GoodNaming nm) {root : Node} {st : Store P V}
    (h : Mirrors nm root st) (t : List Char) (n : Node) :
    Mirrors nm (setRoot ('.' :: t) n root) st := by
  obtain ⟨es, rfl, h1, h2⟩ := h.layout
  have hne : ∀ v, '.' :: t ≠ dirName nm.fmt nm.first v := by
    intro v e
    simp only [dirName] at e
    cases hf : nm.first.toList with
    | nil =>
      rw [hf] at e
      simp at e
    | cons c r =>
      rw [hf] at e
      simp only [List.cons_append, List.cons.injEq] at e
      exact hg.visible r (by rw [hf, ← e.1])
  refine ⟨⟨_, rfl, setEntry_nodup h1, ?_⟩, h.named, ?_⟩
  · intro e he
    rcases (mem_setEntry h1 e).1 he with rfl | ⟨he, _⟩
    · exact .inl ⟨.inr ⟨t, rfl⟩, hne⟩
    · exact h2 e he
  · intro l
    rw [← h.same l]
    simp only [setRoot, Naming.keys]
    rw [stored_dir, stored_dir]
    refine exists_congr fun v => exists_congr fun c => exists_congr fun t' => and_congr_left' ?_
    rw [mem_setEntry h1]
    constructor
    · rintro (e | e)
      · simp only [Prod.mk.injEq] at e
        exact absurd e.1.symm (hne v)
      · exact e.1
    · exact fun e => .inr ⟨e, fun e' => hne v e'.symm⟩

theorem mirrors_created {nm : Naming P} (hg : GoodNaming nm) (c : ConfigFile V) :
    Mirrors nm (created c : Disk P V).root (created c : Disk P V).files.parts := by
  have h0 : Mirrors nm (.dir []) (fun _ => none : Store P V) := by
    refine ⟨⟨[], rfl, by simp, by simp⟩, fun p hp => absurd rfl hp, fun l => ?_⟩
    constructor
    · intro h
      rw [Naming.keys, stored_dir] at h
      obtain ⟨v, c, t, h, _⟩ := h
      cases h
    · rintro ⟨p, _, hp⟩
      exact absurd rfl hp
  exact mirrors_hidden hg h0 "zcollection".toList .file

/-! ### The listing -/

theorem listKeys_spec {nm : Naming P} (hg : GoodNaming nm) {base : List Char} {root : Node}
    {st : Store P V} (h : Mirrors nm root st)
    (hb : ¬ (nm.first.toList ++ ['=']) <:+: base ++ ['/']) :
    ∃ l, listKeys nm base root = .ok l ∧ ExactListing nm st l := by
  obtain ⟨kl, h1, h2, h3⟩ := sortedPartitions_spec nm.fmt hg.fmtOk nm.first nm.others base root
    h.layout.layout hg.visible hg.noEq hb
  have hkey : ∀ kl' : List (List (String × Int)),
      (∀ l ∈ kl', ∃ p, nm.kvs p = .ok l ∧ st p ≠ none) →
      (kl'.Pairwise fun a b => values a < values b) →
      ∃ ps : List P, mapPy (fun path => do
          let kvs ← Path.parse nm.keys path
          match nm.back kvs with
          | none => .error .valueError
          | some p => .ok p) (kl'.map (partitionPath nm.fmt base)) = .ok ps ∧
        (∀ p, p ∈ ps ↔ ∃ l ∈ kl', nm.kvs p = .ok l) ∧ ps.Pairwise (InOrder nm) := by
    intro kl' hm hp
    induction kl' with
    | nil => exact ⟨[], rfl, by simp, by simp⟩
    | cons l t ih =>
      rw [List.pairwise_cons] at hp
      obtain ⟨ps, e1, e2, e3⟩ := ih (fun l' hl' => hm l' (List.mem_cons_of_mem _ hl')) hp.2
      obtain ⟨p, hp1, hp2⟩ := hm l (List.mem_cons_self ..)
      have hparse := parse_partitionPath nm.fmt hg.fmtOk base nm.first nm.others l
        (hg.names p l hp1) hg.noEq hb
      refine ⟨p :: ps, ?_, ?_, ?_⟩
      · simp only [List.map_cons, mapPy]
        rw [e1]
        rw [show nm.keys = nm.first :: nm.others from rfl, hparse]
        simp only [bind, Except.bind, hg.back p l hp1]
      · intro q
        rw [List.mem_cons, e2]
        constructor
        · rintro (rfl | ⟨l', h4, h5⟩)
          · exact ⟨l, List.mem_cons_self .., hp1⟩
          · exact ⟨l', List.mem_cons_of_mem _ h4, h5⟩
        · rintro ⟨l', h4, h5⟩
          rcases List.mem_cons.1 h4 with rfl | h4
          · exact .inl (hg.inj h5 hp1)
          · exact .inr ⟨l', h4, h5⟩
      · rw [List.pairwise_cons]
        refine ⟨?_, e3⟩
        intro q hq
        obtain ⟨l', h4, h5⟩ := (e2 q).1 hq
        exact ⟨l, l', hp1, h5, hp.1 l' h4⟩
  obtain ⟨ps, e1, e2, e3⟩ := hkey kl (fun l hl => by
    obtain ⟨p, a, b⟩ := (h.same l).1 ((h2 l).1 hl)
    exact ⟨p, a, b⟩) h3
  refine ⟨ps, ?_, e3, ?_⟩
  · simp only [listKeys, bind, Except.bind]
    rw [show nm.keys = nm.first :: nm.others from rfl, h1]
    exact e1
  · intro p
    rw [e2]
    constructor
    · rintro ⟨l, h4, h5⟩
      obtain ⟨q, h6, h7⟩ := (h.same l).1 ((h2 l).1 h4)
      rw [hg.inj h5 h6]
      exact h7
    · intro hp
      obtain ⟨l, hl⟩ := h.named p hp
      exact ⟨l, (h2 l).2 ((h.same l).2 ⟨p, hl, hp⟩), hl⟩

theorem inOrder_irrefl {nm : Naming P} {a : P} : ¬ InOrder nm a a := by
  rintro ⟨la, lb, h1, h2, h3⟩
  rw [h1] at h2
  cases h2
  exact List.lt_irrefl _ h3

theorem inOrder_asymm {nm : Naming P} {a b : P} (h : InOrder nm a b) : ¬ InOrder nm b a := by
  obtain ⟨la, lb, h1, h2, h3⟩ := h
  rintro ⟨lb', la', h4, h5, h6⟩
  rw [h1] at h5
  rw [h2] at h4
  cases h5
  cases h4
  exact List.lt_irrefl _ (List.lt_trans h3 h6)

theorem Spec.ExactListing.nodup {nm : Naming P} {st : Store P V} {l : List P}
    (h : ExactListing nm st l) : l.Nodup :=
  h.1.imp fun hab e => by
    subst e
    exact inOrder_irrefl hab

theorem exactListing_unique {nm : Naming P} {st st' : Store P V} (hs : SameKeys st st')
    {l l' : List P} (h : ExactListing nm st l) (h' : ExactListing nm st' l') : l = l' := by
  have hp : l.Perm l' := (List.perm_ext_iff_of_nodup h.nodup h'.nodup).2 fun p => by
    rw [h.2, h'.2]
    exact not_congr (hs p)
  refine List.Perm.eq_of_pairwise ?_ h.1 h'.1 hp
  intro a b _ _ hab hba
  exact absurd hba (inOrder_asymm hab)

/-- The listing of a store, apart from any directory. -/
noncomputable def canon (nm : Naming P) (st : Store P V) : List P := by
  classical
  exact if h : ∃ l, ExactListing nm st l then h.choose
    else if h : ∃ l : List P, l.Nodup ∧ ∀ p, p ∈ l ↔ st p ≠ none then h.choose else []

/-- The world of Model/Schema whose listing is that of the directories. -/
noncomputable def canonWorld (nm : Naming P) (w : World P V) : World P V :=
  { w with list := canon nm, split := splitNamed nm w }

theorem canon_exact {nm : Naming P} {st st' : Store P V} (hs : SameKeys st st') {l : List P}
    (h : ExactListing nm st l) : canon nm st' = l := by
  have he : ∃ l, ExactListing nm st' l :=
    ⟨l, h.1, fun p => (h.2 p).trans (not_congr (hs p))⟩
  unfold canon
  rw [dif_pos he]
  exact (exactListing_unique hs h he.choose_spec).symm

theorem canonWorld_good (nm : Naming P) (w : World P V) : GoodWorld (canonWorld nm w) := by
  classical
  intro st hb
  show (canon nm st).Nodup ∧ ∀ p, p ∈ canon nm st ↔ st p ≠ none
  unfold canon
  split
  · next h => exact ⟨h.choose_spec.nodup, h.choose_spec.2⟩
  · have h : ∃ l : List P, l.Nodup ∧ ∀ p, p ∈ l ↔ st p ≠ none := by
      obtain ⟨l, hl⟩ := hb
      have : ∀ l : List P, ∃ l' : List P, l'.Nodup ∧ ∀ p, p ∈ l' ↔ p ∈ l ∧ st p ≠ none := by
        intro l
        induction l with
        | nil => exact ⟨[], by simp, by simp⟩
        | cons q t ih =>
          obtain ⟨l', h1, h2⟩ := ih
          by_cases hq : q ∉ l' ∧ st q ≠ none
          · refine ⟨q :: l', List.nodup_cons.2 ⟨hq.1, h1⟩, fun p => ?_⟩
            rw [List.mem_cons, List.mem_cons, h2]
            constructor
            · rintro (rfl | h3)
              · exact ⟨.inl rfl, hq.2⟩
              · exact ⟨.inr h3.1, h3.2⟩
            · rintro ⟨rfl | h3, h4⟩
              · exact .inl rfl
              · exact .inr ⟨h3, h4⟩
          · refine ⟨l', h1, fun p => ?_⟩
            rw [List.mem_cons, h2]
            constructor
            · exact fun h3 => ⟨.inr h3.1, h3.2⟩
            · rintro ⟨rfl | h3, h4⟩
              · exact (h2 p).1 (Classical.not_not.1 fun hc => hq ⟨hc, h4⟩)
              · exact ⟨h3, h4⟩
      obtain ⟨l', h1, h2⟩ := this l
      exact ⟨l', h1, fun p => (h2 p).trans ⟨fun h => h.2, fun h => ⟨hl p h, h⟩⟩⟩
    rw [dif_pos h]
    exact h.choose_spec

end Verif
