import Verif.Lemmas.DirectorySim
import Verif.Lemmas.DirectoryNames
import Verif.Props.Frame

/-! C71: the directories of a collection are always those of its partitions. -/

namespace Verif

open Spec Listing Dir Path Sch Upd Ds Pipe

variable {P V : Type} [DecidableEq P]

omit [DecidableEq P] in
/-- C71: while the directories are those of the partitions, the listing raises nothing and gives
the partitions, each one once, in the order of the values of their keys. -/
theorem C71_listing (nm : Naming P) (hg : GoodNaming nm) (base : List Char)
    (hb : ¬ (nm.first.toList ++ ['=']) <:+: base ++ ['/']) (d : Disk P V)
    (h : Mirrors nm d.root d.files.parts) :
    ∃ l, listKeys nm base d.root = .ok l ∧ ExactListing nm d.files.parts l :=
  listKeys_spec hg h hb

/-- C71: a call keeps the directories those of the partitions, whatever its outcome: the directory
of a partition whose insertion failed is not left behind, a partition that could not be removed
keeps its directory. -/
theorem C71_call (nm : Naming P) (hg : GoodNaming nm) (base : List Char)
    (hb : ¬ (nm.first.toList ++ ['=']) <:+: base ++ ['/']) (w : World P V) (o : Obj V)
    (d : Disk P V) (h : Mirrors nm d.root d.files.parts) (c : Call P V) :
    Mirrors nm (Dir.exec nm base w o d c).2.1.root
      (Dir.exec nm base w o d c).2.1.files.parts := by
  obtain ⟨root', h1, h2⟩ := exec_sim hg hb (w := w) (o := o) (c := c) h
  rw [h2]
  exact h1

theorem run_mirrors {nm : Naming P} (hg : GoodNaming nm) {base : List Char}
    (hb : ¬ (nm.first.toList ++ ['=']) <:+: base ++ ['/']) (w : World P V)
    (events : List (Event P V)) (d : Disk P V) (h : Mirrors nm d.root d.files.parts) :
    Mirrors nm (run nm base w d events).root (run nm base w d events).files.parts := by
  induction events generalizing d with
  | nil => exact h
  | cons e t ih =>
    refine ih _ ?_
    cases e with
    | call o c => exact C71_call nm hg base hb w o d h c
    | opened readOnly =>
      show Mirrors nm d.root (fromConfig w readOnly d.files).1.parts
      rw [fromConfig_parts.1]
      exact h

/-- C71: from the creation of a collection, after any events (calls of any objects, with any
outcomes and failures, and openings), the directories are those of the partitions, and the listing
gives the partitions, each one once, in order. -/
theorem C71_history (nm : Naming P) (hg : GoodNaming nm) (base : List Char)
    (hb : ¬ (nm.first.toList ++ ['=']) <:+: base ++ ['/']) (w : World P V)
    (config : ConfigFile V) (events : List (Event P V)) :
    let d := run nm base w (created config) events
    Mirrors nm d.root d.files.parts ∧
      ∃ l, listKeys nm base d.root = .ok l ∧ ExactListing nm d.files.parts l := by
  intro d
  have h := run_mirrors hg hb w events (created config) (mirrors_created hg config)
  exact ⟨h, C71_listing nm hg base hb d h⟩

theorem run_later {nm : Naming P} (hg : GoodNaming nm) {base : List Char}
    (hb : ¬ (nm.first.toList ++ ['=']) <:+: base ++ ['/']) (w : World P V)
    (ok : Call P V → Prop) (events : List (Event P V)) (d : Disk P V)
    (h : Mirrors nm d.root d.files.parts) (hok : ∀ e ∈ events, AllowedEvent ok e) (fs : Files P V)
    (hl : Later (canonWorld nm w) ok fs d.files) :
    Later (canonWorld nm w) ok fs (run nm base w d events).files := by
  induction events generalizing d with
  | nil => exact hl
  | cons e t ih =>
    have ht := fun x hx => hok x (List.mem_cons_of_mem _ hx)
    cases e with
    | call o c =>
      refine ih _ (C71_call nm hg base hb w o d h c) ht ?_
      obtain ⟨root', _, h2⟩ := exec_sim hg hb (w := w) (o := o) (c := c) h
      show Later _ _ _ (Dir.exec nm base w o d c).2.1.files
      rw [h2]
      exact hl.call o c (hok (.call o c) (List.mem_cons_self ..))
    | opened readOnly =>
      refine ih _ ?_ ht ?_
      · show Mirrors nm d.root (fromConfig w readOnly d.files).1.parts
        rw [fromConfig_parts.1]
        exact h
      · exact hl.opened readOnly

/-- C71: what the other theorems suppose of the listing (`World.list` of Model/Schema) holds of the
directories.  One world, whose listing is exact for all stores, has the listing of the directories
after all events, and gives the same files, objects and outcomes. -/
theorem C71_refines (nm : Naming P) (hg : GoodNaming nm) (base : List Char)
    (hb : ¬ (nm.first.toList ++ ['=']) <:+: base ++ ['/']) (w : World P V)
    (config : ConfigFile V) :
    ∃ w' : World P V, GoodWorld w' ∧ w' = { w with list := w'.list, split := splitNamed nm w } ∧
      ∀ events : List (Event P V),
        let d := run nm base w (created config) events
        Later w' (fun _ => True) (created config : Disk P V).files d.files ∧
        listKeys nm base d.root = .ok (w'.list d.files.parts) ∧
        ∀ (o : Obj V) (c : Call P V),
          (Dir.exec nm base w o d c).1 = (Sch.exec w' o d.files c).1 ∧
          (Dir.exec nm base w o d c).2.1.files = (Sch.exec w' o d.files c).2.1 ∧
          (Dir.exec nm base w o d c).2.2 = (Sch.exec w' o d.files c).2.2 := by
  refine ⟨canonWorld nm w, canonWorld_good nm w, rfl, ?_⟩
  intro events d
  obtain ⟨h, l, h1, h2⟩ := C71_history nm hg base hb w config events
  refine ⟨run_later hg hb w _ events _ (mirrors_created hg config)
    (fun e _ => by cases e <;> trivial) _ (.start _), ?_, ?_⟩
  · rw [show (canonWorld nm w).list d.files.parts = l from canon_exact (fun _ => Iff.rfl) h2]
    exact h1
  · intro o c
    obtain ⟨root', _, h3⟩ := exec_sim hg hb (w := w) (o := o) (c := c) h
    rw [h3]
    exact ⟨rfl, rfl, rfl⟩

/-- C71: the directories of a `Sequence` give back the partitions, and are listed in the order of
the keys (the hypothesis of C68). -/
theorem C71_sequence (first : String) (others : List String)
    (h1 : ∀ t, first.toList ≠ '.' :: t) (h2 : ∀ x ∈ first :: others, '=' ∉ x.toList) :
    GoodNaming (sequence first others) ∧
      ∀ (st : Store (List Int) V) (l : List (List Int)),
        ExactListing (sequence first others) st l → l.Pairwise (· < ·) :=
  ⟨goodNaming_sequence first others h1 h2, fun _ _ h => h.1.imp inOrder_sequence⟩

/-- C71: the same for a `Date`, at all resolutions. -/
theorem C71_date (res : Cal.Res) :
    GoodNaming (date res) ∧
      ∀ (st : Store (List Int) V) (l : List (List Int)),
        ExactListing (date res) st l → l.Pairwise (· < ·) :=
  ⟨goodNaming_date res, fun _ _ h => h.1.imp inOrder_date⟩

theorem insertReady_split {nm : Naming P} {w w' : World P V} (hw : w'.split = splitNamed nm w)
    {o : Obj V} {faults : Faults P} {np : Option Int} {merge : Option (Merge V)}
    {zds : Dataset V} {fs : Files P V} :
    ((Sch.insertReady w' o faults np merge zds fs).1.parts = fs.parts ∧
      ∃ e, (Sch.insertReady w' o faults np merge zds fs).2 = .error e) ∨
    Sch.insertReady w' o faults np merge zds fs = Sch.insertReady w o faults np merge zds fs := by
  unfold Sch.insertReady
  have hp := takeImmutable_files (o := o) (zds := zds) (fs := fs)
  cases ht : takeImmutable o zds fs with
  | mk fs1 r =>
    rw [ht] at hp
    simp only at hp
    cases r with
    | error e => exact .inr rfl
    | ok zds' =>
      simp only [hw]
      cases hs : splitNamed nm w zds' with
      | error e => exact .inl ⟨hp, e, rfl⟩
      | ok pieces =>
        have : w.split zds' = .ok pieces := by
          unfold splitNamed at hs
          cases h1 : w.split zds' with
          | error e => simp [h1, bind, Except.bind] at hs
          | ok ps =>
            simp only [h1, bind, Except.bind] at hs
            cases h2 : mapPy (fun x => nm.kvs x.1) ps with
            | error e => simp [h2] at hs
            | ok r => simp only [h2] at hs; exact hs
        rw [this]
        exact .inr rfl

theorem insert_split {nm : Naming P} {w : World P V}
    {o : Obj V} {faults : Faults P} {validate : Bool} {np : Option Int}
    {merge : Option (Merge V)} {ds : Dataset V} {fs : Files P V} :
    ((Sch.insert (canonWorld nm w) o faults validate np merge ds fs).2.1.parts = fs.parts ∧
      ∃ e, (Sch.insert (canonWorld nm w) o faults validate np merge ds fs).2.2 = .error e) ∨
    Sch.insert (canonWorld nm w) o faults validate np merge ds fs =
      Sch.insert w o faults validate np merge ds fs := by
  unfold Sch.insert
  cases hm : missing o.metas ds with
  | error e => exact .inr rfl
  | ok ms =>
    simp only
    have hw : ∀ (ms : List (VarMeta V)) ds',
        complete (canonWorld nm w) ds' ms = complete w ds' ms := by
      intro ms
      induction ms with
      | nil => intro ds'; rfl
      | cons m t ih =>
        intro ds'
        unfold complete
        rw [show (canonWorld nm w).noneValue = w.noneValue from rfl]
        split
        · exact ih _
        · rfl
    rw [hw]
    cases hc : complete w ds ms with
    | mk ds' r =>
      cases r with
      | error e => exact .inr rfl
      | ok u =>
        simp only
        rw [show (canonWorld nm w).sameMeta = w.sameMeta from rfl]
        split
        · exact .inr rfl
        · cases hs : setForInsertion ds' with
          | error e => exact .inr rfl
          | ok zds =>
            rcases insertReady_split (nm := nm) (w := w) (w' := canonWorld nm w) rfl (o := o)
              (faults := faults) (np := np) (merge := merge) (zds := zds) (fs := fs) with h | h
            · exact .inl h
            · exact .inr (by simp only [h])

/-- C71: an insertion that returned did what Model/Schema says, so that the theorems on its effect
(C22, C69) hold with the directories. -/
theorem C71_insert (nm : Naming P) (hg : GoodNaming nm) (w : World P V) (o : Obj V)
    (faults : Faults P) (validate : Bool) (np : Option Int)
    (merge : Option (Merge V)) (ds : Dataset V) (d d' : Disk P V) (ks : List P)
    (h : Mirrors nm d.root d.files.parts)
    (hi : Dir.insert nm w o faults validate np merge ds d = (d', .ok ks)) :
    (Sch.insert w o faults validate np merge ds d.files).2 = (d'.files, .ok ks) := by
  obtain ⟨root', h1, h2⟩ := insert_sim hg (w := w) (o := o) (faults := faults)
    (validate := validate) (npartitions := np) (merge := merge) (ds := ds) h
  rw [hi] at h2
  have e1 := congrArg (fun x => x.1.files) h2
  have e2 := congrArg (fun x => x.2) h2
  simp only at e1 e2
  rcases insert_split (nm := nm) (w := w) (o := o) (faults := faults) (validate := validate)
    (np := np) (merge := merge) (ds := ds) (fs := d.files) with ⟨_, e, h3⟩ | h3
  · rw [h3] at e2
    cases e2
  · rw [← h3]
    exact Prod.ext e1.symm e2.symm

theorem insertBatch_keys {merge : Option (Merge V)} {faults : Faults P} {dim : String}
    {zds : Dataset V} (b : List (P × (Nat × Nat))) (st st' : Store P V)
    (h : Sch.insertBatch merge faults dim zds st b = (st', .ok ())) (p : P) :
    st' p ≠ none ↔ st p ≠ none ∨ p ∈ b.map (·.1) := by
  induction b generalizing st with
  | nil => cases h; simp
  | cons x t ih =>
    unfold Sch.insertBatch at h
    cases hx : Sch.insertTask merge faults dim zds st x with
    | error e =>
      rw [hx] at h
      simp only [Prod.mk.injEq] at h
      exact absurd h.2 (by simp)
    | ok st1 =>
      rw [hx] at h
      rw [ih st1 h]
      obtain ⟨vars, rfl⟩ := insertTask_setPart hx
      simp only [setPart, List.map_cons, List.mem_cons]
      by_cases e : p = x.1
      · simp [e]
      · simp [e]

theorem insertAll_keys {merge : Option (Merge V)} {faults : Faults P} {dim : String}
    {zds : Dataset V} (bs : List (List (P × (Nat × Nat)))) (st st' : Store P V)
    (h : Sch.insertAll merge faults dim zds st bs = (st', .ok ())) (p : P) :
    st' p ≠ none ↔ st p ≠ none ∨ p ∈ bs.flatten.map (·.1) := by
  induction bs generalizing st with
  | nil => cases h; simp
  | cons b t ih =>
    unfold Sch.insertAll at h
    cases hb : Sch.insertBatch merge faults dim zds st b with
    | mk st1 r =>
      rw [hb] at h
      cases r with
      | error e => simp at h
      | ok u =>
        rw [ih st1 h, insertBatch_keys b st st1 hb p, List.flatten_cons, List.map_append,
          List.mem_append, or_assoc]

theorem insert_keys {w : World P V} {o : Obj V} {faults : Faults P} {validate : Bool}
    {np : Option Int} {merge : Option (Merge V)} {ds ds' : Dataset V} {fs fs' : Files P V}
    {ks : List P} (h : Sch.insert w o faults validate np merge ds fs = (ds', fs', .ok ks))
    (p : P) : fs'.parts p ≠ none ↔ fs.parts p ≠ none ∨ p ∈ ks := by
  unfold Sch.insert at h
  split at h
  · cases h
  · split at h
    · cases h
    · split at h
      · cases h
      · split at h
        · cases h
        · next zds _ =>
          have h := (Prod.mk.inj h).2
          unfold Sch.insertReady at h
          have hp := takeImmutable_files (o := o) (zds := zds) (fs := fs)
          cases ht : takeImmutable o zds fs with
          | mk fs1 r =>
            rw [ht] at h hp
            simp only at hp
            cases r with
            | error e => simp at h
            | ok zds' =>
              simp only at h
              split at h
              · simp at h
              · next pieces _ =>
                split at h
                · simp at h
                · next bs hbs =>
                  cases ha : Sch.insertAll merge faults o.dim zds' fs1.parts bs with
                  | mk st r =>
                    rw [ha] at h
                    cases r with
                    | error e => simp at h
                    | ok u =>
                      cases h
                      show st p ≠ none ↔ _
                      rw [insertAll_keys bs _ _ ha p, hp, batches_flatten _ _ _ hbs]

/-- C71: after an insertion that returned, the listing has what it had and the partitions that the
insertion returned, nothing else. -/
theorem C71_inserted (nm : Naming P) (hg : GoodNaming nm) (base : List Char)
    (hb : ¬ (nm.first.toList ++ ['=']) <:+: base ++ ['/']) (w : World P V)
    (o : Obj V) (faults : Faults P) (validate : Bool) (np : Option Int)
    (merge : Option (Merge V)) (ds : Dataset V) (d d' : Disk P V) (ks : List P)
    (h : Mirrors nm d.root d.files.parts)
    (hi : Dir.insert nm w o faults validate np merge ds d = (d', .ok ks)) :
    ∃ l l', listKeys nm base d.root = .ok l ∧ listKeys nm base d'.root = .ok l' ∧
      l'.Pairwise (InOrder nm) ∧ ∀ p, p ∈ l' ↔ p ∈ l ∨ p ∈ ks := by
  have hm : Mirrors nm d'.root d'.files.parts := by
    obtain ⟨root', h1, h2⟩ := insert_sim hg (w := w) (o := o) (faults := faults)
      (validate := validate) (npartitions := np) (merge := merge) (ds := ds) h
    rw [hi] at h2
    cases (Prod.mk.inj h2).1
    exact h1
  obtain ⟨l, a1, a2⟩ := C71_listing nm hg base hb d h
  obtain ⟨l', b1, b2⟩ := C71_listing nm hg base hb d' hm
  refine ⟨l, l', a1, b1, b2.1, fun p => ?_⟩
  have hs := C71_insert nm hg w o faults validate np merge ds d d' ks h hi
  rw [b2.2, a2.2]
  exact insert_keys (w := w) (ds' := (Sch.insert w o faults validate np merge ds d.files).1)
    (by rw [← hs]) p

/-- C71: after `drop_partitions`, the listing has lost the selected partitions that could be
removed, and nothing else; the call raises if one of them could not. -/
theorem C71_dropped (nm : Naming P) (hg : GoodNaming nm) (base : List Char)
    (hb : ¬ (nm.first.toList ++ ['=']) <:+: base ++ ['/']) (w : World P V) (o : Obj V)
    (hro : o.readOnly = false) (filters : P → Bool) (faults : Faults P) (d : Disk P V)
    (h : Mirrors nm d.root d.files.parts) :
    ∃ l, listKeys nm base d.root = .ok l ∧
      listKeys nm base (Dir.exec nm base w o d (.dropPartitions filters faults)).2.1.root =
        .ok (l.filter fun p => !filters p || faults.del p) ∧
      ((Dir.exec nm base w o d (.dropPartitions filters faults)).2.2 = .ok () ↔
        ∀ p ∈ l, filters p = true → faults.del p = false) := by
  obtain ⟨l, a1, a2⟩ := C71_listing nm hg base hb d h
  obtain ⟨root', h1, h2⟩ := exec_sim hg hb (w := w) (o := o)
    (c := .dropPartitions filters faults) h
  have hw : (canonWorld nm w).list d.files.parts = l := canon_exact (fun _ => Iff.rfl) a2
  have hnd : (l.filter filters).Nodup := List.Nodup.sublist List.filter_sublist a2.nodup
  obtain ⟨r1, r2⟩ := runTasks_spec (dropOne faults) d.files.parts (l.filter filters) hnd
  have he : Sch.exec (canonWorld nm w) o d.files (.dropPartitions filters faults) =
      (o, { d.files with parts := (runTasks (dropOne faults) d.files.parts
        (l.filter filters)).1 }, (runTasks (dropOne faults) d.files.parts
        (l.filter filters)).2) := by
    simp only [Sch.exec, hro, Bool.false_eq_true, false_and, if_false, Sch.dropPartitions, hw]
    rfl
  rw [he] at h1 h2
  rw [h2]
  refine ⟨l, a1, ?_, ?_⟩
  · obtain ⟨l', b1, b2⟩ := listKeys_spec hg h1 hb
    simp only
    rw [b1]
    refine congrArg _ (exactListing_unique (fun _ => Iff.rfl) b2 ⟨a2.1.filter _, fun p => ?_⟩)
    simp only [List.mem_filter, r1, a2.2, dropOne]
    cases filters p <;> cases faults.del p <;> cases d.files.parts p <;> simp
  · simp only
    rw [r2]
    simp only [List.mem_filter, dropOne]
    constructor
    · intro hx p hp hf
      have := hx p ⟨hp, hf⟩
      cases hd : faults.del p with
      | false => rfl
      | true => rw [hd] at this; simp at this
    · rintro hx p ⟨hp, hf⟩
      rw [hx p hp hf]
      simp

/-- C71: with the directories too, a variable of a partition stays until a call addresses it
(C69), and a partition that is not addressed stays listed, or not listed. -/
theorem C71_frame (nm : Naming (List Int)) (hg : GoodNaming nm) (base : List Char)
    (hb : ¬ (nm.first.toList ++ ['=']) <:+: base ++ ['/']) (w : World (List Int) V)
    (sc : Scheme V) (hsplit : w.split = splitDataset sc) (hsc : GoodScheme sc) (k : List Int)
    (n : String) (d : Disk (List Int) V) (h : Mirrors nm d.root d.files.parts)
    (events : List (Event (List Int) V)) (hok : ∀ e ∈ events, AllowedEvent (Leaves sc w k n) e) :
    SameAt k n d.files.parts (run nm base w d events).files.parts ∧
      ∃ l l', listKeys nm base d.root = .ok l ∧
        listKeys nm base (run nm base w d events).root = .ok l' ∧ (k ∈ l ↔ k ∈ l') := by
  have hsame : SameAt k n d.files.parts (run nm base w d events).files.parts := by
    have hl := run_later hg hb w _ events d h hok _ (.start _)
    generalize (run nm base w d events).files = fs at hl
    induction hl with
    | start => exact SameAt.refl _ _ _
    | @call fs1 o c _ hc ih =>
      refine ih.trans ?_
      have hpres : c.method ≠ "insert" → SameAt k n fs1.parts
          (Sch.exec (canonWorld nm w) o fs1 c).2.1.parts := by
        intro hne
        have := C69_call { canonWorld nm w with split := w.split } sc hsplit hsc o fs1 k n c
          (by cases c <;> exact hc)
        cases c <;> first | exact absurd rfl hne | exact this
      cases c with
      | insert faults validate np merge ds =>
        unfold Sch.exec
        split
        · exact SameAt.refl _ _ _
        · simp only
          rcases insert_split (nm := nm) (w := w) (o := o) (faults := faults)
            (validate := validate) (np := np) (merge := merge) (ds := ds) (fs := fs1) with
            ⟨e, _⟩ | e
          · exact SameAt.of_eq (by rw [e])
          · rw [e]
            exact SameAt.of_eq (insert_other hsplit hsc hc.1 hc.2.1 hc.2.2 fs1)
      | _ => exact hpres (by simp [Call.method])
    | opened readOnly _ ih => exact ih.trans (SameAt.of_eq (by rw [fromConfig_parts.1]))
  refine ⟨hsame, ?_⟩
  obtain ⟨l, a1, a2⟩ := C71_listing nm hg base hb d h
  obtain ⟨l', b1, b2⟩ := C71_listing nm hg base hb _ (run_mirrors hg hb w events d h)
  refine ⟨l, l', a1, b1, ?_⟩
  rw [a2.2, b2.2]
  exact not_congr hsame.1

end Verif
