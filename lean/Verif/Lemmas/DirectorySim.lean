import Verif.Lemmas.DirectoryRun
import Verif.Lemmas.Frame
import Verif.Lemmas.Batches

/-! The calls on the directories do what those of Model/Schema do, with the listing of the
directories. -/

namespace Verif

open Spec Listing Dir Path Sch Upd Ds

variable {P V : Type} [DecidableEq P]

theorem insertBatches_mem {α : Type} {l : List α} {n : Option Int} {bs : List (List α)}
    (h : Batches.insertBatches l n = .ok bs) : ∀ b ∈ bs, ∀ x ∈ b, x ∈ l := by
  intro b hb x hx
  rw [← batches_flatten l n bs h]
  exact List.mem_flatten.2 ⟨b, hb, hx⟩

theorem insertTask_setPart {merge : Option (Merge V)} {faults : Faults P} {dim : String}
    {zds : Dataset V} {st st' : Store P V} {piece : P × (Nat × Nat)}
    (h : Sch.insertTask merge faults dim zds st piece = .ok st') :
    ∃ vars, st' = setPart st piece.1 vars := by
  have hfin : ∀ new : Dataset V, (if faults.write piece.1 then .error .osError
      else .ok (setPart st piece.1 new.vars) : Py (Store P V)) = .ok st' →
      ∃ vars, st' = setPart st piece.1 vars := by
    intro new hn
    split at hn
    · cases hn
    · cases hn
      exact ⟨_, rfl⟩
  unfold Sch.insertTask at h
  simp only [bind, Except.bind] at h
  split at h
  · cases h
  · split at h
    · exact hfin _ h
    · split at h
      · cases h
      · exact hfin _ h

/-- One insertion: the directories mirror the files, which are those of Model/Schema. -/
theorem insertTask_sim {nm : Naming P} (hg : GoodNaming nm) {merge : Option (Merge V)}
    {faults : Faults P} {dim : String} {zds : Dataset V} {st : Store P V} {root : Node}
    {piece : P × (Nat × Nat)} (h : Mirrors nm root st) {l : List (String × Int)}
    (hl : nm.kvs piece.1 = .ok l) :
    ∃ root', Mirrors nm root' (match Sch.insertTask merge faults dim zds st piece with
        | .ok st' => st'
        | .error _ => st) ∧
      Dir.insertTask nm merge faults dim zds st root piece =
        match Sch.insertTask merge faults dim zds st piece with
        | .ok st' => ((st', root'), .ok ())
        | .error e => ((st, root'), .error e) := by
  obtain ⟨new, h1, h2, h3, h4⟩ := mirrors_create hg h hl
  have hc : (do
      let path ← components nm piece.1
      let new ← makedirs path root
      .ok (path, new) : Py (List (List Char) × Node)) = .ok (comps nm.fmt l, new) := by
    rw [components_ok hl]
    simp only [bind, Except.bind, h1]
  unfold Dir.insertTask
  rw [hc]
  simp only
  cases ht : Sch.insertTask merge faults dim zds st piece with
  | ok st' =>
    obtain ⟨vars, rfl⟩ := insertTask_setPart ht
    exact ⟨new, h2 vars, rfl⟩
  | error e =>
    simp only
    cases hp : st piece.1 with
    | some vs =>
      exact ⟨new, h3 (by rw [hp]; simp), rfl⟩
    | none =>
      obtain ⟨root', g1, g2⟩ := h4 hp
      refine ⟨root', g2, ?_⟩
      simp only [g1]

theorem insertBatch_sim {nm : Naming P} (hg : GoodNaming nm) {merge : Option (Merge V)}
    {faults : Faults P} {dim : String} {zds : Dataset V} (b : List (P × (Nat × Nat)))
    (hb : ∀ x ∈ b, ∃ l, nm.kvs x.1 = .ok l) (st : Store P V) (root : Node)
    (h : Mirrors nm root st) :
    ∃ root', Mirrors nm root' (Sch.insertBatch merge faults dim zds st b).1 ∧
      Dir.insertBatch nm merge faults dim zds st root b =
        (((Sch.insertBatch merge faults dim zds st b).1, root'),
          (Sch.insertBatch merge faults dim zds st b).2) := by
  induction b generalizing st root with
  | nil => exact ⟨root, h, rfl⟩
  | cons x t ih =>
    obtain ⟨l, hl⟩ := hb x (List.mem_cons_self ..)
    obtain ⟨r1, h1, h2⟩ := insertTask_sim hg (merge := merge) (faults := faults) (dim := dim)
      (zds := zds) h hl
    have hb' := fun y hy => hb y (List.mem_cons_of_mem _ hy)
    unfold Dir.insertBatch Sch.insertBatch
    rw [h2]
    cases ht : Sch.insertTask merge faults dim zds st x with
    | ok st' =>
      rw [ht] at h1
      exact ih hb' st' r1 h1
    | error e =>
      rw [ht] at h1
      obtain ⟨r2, h3, h4⟩ := ih hb' st r1 h1
      refine ⟨r2, h3, ?_⟩
      simp only
      rw [h4]

theorem insertAll_sim {nm : Naming P} (hg : GoodNaming nm) {merge : Option (Merge V)}
    {faults : Faults P} {dim : String} {zds : Dataset V} (bs : List (List (P × (Nat × Nat))))
    (hb : ∀ b ∈ bs, ∀ x ∈ b, ∃ l, nm.kvs x.1 = .ok l) (st : Store P V) (root : Node)
    (h : Mirrors nm root st) :
    ∃ root', Mirrors nm root' (Sch.insertAll merge faults dim zds st bs).1 ∧
      Dir.insertAll nm merge faults dim zds st root bs =
        (((Sch.insertAll merge faults dim zds st bs).1, root'),
          (Sch.insertAll merge faults dim zds st bs).2) := by
  induction bs generalizing st root with
  | nil => exact ⟨root, h, rfl⟩
  | cons b t ih =>
    obtain ⟨r1, h1, h2⟩ := insertBatch_sim hg (merge := merge) (faults := faults) (dim := dim)
      (zds := zds) b (hb b (List.mem_cons_self ..)) st root h
    unfold Dir.insertAll Sch.insertAll
    rw [h2]
    cases ht : Sch.insertBatch merge faults dim zds st b with
    | mk st' r =>
      rw [ht] at h1
      cases r with
      | ok u => exact ih (fun y hy => hb y (List.mem_cons_of_mem _ hy)) st' r1 h1
      | error e => exact ⟨r1, h1, rfl⟩

omit [DecidableEq P] in
theorem splitNamed_named {nm : Naming P} {w : World P V} {zds : Dataset V}
    {pieces : List (P × (Nat × Nat))} (h : splitNamed nm w zds = .ok pieces) :
    ∀ x ∈ pieces, ∃ l, nm.kvs x.1 = .ok l := by
  unfold splitNamed at h
  cases hs : w.split zds with
  | error e => simp [hs, bind, Except.bind] at h
  | ok ps =>
    simp only [hs, bind, Except.bind] at h
    cases hm : mapPy (fun x => nm.kvs x.1) ps with
    | error e => simp [hm] at h
    | ok r =>
      simp only [hm, Except.ok.injEq] at h
      subst h
      intro x hx
      obtain ⟨i, hi⟩ := List.getElem?_of_mem hx
      obtain ⟨y, _, hy⟩ := (mapPy_spec _ _ _ hm).2 i x hi
      exact ⟨y, hy⟩

omit [DecidableEq P] in
theorem rootImm_mirrors {nm : Naming P} (hg : GoodNaming nm) {root : Node} {st : Store P V}
    (h : Mirrors nm root st) (a b : Files P V) : Mirrors nm (rootImm a b root) st := by
  unfold rootImm
  split
  · exact mirrors_hidden hg h "immutable".toList (.dir [])
  · exact h

omit [DecidableEq P] in
theorem takeImmutable_files {o : Obj V} {zds : Dataset V} {fs : Files P V} :
    (takeImmutable o zds fs).1.parts = fs.parts := by
  unfold takeImmutable
  split
  · split
    · rfl
    · split
      · rfl
      · split <;> rfl
  · rfl

theorem insertReady_sim {nm : Naming P} (hg : GoodNaming nm) {w : World P V} {o : Obj V}
    {faults : Faults P} {npartitions : Option Int} {merge : Option (Merge V)} {zds : Dataset V}
    {d : Disk P V} (h : Mirrors nm d.root d.files.parts) :
    let r := Sch.insertReady (canonWorld nm w) o faults npartitions merge zds d.files
    ∃ root', Mirrors nm root' r.1.parts ∧
      Dir.insertReady nm w o faults npartitions merge zds d = (⟨r.1, root'⟩, r.2) := by
  simp only
  unfold Sch.insertReady Dir.insertReady
  have hp := takeImmutable_files (o := o) (zds := zds) (fs := d.files)
  cases ht : takeImmutable o zds d.files with
  | mk fs r =>
    rw [ht] at hp
    simp only at hp
    have h0 : Mirrors nm (rootImm d.files fs d.root) fs.parts := by
      rw [hp]
      exact rootImm_mirrors hg h _ _
    cases r with
    | error e => exact ⟨_, h0, rfl⟩
    | ok zds' =>
      simp only
      rw [show (canonWorld nm w).split zds' = splitNamed nm w zds' from rfl]
      cases hs : splitNamed nm w zds' with
      | error e => exact ⟨_, h0, rfl⟩
      | ok pieces =>
        simp only
        cases hb : Batches.insertBatches pieces npartitions with
        | error e => exact ⟨_, h0, rfl⟩
        | ok bs =>
          simp only
          obtain ⟨r1, h1, h2⟩ := insertAll_sim hg (merge := merge) (faults := faults)
            (dim := o.dim) (zds := zds') bs
            (fun b hb' x hx => splitNamed_named hs x (insertBatches_mem hb b hb' x hx)) fs.parts
            _ h0
          rw [h2]
          cases ha : Sch.insertAll merge faults o.dim zds' fs.parts bs with
          | mk st r =>
            rw [ha] at h1
            cases r with
            | ok u => exact ⟨r1, h1, rfl⟩
            | error e => exact ⟨r1, h1, rfl⟩

theorem insert_sim {nm : Naming P} (hg : GoodNaming nm) {w : World P V} {o : Obj V}
    {faults : Faults P} {validate : Bool} {npartitions : Option Int} {merge : Option (Merge V)}
    {ds : Dataset V} {d : Disk P V} (h : Mirrors nm d.root d.files.parts) :
    let r := Sch.insert (canonWorld nm w) o faults validate npartitions merge ds d.files
    ∃ root', Mirrors nm root' r.2.1.parts ∧
      Dir.insert nm w o faults validate npartitions merge ds d = (⟨r.2.1, root'⟩, r.2.2) := by
  simp only
  unfold Sch.insert Dir.insert
  cases hm : missing o.metas ds with
  | error e => exact ⟨_, h, rfl⟩
  | ok ms =>
    simp only
    have hw : ∀ (ms : List (VarMeta V)) ds',
        complete (canonWorld nm w) ds' ms = complete w ds' ms := by
      intro ms
      induction ms with
      | nil => intro ds'; rfl
      | cons m t ih =>
        intro ds'
        unfold complete
        rw [show (canonWorld nm w).noneValue = w.noneValue from rfl]
        split
        · exact ih _
        · rfl
    rw [hw]
    cases hc : complete w ds ms with
    | mk ds' r =>
      cases r with
      | error e => exact ⟨_, h, rfl⟩
      | ok u =>
        simp only
        rw [show (canonWorld nm w).sameMeta = w.sameMeta from rfl]
        split
        · exact ⟨_, h, rfl⟩
        · cases hs : setForInsertion ds' with
          | error e => exact ⟨_, h, rfl⟩
          | ok zds => exact insertReady_sim hg h

/-! ### Removals -/

/-- What `drop_partitions` does with one partition (Model/Schema). -/
def dropOne (faults : Faults P) (p : P) (cur : Option (List (Var V))) :
    Option (List (Var V)) × Py Unit :=
  if faults.del p then (cur, .error .osError) else (none, .ok ())

theorem removeTask_sim {nm : Naming P} (hg : GoodNaming nm) {fails : Bool} {st : Store P V}
    {root : Node} {p : P} (h : Mirrors nm root st) (hp : st p ≠ none) :
    ∃ root', Mirrors nm root' (if fails then st else fun q => if q = p then none else st q) ∧
      removeTask nm fails st root p =
        if fails then ((st, root'), .error .osError)
        else ((fun q => if q = p then none else st q, root'), .ok ()) := by
  cases fails with
  | true => exact ⟨root, h, rfl⟩
  | false =>
    obtain ⟨l, root', h1, h2, h3⟩ := mirrors_remove hg h hp
    refine ⟨root', h3, ?_⟩
    have hc : (do
        let path ← components nm p
        rmtree path root : Py Node) = .ok root' := by
      rw [components_ok h1]
      exact h2
    simp only [removeTask, Bool.false_eq_true, if_false]
    rw [hc]

theorem removeEach_sim {nm : Naming P} (hg : GoodNaming nm) {faults : Faults P} (l : List P)
    (hn : l.Nodup) (st : Store P V) (root : Node) (h : Mirrors nm root st)
    (hp : ∀ p ∈ l, st p ≠ none) :
    ∃ root', Mirrors nm root' (runTasks (dropOne faults) st l).1 ∧
      removeEach nm faults st root l =
        (((runTasks (dropOne faults) st l).1, root'), (runTasks (dropOne faults) st l).2) := by
  induction l generalizing st root with
  | nil => exact ⟨root, h, rfl⟩
  | cons p t ih =>
    rw [List.nodup_cons] at hn
    obtain ⟨r1, h1, h2⟩ := removeTask_sim hg (fails := faults.del p) h
      (hp p (List.mem_cons_self ..))
    simp only [removeEach, runTasks]
    rw [h2]
    cases hf : faults.del p with
    | true =>
      have e : (fun q => if q = p then (dropOne faults p (st p)).1 else st q) = st := by
        funext q
        simp only [dropOne, hf, if_true]
        split
        · next e => rw [e]
        · rfl
      rw [hf] at h1
      obtain ⟨r2, h3, h4⟩ := ih hn.2 st r1 h1 fun q hq => hp q (List.mem_cons_of_mem _ hq)
      rw [e]
      refine ⟨r2, h3, ?_⟩
      simp only [if_true]
      rw [h4]
      simp only [dropOne, hf, if_true]
    | false =>
      have e : (fun q => if q = p then (dropOne faults p (st p)).1 else st q) =
          fun q => if q = p then none else st q := by
        funext q
        simp only [dropOne, hf, Bool.false_eq_true, if_false]
      rw [hf] at h1
      obtain ⟨r2, h3, h4⟩ := ih hn.2 (fun q => if q = p then none else st q) r1 h1
        fun q hq => by
          have : q ≠ p := fun e => hn.1 (e ▸ hq)
          simp only [if_neg this]
          exact hp q (List.mem_cons_of_mem _ hq)
      rw [e]
      refine ⟨r2, h3, ?_⟩
      simp only [Bool.false_eq_true, if_false]
      rw [h4]
      simp only [dropOne, hf, Bool.false_eq_true, if_false]

theorem removeInvalid_sim {nm : Naming P} (hg : GoodNaming nm) (l : List P)
    (hn : l.Nodup) (st : Store P V) (root : Node) (h : Mirrors nm root st)
    (hp : ∀ p ∈ l, st p ≠ none) :
    ∃ root', Mirrors nm root' (fun p => if p ∈ l then none else st p) ∧
      removeInvalid nm st root l = ((fun p => if p ∈ l then none else st p, root'), .ok ()) := by
  induction l generalizing st root with
  | nil => exact ⟨root, by simpa using h, by simp [removeInvalid]⟩
  | cons p t ih =>
    rw [List.nodup_cons] at hn
    obtain ⟨r1, h1, h2⟩ := removeTask_sim hg (fails := false) h (hp p (List.mem_cons_self ..))
    simp only [Bool.false_eq_true, if_false] at h1 h2
    obtain ⟨r2, h3, h4⟩ := ih hn.2 (fun q => if q = p then none else st q) r1 h1 fun q hq => by
        have : q ≠ p := fun e => hn.1 (e ▸ hq)
        simp only [if_neg this]
        exact hp q (List.mem_cons_of_mem _ hq)
    have e : (fun q => if q ∈ t then none else if q = p then none else st q) =
        fun q => if q ∈ p :: t then none else st q := by
      funext q
      by_cases e1 : q = p <;> by_cases e2 : q ∈ t <;> simp [e1, e2]
    rw [e] at h3 h4
    refine ⟨r2, h3, ?_⟩
    simp only [removeInvalid, h2]
    exact h4

/-! ### The listing that a call uses -/

omit [DecidableEq P] in
theorem SameKeys.of_at {st st' : Store P V} (h : ∀ k, ∃ n, SameAt k n st st') :
    SameKeys st st' := fun k => (h k).elim fun _ hk => hk.1

theorem other_name (name : String) : ∃ n : String, name ≠ n :=
  ⟨name.push 'a', fun e => by
    have := congrArg String.length e
    simp at this⟩

theorem update_keys {w : World P V} {o : Obj V} {delayed : Bool} {sel : Option Names}
    {depth : Int} {filters : P → Bool} {f : Callback V (Dict V)} {isLazy : Bool}
    {vars : List String} {workers : Int} (fs : Files P V) :
    SameKeys fs.parts
      (Sch.update w o delayed sel depth filters f isLazy vars workers fs).2.1.parts := by
  have href : SameKeys fs.parts fs.parts := fun _ => Iff.rfl
  unfold Sch.update
  simp only
  split
  · exact href
  · exact href
  · split
    · exact href
    · next v vs _ _ sel' _ =>
      simp only
      rcases update_cases (cfgOf w o delayed (sel.map Names.all) filters fs) depth f isLazy
        (metaNames o.metas) (v :: vs) workers fs.parts with
        ⟨e, h⟩ | ⟨_, _, h⟩ | ⟨_, c', _, _, _, _, _, _, _, h⟩
      · rw [h]; exact href
      · rw [h]; exact href
      · rw [h]
        obtain ⟨names, hs⟩ := updateParts_sig (c := c') (f := f) (isLazy := isLazy)
          (ps := (cfgOf w o delayed (sel.map Names.all) filters fs).parts) (st := fs.parts) rfl
        intro k
        have := hs k
        cases h1 : fs.parts k <;> cases h2 : (updateParts c' f isLazy fs.parts
          (cfgOf w o delayed (sel.map Names.all) filters fs).parts).1 k <;>
          rw [h1, h2] at this <;> simp_all

/-- The world with a fixed listing. -/
def fixedWorld (w : World P V) (l : List P) : World P V := { w with list := fun _ => l }

section
variable {nm : Naming P} {w : World P V} {l : List P} {st0 : Store P V}
  (hl : ∀ st, SameKeys st0 st → canon nm st = l)
include hl

omit [DecidableEq P] in
theorem bag_canon {st : Store P V} (hs : SameKeys st0 st) :
    bag (fixedWorld w l) st = bag (canonWorld nm w) st := by
  unfold bag
  rw [show (canonWorld nm w).list st = l from hl st hs]
  rfl

theorem dropVariable_canon {o : Obj V} {faults : Faults P} {name : String} {fs : Files P V}
    (hs : SameKeys st0 fs.parts) : Sch.dropVariable (fixedWorld w l) o faults name fs =
      Sch.dropVariable (canonWorld nm w) o faults name fs := by
  unfold Sch.dropVariable
  rw [bag_canon hl hs]
  rfl

theorem addVariable_canon {o : Obj V} {faults : Faults P} {m : VarMeta V} {fs : Files P V}
    (hs : SameKeys st0 fs.parts) : Sch.addVariable (fixedWorld w l) o faults m fs =
      Sch.addVariable (canonWorld nm w) o faults m fs := by
  have hcfg : ∀ o', writeConfig (fixedWorld w l) o' fs = writeConfig (canonWorld nm w) o' fs :=
    fun _ => rfl
  have hadd : ∀ t, addTask (fixedWorld w l) t m faults = addTask (canonWorld nm w) t m faults :=
    fun _ => rfl
  unfold Sch.addVariable
  simp only [hcfg, hadd]
  split
  · rfl
  · split
    · rfl
    · split
      · rfl
      · have hw := (writeConfig_parts (w := canonWorld nm w)
          (o := { o with metas := o.metas ++ [m] }) (fs := fs)).1
        cases hc : writeConfig (canonWorld nm w) { o with metas := o.metas ++ [m] } fs with
        | mk fs1 r =>
          rw [hc] at hw
          simp only at hw
          have h1 : SameKeys st0 fs1.parts := hw ▸ hs
          cases r with
          | error e => rfl
          | ok u =>
            simp only
            split
            · rfl
            · next t _ =>
              rw [bag_canon hl h1]
              have hkeys : ∀ (x : Store P V × Py Unit), SameKeys st0 x.1 →
                  (match x with
                    | (st, .ok ()) => ({ o with metas := o.metas ++ [m] },
                        { fs1 with parts := st }, .ok ())
                    | (st, .error e) =>
                      match Sch.dropVariable (fixedWorld w l) { o with metas := o.metas ++ [m] }
                        faults m.name { fs1 with parts := st } with
                      | (o, fs, .ok ()) => (o, fs, .error e)
                      | (o, fs, .error e') => (o, fs, .error e') : Obj V × Files P V × Py Unit) =
                  (match x with
                    | (st, .ok ()) => ({ o with metas := o.metas ++ [m] },
                        { fs1 with parts := st }, .ok ())
                    | (st, .error e) =>
                      match Sch.dropVariable (canonWorld nm w) { o with metas := o.metas ++ [m] }
                        faults m.name { fs1 with parts := st } with
                      | (o, fs, .ok ()) => (o, fs, .error e)
                      | (o, fs, .error e') => (o, fs, .error e') :
                        Obj V × Files P V × Py Unit) := by
                rintro ⟨st, r⟩ hx
                cases r with
                | ok u => rfl
                | error e =>
                  simp only
                  rw [dropVariable_canon hl hx]
              refine hkeys _ ?_
              cases hb : bag (canonWorld nm w) fs1.parts with
              | error e => exact h1
              | ok l' =>
                obtain ⟨n, hn⟩ := other_name m.name
                intro k
                exact (h1 k).trans (runTasks_agree (k := k) (n := n) l'
                  (fun _ => addTask_agree (w := canonWorld nm w) (tmpl := t.name) hn faults k)
                  fs1.parts).1

/-- The calls that create and remove no directory. -/
theorem exec_canon {o : Obj V} {fs : Files P V} {c : Call P V} (hs : SameKeys st0 fs.parts)
    (hc : c.method ≠ "insert") :
    Sch.exec (fixedWorld w l) o fs c = Sch.exec (canonWorld nm w) o fs c := by
  have hl' : (canonWorld nm w).list fs.parts = l := hl _ hs
  have hcfg : ∀ delayed sel filters, cfgOf (fixedWorld w l) o delayed sel filters fs =
      cfgOf (canonWorld nm w) o delayed sel filters fs := by
    intro delayed sel filters
    unfold cfgOf
    rw [hl']
    rfl
  unfold Sch.exec
  split
  · rfl
  · cases c with
    | insert => exact absurd rfl hc
    | partitions => rfl
    | load le delayed sel filters ix =>
      simp only [Sch.load, hl']
      rfl
    | map delayed sel filters f => simp only [hcfg]
    | mapOverlap delayed sel filters depth f => simp only [hcfg]
    | validatePartitions filters fix =>
      simp only [Sch.validatePartitions, hl']
      rfl
    | update delayed sel depth filters f isLazy vars workers => simp only [Sch.update, hcfg]
    | addVariable faults m => exact addVariable_canon hl hs
    | dropVariable faults name => exact dropVariable_canon hl hs
    | dropPartitions filters faults =>
      simp only [Sch.dropPartitions, hl']
      rfl

end

/-- The calls that create and remove no directory keep the partitions. -/
theorem exec_keys {w : World P V} {o : Obj V} {fs : Files P V} {c : Call P V}
    (h1 : c.method ≠ "insert") (h2 : c.method ≠ "drop_partitions")
    (h3 : ∀ filters, c ≠ .validatePartitions filters true) :
    SameKeys fs.parts (Sch.exec w o fs c).2.1.parts := by
  have href : SameKeys fs.parts fs.parts := fun _ => Iff.rfl
  unfold Sch.exec
  split
  · exact href
  · cases c with
    | insert => exact absurd rfl h1
    | partitions => exact href
    | load => exact href
    | map => exact href
    | mapOverlap => exact href
    | validatePartitions filters fix =>
      cases fix with
      | true => exact absurd rfl (h3 filters)
      | false => exact href
    | update delayed sel depth filters f isLazy vars workers => exact update_keys fs
    | addVariable faults m =>
      obtain ⟨n, hn⟩ := other_name m.name
      exact SameKeys.of_at fun k => ⟨n, addVariable_agree hn fs k⟩
    | dropVariable faults name =>
      obtain ⟨n, hn⟩ := other_name name
      exact SameKeys.of_at fun k => ⟨n, dropVariable_agree hn fs k⟩
    | dropPartitions => exact absurd rfl h2

/-- A call on the directories: the files and the outcome are those of Model/Schema, with the
listing of the directories, and the directories mirror the files. -/
theorem exec_sim {nm : Naming P} (hg : GoodNaming nm) {base : List Char}
    (hb : ¬ (nm.first.toList ++ ['=']) <:+: base ++ ['/']) {w : World P V} {o : Obj V}
    {d : Disk P V} {c : Call P V} (h : Mirrors nm d.root d.files.parts) :
    let r := Sch.exec (canonWorld nm w) o d.files c
    ∃ root', Mirrors nm root' r.2.1.parts ∧
      Dir.exec nm base w o d c = (r.1, ⟨r.2.1, root'⟩, r.2.2) := by
  intro r
  obtain ⟨l, h1, h2⟩ := listKeys_spec hg h hb
  have hl : ∀ st, SameKeys d.files.parts st → canon nm st = l := fun st hs => canon_exact hs h2
  have href : SameKeys d.files.parts d.files.parts := fun _ => Iff.rfl
  by_cases hro : o.readOnly ∧ c.method ∈ replaced
  · refine ⟨d.root, ?_, ?_⟩
    · simp only [r, Sch.exec, if_pos hro]
      exact h
    · simp only [r, Sch.exec, Dir.exec, if_pos hro]
  · have hgen : (h1' : c.method ≠ "insert") → (h2' : c.method ≠ "drop_partitions") →
        (h3' : ∀ filters, c ≠ .validatePartitions filters true) →
        Mirrors nm d.root r.2.1.parts ∧
        ((Sch.exec (fixedWorld w l) o d.files c).1,
          (⟨(Sch.exec (fixedWorld w l) o d.files c).2.1, d.root⟩ : Disk P V),
          (Sch.exec (fixedWorld w l) o d.files c).2.2) = (r.1, ⟨r.2.1, d.root⟩, r.2.2) := by
      intro h1' h2' h3'
      refine ⟨mirrors_congr h (exec_keys h1' h2' h3'), ?_⟩
      rw [exec_canon hl href h1']
    unfold Dir.exec
    rw [if_neg hro]
    cases c with
    | insert faults validate npartitions merge ds =>
      obtain ⟨root', g1, g2⟩ := insert_sim hg (w := w) (o := o) (faults := faults)
        (validate := validate) (npartitions := npartitions) (merge := merge) (ds := ds) h
      simp only [r, Sch.exec, if_neg hro]
      exact ⟨root', g1, by rw [g2]⟩
    | dropPartitions filters faults =>
      simp only [h1]
      have hnd : (l.filter filters).Nodup := List.Nodup.sublist List.filter_sublist h2.nodup
      obtain ⟨root', g1, g2⟩ := removeEach_sim hg (faults := faults) (l.filter filters) hnd
        d.files.parts d.root h fun p hp => (h2.2 p).1 (List.mem_filter.1 hp).1
      have hw : (canonWorld nm w).list d.files.parts = l := hl _ href
      simp only [r, Sch.exec, if_neg hro, Sch.dropPartitions, hw]
      exact ⟨root', g1, by rw [g2]; rfl⟩
    | validatePartitions filters fix =>
      simp only [h1]
      cases fix with
      | true =>
        have hnd : ((l.filter filters).filter w.broken).Nodup :=
          List.Nodup.sublist (List.filter_sublist.trans List.filter_sublist) h2.nodup
        obtain ⟨root', g1, g2⟩ := removeInvalid_sim hg ((l.filter filters).filter w.broken) hnd
          d.files.parts d.root h
          fun p hp => (h2.2 p).1 (List.mem_filter.1 (List.mem_filter.1 hp).1).1
        have hw : (canonWorld nm w).list d.files.parts = l := hl _ href
        simp only [r, Sch.exec, if_neg hro, Sch.validatePartitions, hw]
        exact ⟨root', g1, by rw [g2]; rfl⟩
      | false =>
        obtain ⟨g1, g2⟩ := hgen (by simp [Call.method]) (by simp [Call.method]) (by simp)
        exact ⟨d.root, g1, g2⟩
    | partitions =>
      simp only [h1]
      obtain ⟨g1, g2⟩ := hgen (by simp [Call.method]) (by simp [Call.method]) (by simp)
      exact ⟨d.root, g1, g2⟩
    | load =>
      simp only [h1]
      obtain ⟨g1, g2⟩ := hgen (by simp [Call.method]) (by simp [Call.method]) (by simp)
      exact ⟨d.root, g1, g2⟩
    | map =>
      simp only [h1]
      obtain ⟨g1, g2⟩ := hgen (by simp [Call.method]) (by simp [Call.method]) (by simp)
      exact ⟨d.root, g1, g2⟩
    | mapOverlap =>
      simp only [h1]
      obtain ⟨g1, g2⟩ := hgen (by simp [Call.method]) (by simp [Call.method]) (by simp)
      exact ⟨d.root, g1, g2⟩
    | update =>
      simp only [h1]
      obtain ⟨g1, g2⟩ := hgen (by simp [Call.method]) (by simp [Call.method]) (by simp)
      exact ⟨d.root, g1, g2⟩
    | addVariable =>
      simp only [h1]
      obtain ⟨g1, g2⟩ := hgen (by simp [Call.method]) (by simp [Call.method]) (by simp)
      exact ⟨d.root, g1, g2⟩
    | dropVariable =>
      simp only [h1]
      obtain ⟨g1, g2⟩ := hgen (by simp [Call.method]) (by simp [Call.method]) (by simp)
      exact ⟨d.root, g1, g2⟩

end Verif
