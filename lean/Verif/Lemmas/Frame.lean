import Verif.Spec.Frame
import Verif.Lemmas.Pipeline
import Verif.Lemmas.Schema
import Verif.Lemmas.SchemaInsert
import Verif.Lemmas.PipelineInsert
import Verif.Lemmas.Variable
import Verif.Props.Update
import Verif.Props.Overlap

/-! Lemmas on what the calls do not change. -/

namespace Verif

open Nd Ds Sch Pipe Upd Spec

variable {V : Type}

/-! ### Agreement -/

theorem Spec.SameAt.refl {P : Type} (k : P) (n : String) (st : Store P V) : SameAt k n st st :=
  ⟨Iff.rfl, fun _ _ => Iff.rfl⟩

theorem Spec.SameAt.of_eq {P : Type} {k : P} {n : String} {st st' : Store P V} (h : st' k = st k) :
    SameAt k n st st' := by
  refine ⟨by rw [h], fun v _ => ?_⟩
  unfold Stores
  rw [h]

theorem Spec.SameAt.trans {P : Type} {k : P} {n : String} {a b c : Store P V} (h1 : SameAt k n a b)
    (h2 : SameAt k n b c) : SameAt k n a c :=
  ⟨h1.1.trans h2.1, fun v hv => (h1.2 v hv).trans (h2.2 v hv)⟩

theorem sameVars_mem {names : List String} {n : String} (hn : n ∉ names) (vs ws : List (Var V))
    (h : SameVars names vs ws) (v : Var V) (hv : v.name = n) : v ∈ vs ↔ v ∈ ws := by
  induction vs generalizing ws with
  | nil => cases ws with
    | nil => exact Iff.rfl
    | cons w t => exact h.elim
  | cons a t ih => cases ws with
    | nil => exact h.elim
    | cons b u =>
      obtain ⟨h1, h2⟩ := h
      rw [List.mem_cons, List.mem_cons, ih u h2]
      refine or_congr_left ?_
      obtain ⟨e1, e2, e3, e4, e5, _, e7⟩ := h1
      have key : a.name = n → a = b := by
        intro ha
        have := e7 (ha ▸ hn)
        cases a; cases b
        simp only at *
        subst e1 e2 e3 e4 e5 this
        rfl
      constructor
      · rintro rfl; exact key hv
      · rintro rfl; exact (key (e1.trans hv)).symm

theorem sameStore_agree {P : Type} {names : List String} {n : String} (hn : n ∉ names)
    {st st' : Store P V} (h : SameStore names st st') (k : P) : SameAt k n st st' := by
  have hk := h k
  unfold SameAt Stores
  cases h1 : st k with
  | none =>
    cases h2 : st' k with
    | none => exact ⟨by simp, by simp⟩
    | some ws => rw [h1, h2] at hk; exact hk.elim
  | some vs =>
    cases h2 : st' k with
    | none => rw [h1, h2] at hk; exact hk.elim
    | some ws =>
      rw [h1, h2] at hk
      refine ⟨by simp, fun v hv => ?_⟩
      simpa using sameVars_mem hn vs ws hk v hv

/-! ### The tasks -/

theorem runTasks_agree {P : Type} [DecidableEq P]
    {f : P → Option (List (Var V)) → Option (List (Var V)) × Py Unit} {k : P} {n : String}
    (l : List P)
    (hf : k ∈ l → ∀ cur, ((f k cur).1 = none ↔ cur = none) ∧
      ∀ v : Var V, v.name = n → ((∃ vs, (f k cur).1 = some vs ∧ v ∈ vs) ↔
        ∃ vs, cur = some vs ∧ v ∈ vs)) (st : Store P V) :
    SameAt k n st (runTasks f st l).1 := by
  induction l generalizing st with
  | nil => exact SameAt.refl _ _ _
  | cons p t ih =>
    simp only [runTasks]
    refine SameAt.trans ?_ (ih (fun hk => hf (List.mem_cons_of_mem _ hk)) _)
    by_cases hp : k = p
    · subst hp
      obtain ⟨h1, h2⟩ := hf List.mem_cons_self (st k)
      refine ⟨?_, fun v hv => ?_⟩
      · simp only [if_true]; exact h1.symm
      · unfold Stores
        simp only [if_true]
        exact (h2 v hv).symm
    · exact SameAt.of_eq (by simp [hp])

theorem delTask_agree {P : Type} {name n : String} (hn : name ≠ n) (faults : Faults P) (k : P)
    (cur : Option (List (Var V))) :
    ((delTask name faults k cur).1 = none ↔ cur = none) ∧
      ∀ v : Var V, v.name = n → ((∃ vs, (delTask name faults k cur).1 = some vs ∧ v ∈ vs) ↔
        ∃ vs, cur = some vs ∧ v ∈ vs) := by
  cases cur with
  | none => simp [delTask]
  | some vars =>
    unfold delTask
    simp only
    split
    · split
      · simp
      · refine ⟨by simp, fun v hv => ?_⟩
        have : v.name ≠ name := fun h => hn (h.symm.trans hv)
        simp [this]
    · simp

theorem addTask_agree {P : Type} {w : World P V} {tmpl n : String} {m : VarMeta V}
    (hn : m.name ≠ n) (faults : Faults P) (k : P) (cur : Option (List (Var V))) :
    ((addTask w tmpl m faults k cur).1 = none ↔ cur = none) ∧
      ∀ v : Var V, v.name = n → ((∃ vs, (addTask w tmpl m faults k cur).1 = some vs ∧ v ∈ vs) ↔
        ∃ vs, cur = some vs ∧ v ∈ vs) := by
  have hne : ∀ (v a : Var V), v.name = n → a.name = m.name → v ≠ a := by
    rintro v a hv ha rfl
    exact hn (ha.symm.trans hv)
  cases cur with
  | none => simp [addTask]
  | some vars =>
    unfold addTask
    simp only
    split
    · simp
    · split
      · simp
      · split
        · simp
        · split
          · refine ⟨by simp, fun v hv => ?_⟩
            simp [hne v _ hv]
          · refine ⟨by simp, fun v hv => ?_⟩
            simp [hne v _ hv]
          · simp

theorem dropVariable_agree {P : Type} [DecidableEq P] {w : World P V} {o : Obj V}
    {faults : Faults P} {name n : String} (hn : name ≠ n) (fs : Files P V) (k : P) :
    SameAt k n fs.parts (Sch.dropVariable w o faults name fs).2.1.parts := by
  unfold Sch.dropVariable
  split
  · exact SameAt.refl _ _ _
  · split
    · exact SameAt.refl _ _ _
    · split
      · exact SameAt.refl _ _ _
      · split
        · exact SameAt.refl _ _ _
        · next l _ =>
          have := runTasks_agree (k := k) (n := n) l (fun _ => delTask_agree hn faults k) fs.parts
          split
          · next st e he => rw [he] at this; exact this
          · next st he =>
            rw [he] at this
            simp only [writeConfig]
            split <;> exact this

theorem addVariable_agree {P : Type} [DecidableEq P] {w : World P V} {o : Obj V}
    {faults : Faults P} {m : VarMeta V} {n : String} (hn : m.name ≠ n) (fs : Files P V) (k : P) :
    SameAt k n fs.parts (Sch.addVariable w o faults m fs).2.1.parts := by
  unfold Sch.addVariable
  split
  · exact SameAt.refl _ _ _
  · split
    · exact SameAt.refl _ _ _
    · split
      · exact SameAt.refl _ _ _
      · simp only
        have hw := (writeConfig_parts (w := w) (o := { o with metas := o.metas ++ [m] })
          (fs := fs)).1
        split
        · next fs1 e he => rw [he] at hw; exact SameAt.of_eq (congrFun hw k)
        · next fs1 he =>
          rw [he] at hw
          have h0 : SameAt k n fs.parts fs1.parts := SameAt.of_eq (congrFun hw k)
          split
          · exact h0
          · next t _ =>
            cases hb : bag w fs1.parts with
            | error e =>
              simp only
              have hd := dropVariable_agree (w := w) (o := { o with metas := o.metas ++ [m] })
                (faults := faults) hn { fs1 with parts := fs1.parts } k
              split
              · next he' => rw [he'] at hd; exact h0.trans hd
              · next he' => rw [he'] at hd; exact h0.trans hd
            | ok l =>
              simp only
              have ht := runTasks_agree (k := k) (n := n) l
                (fun _ => addTask_agree (w := w) (tmpl := t.name) hn faults k) fs1.parts
              split
              · next st he' => rw [he'] at ht; exact h0.trans ht
              · next st e he' =>
                rw [he'] at ht
                have hd := dropVariable_agree (w := w) (o := { o with metas := o.metas ++ [m] })
                  (faults := faults) hn { fs1 with parts := st } k
                split
                · next hx => rw [hx] at hd; exact (h0.trans ht).trans hd
                · next hx => rw [hx] at hd; exact (h0.trans ht).trans hd

theorem dropPartitions_agree {P : Type} [DecidableEq P] {w : World P V} {filters : P → Bool}
    {faults : Faults P} {k : P} (hk : filters k = false) (n : String) (fs : Files P V) :
    SameAt k n fs.parts (Sch.dropPartitions w filters faults fs).1.parts := by
  refine runTasks_agree _ (fun hm => ?_) _
  rw [List.mem_filter] at hm
  rw [hk] at hm
  cases hm.2

theorem validatePartitions_agree {P : Type} [DecidableEq P] {w : World P V}
    {filters : P → Bool} {fix : Bool} {k : P}
    (hk : fix = true → filters k = false ∨ w.broken k = false) (n : String) (fs : Files P V) :
    SameAt k n fs.parts (Sch.validatePartitions w filters fix fs).1.parts := by
  unfold Sch.validatePartitions
  simp only
  split
  · next hf =>
    refine SameAt.of_eq (if_neg ?_)
    simp only [List.mem_filter]
    rintro ⟨⟨_, h1⟩, h2⟩
    rcases hk hf with h | h
    · rw [h] at h1; cases h1
    · rw [h] at h2; cases h2
  · exact SameAt.refl _ _ _

theorem update_agree {P : Type} [DecidableEq P] {w : World P V} {o : Obj V} {delayed : Bool}
    {sel : Option Names} {depth : Int} {filters : P → Bool} {f : Callback V (Dict V)}
    {isLazy : Bool} {vars : List String} {workers : Int} {k : P} {n : String}
    (hk : filters k = false ∨ ∃ names, Returns f names ∧ n ∉ names) (fs : Files P V) :
    SameAt k n fs.parts
      (Sch.update w o delayed sel depth filters f isLazy vars workers fs).2.1.parts := by
  unfold Sch.update
  simp only
  split
  · exact SameAt.refl _ _ _
  · exact SameAt.refl _ _ _
  · split
    · exact SameAt.refl _ _ _
    · next v vs _ _ sel' _ =>
      simp only
      rcases hk with hk | ⟨names, h1, h2⟩
      · have hq : k ∉ (cfgOf w o delayed (sel.map Names.all) filters fs).parts := by
          intro hm
          have := (List.mem_filter.1 hm).2
          rw [hk] at this
          cases this
        refine SameAt.of_eq ?_
        rcases update_cases (cfgOf w o delayed (sel.map Names.all) filters fs) depth f isLazy
          (metaNames o.metas) (v :: vs) workers fs.parts with
          ⟨e, h⟩ | ⟨_, _, h⟩ | ⟨_, c', _, _, _, _, _, _, _, h⟩
        · rw [h]
        · rw [h]
        · rw [h]
          exact updateParts_other rfl k hq
      · exact sameStore_agree h2 (C31_frame _ depth f isLazy _ _ workers fs.parts names h1).2 k

/-! ### The keys of the pieces of a dataset -/

theorem unique_mem {κ : Type} [DecidableEq κ] (arr : List κ) (l : List (κ × Nat))
    (hl : ∀ x ∈ l, x ∈ arr.zipIdx) : ∀ x ∈ (Split.changes l).map (·.1), x ∈ arr := by
  intro x hx
  obtain ⟨y, hy, rfl⟩ := List.mem_map.1 hx
  have := hl y ((Split.changes_sublist l).subset hy)
  exact List.mem_of_getElem? (List.mem_zipIdx_iff_getElem?.1 this)

theorem splitRows_mem {rows : List (List Int)} {delayed : Bool}
    {ps : List (List Int × (Nat × Nat))} (h : Split.splitRows rows delayed = .ok ps) :
    ∀ p ∈ ps, p.1 ∈ rows := by
  have key : ∀ u, Split.seqUnique rows delayed = .ok u → ∀ x ∈ u.1, x ∈ rows := by
    intro u hu
    unfold Split.seqUnique at hu
    split at hu
    · simp only [Split.uniqueDelayed, bind, Except.bind] at hu
      split at hu
      · cases hu
      · next u' hu' =>
        split at hu
        · cases hu
          split at hu'
          · cases hu'
          · cases hu'
            exact unique_mem _ _ (fun x hx => hx)
        · cases hu
    · simp only [Split.uniqueAndCheckMonotony] at hu
      split at hu
      · cases hu
        exact unique_mem rows _ (fun x hx => (Split.argsort_perm _ rows).subset hx)
      · cases hu
  simp only [Split.splitRows, bind, Except.bind] at h
  split at h
  · cases h
  · next u hu =>
    cases h
    intro p hp
    exact key u hu p.1 (List.of_mem_zip (by exact hp)).1

theorem splitDates_mem {dates : List Int} {delayed : Bool}
    {ps : List (Int × (Nat × Nat))} (h : Split.splitDates dates delayed = .ok ps) :
    ∀ p ∈ ps, p.1 ∈ dates := by
  have key : ∀ u, Split.dateUnique dates delayed = .ok u → ∀ x ∈ u.1, x ∈ dates := by
    intro u hu
    unfold Split.dateUnique at hu
    split at hu
    · simp only [Split.uniqueDelayed, bind, Except.bind] at hu
      split at hu
      · cases hu
      · next u' hu' =>
        split at hu
        · cases hu
          split at hu'
          · cases hu'
          · cases hu'
            exact unique_mem _ _ (fun x hx => hx)
        · cases hu
    · simp only [Split.uniqueAndCheckMonotony] at hu
      split at hu
      · cases hu
        exact unique_mem dates _ (fun x hx => (Split.argsort_perm _ dates).subset hx)
      · cases hu
  simp only [Split.splitDates, bind, Except.bind] at h
  split at h
  · cases h
  · next u hu =>
    cases h
    intro p hp
    exact key u hu p.1 (List.of_mem_zip (by exact hp)).1

/-- Each key of a split is the key of a record, also when the keys are not sorted. -/
theorem splitDataset_key {sc : Scheme V} (hsc : GoodScheme sc) {zds : Dataset V}
    (hok : ∀ v ∈ zds.vars, ArrOk v.array)
    {ps : List (List Int × (Nat × Nat))} (h : splitDataset sc zds = .ok ps) :
    ∀ p ∈ ps, ∃ i, KeyAt sc zds.vars i p.1 := by
  simp only [splitDataset, bind, Except.bind] at h
  cases hk : keyVars zds sc.variables with
  | error e => rw [hk] at h; cases h
  | ok vs =>
    rw [hk] at h
    simp only at h
    obtain ⟨v1, v2⟩ := keyVars_spec _ _ hk
    have hcol : ∀ (j : Nat) (name : String), sc.variables[j]? = some name → ∃ v, vs[j]? = some v ∧
        v ∈ zds.vars ∧ v.name = name ∧ ∀ i, (column v.array)[i]? = v.array.get [i] := by
      intro j name hj
      obtain ⟨v, h1, h2, h3, h4⟩ := v2 j name hj
      obtain ⟨n, hn⟩ := List.length_eq_one_iff.1 h4
      obtain ⟨c1, c2⟩ := column_spec (hok v h2) hn
      exact ⟨v, h1, h2, h3, c2⟩
    split at h
    · next hdate =>
      obtain ⟨name, hvar⟩ := List.length_eq_one_iff.1 (hsc hdate)
      obtain ⟨v, c1, c2, c3, c6⟩ := hcol 0 name (by rw [hvar]; rfl)
      cases vs with
      | nil => simp at c1
      | cons v' t =>
        simp only [List.getElem?_cons_zero, Option.some.injEq] at c1
        subst c1
        simp only [List.map_cons, splitDate, bind, Except.bind] at h
        cases hko : keysOf sc (column v'.array) with
        | error e => rw [hko] at h; cases h
        | ok ks =>
          rw [hko] at h
          obtain ⟨k1, k2⟩ := keysOf_spec hko
          simp only [Split.dateSplit, Bool.not_true, Bool.false_eq_true, if_false, List.map_id,
            bind, Except.bind] at h
          cases hsp : Split.splitDates ks zds.delayed with
          | error e => rw [hsp] at h; cases h
          | ok pieces =>
            rw [hsp] at h
            cases h
            intro p hp
            obtain ⟨q, hq, rfl⟩ := List.mem_map.1 hp
            obtain ⟨i, hi⟩ := List.getElem?_of_mem (splitDates_mem hsp q hq)
            refine ⟨i, by rw [hvar]; rfl, ?_⟩
            intro j nm hj
            rw [hvar] at hj
            cases j with
            | zero =>
              simp only [List.getElem?_cons_zero, Option.some.injEq] at hj
              subst hj
              have hlt : i < (column v'.array).length := by
                rw [← k1]
                exact (List.getElem?_eq_some_iff.1 hi).1
              have hx := List.getElem?_eq_getElem hlt
              refine ⟨v', c2, c3, _, (c6 i) ▸ hx, ?_⟩
              rw [k2 i _ hx, hi]
              rfl
            | succ j => simp at hj
    · next hdate =>
      unfold splitSequence at h
      split at h
      · next cols hcols =>
        obtain ⟨m1, m2⟩ := mapPy_spec _ _ _ hcols
        have hcl : cols.length = sc.variables.length := by rw [m1, List.length_map, v1]
        have hmap : (sc.variables.zip cols).map (·.2) = cols := by
          rw [List.map_snd_zip]
          omega
        simp only [bind, Except.bind, Split.sequenceSplit, Bool.not_true, Bool.false_eq_true,
          if_false, pure, Except.pure, hmap] at h
        cases hv : Split.vstackT cols with
        | error e => rw [hv] at h; cases h
        | ok m =>
          rw [hv] at h
          simp only at h
          cases hsp : Split.splitRows m zds.delayed with
          | error e => rw [hsp] at h; cases h
          | ok pieces =>
            rw [hsp] at h
            cases h
            obtain ⟨t1, t2, t3⟩ := vstackT_spec _ _ hv
            intro p hp
            simp only [List.map_map] at hp
            obtain ⟨q, hq, rfl⟩ := List.mem_map.1 hp
            have hmem := splitRows_mem hsp q hq
            have hq2 : ((sc.variables.zip cols).map (·.1)).length = q.1.length := by
              rw [List.length_map, List.length_zip, t2 _ hmem, hcl]
              omega
            have hfst : (((sc.variables.zip cols).map (·.1)).zip q.1).map (·.2) = q.1 := by
              rw [List.map_snd_zip]
              omega
            obtain ⟨i, hi⟩ := List.getElem?_of_mem hmem
            refine ⟨i, ?_, ?_⟩
            · simp only [Function.comp_apply, hfst]
              rw [t2 _ hmem, hcl]
            · intro j name hj
              obtain ⟨v, g1, g2, g3, g6⟩ := hcol j name hj
              obtain ⟨c, hc, hkc⟩ := m2 j _ (by rw [List.getElem?_map, g1]; rfl)
              obtain ⟨k1, k2⟩ := keysOf_spec hkc
              have hil := (List.getElem?_eq_some_iff.1 hi).1
              have h3 := t3 i j c hil hc
              rw [hi] at h3
              simp only [Option.bind_some] at h3
              have hic : i < (column v.array).length := by
                rw [← k1, t1 c (List.mem_of_getElem? hc)]
                exact hil
              have hx := List.getElem?_eq_getElem hic
              refine ⟨v, g2, g3, _, (g6 i) ▸ hx, ?_⟩
              simp only [Function.comp_apply, hfst]
              rw [k2 i _ hx, h3]
      · next e he =>
        simp only [Split.sequenceSplit, bind, Except.bind] at h
        split at h
        · cases h
        · next hsp =>
          split at hsp
          · cases hsp
          · simp at hsp

/-! ### Insertion -/

theorem insertTask_other {P : Type} [DecidableEq P] {merge : Option (Sch.Merge V)}
    {faults : Faults P} {dim : String} {zds : Dataset V} {st st' : Store P V}
    {p : P × (Nat × Nat)} (h : insertTask merge faults dim zds st p = .ok st') (q : P)
    (hq : q ≠ p.1) : st' q = st q := by
  simp only [insertTask, bind, Except.bind] at h
  have hfin : ∀ new : List (Var V),
      (if faults.write p.1 = true then (Except.error PyErr.osError : Py (Store P V))
        else .ok (setPart st p.1 new)) = .ok st' → st' q = st q := by
    intro new h
    split at h
    · cases h
    · cases h; exact if_neg hq
  split at h
  · cases h
  · split at h
    · exact hfin _ h
    · split at h
      · cases h
      · exact hfin _ h

theorem insertBatch_other {P : Type} [DecidableEq P] {merge : Option (Sch.Merge V)}
    {faults : Faults P} {dim : String} {zds : Dataset V} (l : List (P × (Nat × Nat)))
    (st : Store P V) (q : P) (hq : q ∉ l.map (·.1)) :
    (insertBatch merge faults dim zds st l).1 q = st q := by
  induction l generalizing st with
  | nil => rfl
  | cons x t ih =>
    rw [List.map_cons, List.mem_cons, not_or] at hq
    simp only [insertBatch]
    split
    · next st1 h1 => exact (ih st1 hq.2).trans (insertTask_other h1 q hq.1)
    · exact ih st hq.2

theorem insertAll_other {P : Type} [DecidableEq P] {merge : Option (Sch.Merge V)}
    {faults : Faults P} {dim : String} {zds : Dataset V} (bs : List (List (P × (Nat × Nat))))
    (st : Store P V) (q : P) (hq : q ∉ bs.flatten.map (·.1)) :
    (insertAll merge faults dim zds st bs).1 q = st q := by
  induction bs generalizing st with
  | nil => rfl
  | cons b t ih =>
    rw [List.flatten_cons, List.map_append, List.mem_append, not_or] at hq
    have hb := insertBatch_other (merge := merge) (faults := faults) (dim := dim) (zds := zds) b
      st q hq.1
    simp only [insertAll]
    split
    · next st1 h1 => rw [h1] at hb; exact (ih st1 hq.2).trans hb
    · next st1 e h1 => rw [h1] at hb; exact hb

theorem complete_mem {P : Type} {w : World P V} (ms : List (VarMeta V)) {ds ds' : Dataset V}
    (h : complete w ds ms = (ds', .ok ())) :
    ∀ v ∈ ds'.vars, v ∈ ds.vars ∨ v.name ∈ ms.map (·.name) := by
  induction ms generalizing ds with
  | nil => simp only [complete] at h; cases h; exact fun v hv => .inl hv
  | cons m t ih =>
    simp only [complete] at h
    split at h
    · next ds1 h1 =>
      intro v hv
      rcases ih h v hv with hv | hv
      · unfold Ds.addVariable at h1
        split at h1
        · cases h1
        · simp only at h1
          split at h1
          · cases h1
          · cases h1
            rcases mem_setVar _ _ _ hv with hv | hv
            · subst hv; exact .inr (by simp)
            · exact .inl hv
      · exact .inr (by simp [hv])
    · cases h

theorem mk_mem {vars : List (Var V)} {attrs : List (String × String)}
    {chunks : List (String × Nat)} {limit : Nat} {del : Option Bool} {ds : Dataset V}
    (h : mk vars attrs chunks limit del = .ok ds) : ∀ v ∈ ds.vars, v ∈ vars := by
  intro v hv
  obtain ⟨_, h2, _⟩ := mk_spec _ _ _ _ _ _ h
  rw [h2] at hv
  rcases foldl_setVar_mem _ _ _ hv with hv | hv
  · exact hv
  · cases hv

theorem takeImmutable_mem {P : Type} {o : Obj V} {fs fs' : Files P V} {zds : Dataset V}
    {r : Py (Dataset V)} (h : takeImmutable o zds fs = (fs', r)) :
    fs'.parts = fs.parts ∧ (∀ iv, fs.imm = some iv → fs'.imm = some iv) ∧
    ∀ z, r = .ok z → ∀ v ∈ z.vars, v ∈ zds.vars := by
  have hsel : ∀ (b : Bool) (z : Dataset V), selectByDims zds [o.axis] b = .ok z →
      ∀ v ∈ z.vars, v ∈ zds.vars := by
    intro b z hz v hv
    exact (List.mem_filter.1 (mk_mem hz v hv)).1
  unfold takeImmutable at h
  split at h
  · split at h
    · next himm => cases h; exact ⟨rfl, fun _ h => h, fun z hz => hsel true z hz⟩
    · next himm =>
      split at h
      · cases h; exact ⟨rfl, fun _ h => h, fun z hz => by cases hz⟩
      · split at h
        · cases h; exact ⟨rfl, fun _ h => h, fun z hz => by cases hz⟩
        · cases h
          exact ⟨rfl, fun iv h => (by rw [himm] at h; cases h), fun z hz => hsel true z hz⟩
  · cases h; exact ⟨rfl, fun _ h => h, fun z hz => by cases hz; exact fun _ h => h⟩

theorem insert_other {w : World (List Int) V} {o : Obj V} {sc : Scheme V}
    (hsplit : w.split = splitDataset sc) (hsc : GoodScheme sc) {faults : Faults (List Int)}
    {validate : Bool} {np : Option Int} {merge : Option (Sch.Merge V)} {ds : Dataset V}
    (hok : ∀ v ∈ ds.vars, ArrOk v.array)
    (hvars : ∀ name ∈ sc.variables, ∃ v ∈ ds.vars, v.name = name) {k : List Int}
    (hk : ∀ i, ¬ KeyAt sc ds.vars i k) (fs : Files (List Int) V) :
    (Sch.insert w o faults validate np merge ds fs).2.1.parts k = fs.parts k := by
  unfold Sch.insert
  split
  · rfl
  · next ms hms =>
    split
    · rfl
    · next ds1 hc =>
      split
      · rfl
      · split
        · rfl
        · next zds hz =>
          simp only [insertReady]
          split
          · next fs1 e ht =>
            exact congrFun (takeImmutable_mem ht).1 k
          · next fs1 z ht =>
            obtain ⟨t1, _, t3⟩ := takeImmutable_mem ht
            have hpk := congrFun t1 k
            split
            · exact hpk
            · next pieces hp =>
              split
              · exact hpk
              · next batches hb =>
                have hmem : ∀ v ∈ z.vars, v ∈ ds1.vars := fun v hv =>
                  mk_mem hz v (t3 z rfl v hv)
                have hnew : ∀ m ∈ ms, m.name ∉ ds.vars.map (·.name) := by
                  unfold missing at hms
                  split at hms
                  · cases hms
                  · cases hms
                    intro m hm
                    simpa using (List.mem_filter.1 hm).2
                have hq : k ∉ pieces.map (·.1) := by
                  intro hkp
                  obtain ⟨p, hp', rfl⟩ := List.mem_map.1 hkp
                  rw [hsplit] at hp
                  obtain ⟨i, hi1, hi2⟩ := splitDataset_key hsc (fun v hv =>
                    (complete_arrOk ms hok hc).1 v (hmem v hv)) hp p hp'
                  refine hk i ⟨hi1, fun j name hj => ?_⟩
                  obtain ⟨v, hv, hvn, hx⟩ := hi2 j name hj
                  refine ⟨v, ?_, hvn, hx⟩
                  rcases complete_mem ms hc v (hmem v hv) with h | h
                  · exact h
                  · obtain ⟨u, hu, hun⟩ := hvars name (List.mem_of_getElem? hj)
                    obtain ⟨m, hm, hmn⟩ := List.mem_map.1 h
                    exact absurd (List.mem_map.2 ⟨u, hu, by rw [hun, ← hvn, hmn]⟩) (hnew m hm)
                have hother := insertAll_other (merge := merge) (faults := faults) (dim := o.dim)
                  (zds := z) batches fs1.parts k (by rw [batches_flatten pieces np batches hb]; exact hq)
                split
                · next st hst => rw [hst] at hother; exact hother.trans hpk
                · next st e hst => rw [hst] at hother; exact hother.trans hpk

/-! ### Opening, and the variables that are not split -/

theorem fromConfig_parts {P : Type} {w : World P V} {readOnly : Bool} {fs : Files P V} :
    (fromConfig w readOnly fs).1.parts = fs.parts ∧
      (fromConfig w readOnly fs).1.imm = fs.imm := by
  unfold fromConfig
  split
  · exact ⟨rfl, rfl⟩
  · exact ⟨rfl, rfl⟩
  · unfold Sch.init
    split
    · exact ⟨rfl, rfl⟩
    · split
      · exact ⟨rfl, rfl⟩
      · split
        · exact ⟨rfl, rfl⟩
        · simp only
          split
          · exact ⟨rfl, rfl⟩
          · split
            · split
              · next h => exact ⟨(congrArg (fun x => x.1.parts) h).symm.trans writeConfig_parts.1,
                  (congrArg (fun x => x.1.imm) h).symm.trans writeConfig_parts.2⟩
              · next h => exact ⟨(congrArg (fun x => x.1.parts) h).symm.trans writeConfig_parts.1,
                  (congrArg (fun x => x.1.imm) h).symm.trans writeConfig_parts.2⟩
            · exact ⟨rfl, rfl⟩

theorem dropVariable_imm {P : Type} [DecidableEq P] {w : World P V} {o : Obj V}
    {faults : Faults P} {name : String} {fs : Files P V} :
    (Sch.dropVariable w o faults name fs).2.1.imm = fs.imm := by
  unfold Sch.dropVariable
  split
  · rfl
  · split
    · rfl
    · split
      · rfl
      · split
        · rfl
        · split
          · rfl
          · exact writeConfig_parts.2

theorem addVariable_imm {P : Type} [DecidableEq P] {w : World P V} {o : Obj V}
    {faults : Faults P} {m : VarMeta V} {fs : Files P V} :
    (Sch.addVariable w o faults m fs).2.1.imm = fs.imm := by
  unfold Sch.addVariable
  split
  · rfl
  · split
    · rfl
    · split
      · rfl
      · simp only
        have hw := (writeConfig_parts (w := w) (o := { o with metas := o.metas ++ [m] })
          (fs := fs)).2
        split
        · next he => rw [he] at hw; exact hw
        · next fs1 he =>
          rw [he] at hw
          split
          · exact hw
          · split
            · exact hw
            · next st e _ =>
              have hd := dropVariable_imm (w := w) (o := { o with metas := o.metas ++ [m] })
                (faults := faults) (name := m.name) (fs := { fs1 with parts := st })
              split
              · next hx => rw [hx] at hd; exact hd.trans hw
              · next hx => rw [hx] at hd; exact hd.trans hw

theorem insert_keepsImm {P : Type} [DecidableEq P] {w : World P V} {o : Obj V} {faults : Faults P}
    {validate : Bool} {np : Option Int} {merge : Option (Sch.Merge V)} {ds : Dataset V}
    {fs : Files P V} {iv : List (Var V)} (h : fs.imm = some iv) :
    (Sch.insert w o faults validate np merge ds fs).2.1.imm = some iv := by
  unfold Sch.insert
  split
  · exact h
  · split
    · exact h
    · split
      · exact h
      · split
        · exact h
        · simp only [insertReady]
          split
          · next ht => exact (takeImmutable_mem ht).2.1 iv h
          · next ht =>
            have := (takeImmutable_mem ht).2.1 iv h
            split
            · exact this
            · split
              · exact this
              · split <;> exact this

theorem exec_imm {P : Type} [DecidableEq P] {w : World P V} (o : Obj V) (fs : Files P V)
    (c : Call P V) {iv : List (Var V)} (h : fs.imm = some iv) :
    (exec w o fs c).2.1.imm = some iv := by
  unfold exec
  split
  · exact h
  · cases c with
    | partitions filters => exact h
    | load le delayed sel filters ix => exact h
    | map delayed sel filters f => exact h
    | mapOverlap delayed sel filters depth f => exact h
    | validatePartitions filters fix =>
      simp only [Sch.validatePartitions]
      split <;> exact h
    | insert faults validate np merge ds => exact insert_keepsImm h
    | update delayed sel depth filters f isLazy vars workers =>
      simp only [Sch.update]
      split
      · exact h
      · exact h
      · split <;> exact h
    | addVariable faults m => exact addVariable_imm.trans h
    | dropVariable faults name => exact dropVariable_imm.trans h
    | dropPartitions filters faults => exact h

/-! ### The load of one partition -/

theorem setVar_hasName (vars : List (Var V)) (v : Var V) (n : String)
    (h : n = v.name ∨ n ∈ vars.map (·.name)) : n ∈ (setVar vars v).map (·.name) := by
  induction vars with
  | nil => simpa [setVar] using h
  | cons x t ih =>
    simp only [setVar]
    split
    · next hx =>
      rcases h with h | h
      · simp [h]
      · rw [List.map_cons, List.mem_cons] at h
        rcases h with h | h
        · simp [h, ← hx]
        · simp [h]
    · rw [List.map_cons, List.mem_cons]
      rcases h with h | h
      · exact .inr (ih (.inl h))
      · rw [List.map_cons, List.mem_cons] at h
        exact h.imp_right fun h => ih (.inr h)

theorem foldl_hasName (l acc : List (Var V)) (n : String)
    (h : n ∈ l.map (·.name) ∨ n ∈ acc.map (·.name)) : n ∈ (l.foldl setVar acc).map (·.name) := by
  induction l generalizing acc with
  | nil => simpa using h
  | cons v t ih =>
    refine ih _ ?_
    rcases h with h | h
    · rw [List.map_cons, List.mem_cons] at h
      rcases h with h | h
      · exact .inr (setVar_hasName _ _ _ (.inl h))
      · exact .inl h
    · exact .inr (setVar_hasName _ _ _ (.inr h))

/-- A chosen variable of a group that is opened. -/
theorem openGroup_has {del : Bool} {sel : Option (List String)} {vars : List (Var V)}
    {g : Dataset V} (h : openGroup del sel vars = .ok g) {v : Var V} (hv : v ∈ vars)
    (hs : Chosen sel v.name) : ∃ u ∈ vars, u.name = v.name ∧ { u with delayed := del } ∈ g.vars := by
  have h2 : g.vars = _ := (mk_spec _ _ _ _ _ _ h).2.1
  have hn : v.name ∈ g.vars.map (·.name) := by
    rw [h2]
    refine foldl_hasName _ _ _ (.inl ?_)
    refine List.mem_map.2 ⟨{ v with delayed := del }, List.mem_map.2 ⟨v, ?_, rfl⟩, rfl⟩
    refine List.mem_filter.2 ⟨hv, ?_⟩
    cases sel with
    | none => rfl
    | some l => exact decide_eq_true (hs l rfl)
  obtain ⟨x, hx, hxn⟩ := List.mem_map.1 hn
  obtain ⟨u, hu, rfl⟩ := openGroup_vars h x hx
  exact ⟨u, hu, hxn, hx⟩

theorem load_one {P : Type} [DecidableEq P] {w : World P V} {o : Obj V} {le : P → P → Bool}
    {d : Bool} {sel : Option (List String)} {filters : P → Bool} {fs : Files P V} {k : P}
    (hk : (w.list fs.parts).filter filters = [k]) {z : Dataset V}
    (h : Sch.load w o le d sel filters none fs = .ok (some z)) {v : Var V}
    (hv : Stores fs.parts k v) (hs : Chosen sel v.name) :
    ∃ u, Stores fs.parts k u ∧ u.name = v.name ∧ { u with delayed := d } ∈ z.vars := by
  obtain ⟨vars, hvars, hmem⟩ := hv
  simp only [Sch.load, Ld.load, hk, List.cons_ne_self, if_false, mapPy, bind, Except.bind,
    optsOf, openPart, hvars] at h
  cases hg : openGroup d sel vars with
  | error e => rw [hg] at h; cases h
  | ok g =>
    rw [hg] at h
    simp only [Ld.finish, joinGroups, bind, Except.bind] at h
    obtain ⟨u, hu, hun, hug⟩ := openGroup_has hg hmem hs
    refine ⟨u, ⟨vars, hvars, hu⟩, hun, ?_⟩
    have hfill : ∀ r : Dataset V, filled (metaNames o.metas) (.ok (some r)) = .ok (some z) →
        r = z := by
      intro r hr
      simp only [filled, fillAttrs, bind, Except.bind] at hr
      split at hr
      · cases hr
      · next hx => cases hr; split at hx <;> cases hx; rfl
    cases hi : o.imm with
    | false =>
      simp only [hi, Bool.false_eq_true, if_false] at h
      rw [← hfill g h]
      exact hug
    | true =>
      simp only [hi, if_true] at h
      split at h
      · cases h
      · next r hr =>
        split at hr
        · cases hr
        · next ids _ =>
          rw [← hfill r h, mergeInto_vars hr]
          exact List.mem_append.2 (.inl hug)

end Verif
