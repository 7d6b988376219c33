import Verif.Lemmas.Schema
import Verif.Lemmas.View

/-! C30: the schema and the partitions of a collection stay in step. -/

namespace Verif

open Spec Nd Ds Upd Sch

variable {P V : Type} [DecidableEq P]

theorem metas_unique {l : List (VarMeta V)} (h : (l.map (·.name)).Nodup) {a b : VarMeta V}
    (ha : a ∈ l) (hb : b ∈ l) (he : a.name = b.name) : a = b := by
  induction l with
  | nil => simp at ha
  | cons x t ih =>
    rw [List.map_cons, List.nodup_cons] at h
    rcases List.mem_cons.1 ha with rfl | ha
    · rcases List.mem_cons.1 hb with rfl | hb
      · rfl
      · exact absurd (List.mem_map.2 ⟨b, hb, he.symm⟩) h.1
    · rcases List.mem_cons.1 hb with e | hb
      · exact absurd (List.mem_map.2 ⟨a, ha, by rw [he, e]⟩) h.1
      · exact ih h.2 ha hb

/-! ### The removal of a variable -/

/-- What `drop_variable` does when it succeeds. -/
theorem drop_spec {w : World P V} (hw : GoodWorld w) {o o' : Obj V} {faults : Faults P}
    {name : String} {fs fs' : Files P V} (hb : Bounded fs.parts) {r : Py Unit}
    (h : dropVariable w o faults name fs = (o', fs', r)) :
    (o' = o ∧ fs'.config = fs.config ∧ fs'.imm = fs.imm ∧ (∃ e, r = .error e) ∧
      (fs' = fs ∨ ∃ p, faults.del p = true)) ∨
    (o' = { o with metas := o.metas.filter fun m => decide (m.name ≠ name) } ∧
      fs'.imm = fs.imm ∧
      (∀ p, fs'.parts p = (fs.parts p).map fun vars =>
        vars.filter fun v => decide (v.name ≠ name)) ∧
      name ∉ o.keys ∧ name ∈ metaNames o.metas ∧
      (o.imm = true → ∃ iv, fs.imm = some iv ∧ name ∉ iv.map (·.name)) ∧
      (r = .ok () → ∃ c, fs'.config = .ok c ∧ Describes c o') ∧
      (∀ e, r = .error e → ∃ m ∈ o'.metas, w.serial m = false)) := by
  unfold dropVariable at h
  split at h
  · cases h; exact .inl ⟨rfl, rfl, rfl, ⟨_, rfl⟩, .inl rfl⟩
  · next hk =>
    split at h
    · cases h; exact .inl ⟨rfl, rfl, rfl, ⟨_, rfl⟩, .inl rfl⟩
    · next hm =>
      rw [Classical.not_not] at hm
      split at h
      · cases h; exact .inl ⟨rfl, rfl, rfl, ⟨_, rfl⟩, .inl rfl⟩
      · next himm =>
        split at h
        · cases h; exact .inl ⟨rfl, rfl, rfl, ⟨_, rfl⟩, .inl rfl⟩
        · next l hl =>
          obtain ⟨rfl, hnd, hall⟩ := bag_spec hw hb hl
          obtain ⟨t1, t2⟩ := runTasks_spec (delTask (V := V) name faults) fs.parts _ hnd
          split at h
          · next st e hrun =>
            cases h
            refine .inl ⟨rfl, rfl, rfl, ⟨_, rfl⟩, ?_⟩
            refine .inr (Classical.byContradiction fun hc => ?_)
            have hno : ∀ p, faults.del p = false := fun p => by
              cases hp : faults.del p with
              | false => rfl
              | true => exact absurd ⟨p, hp⟩ hc
            have : (runTasks (delTask (V := V) name faults) fs.parts
                (w.list fs.parts)).2 = .ok () := by
              rw [t2]
              intro p _
              unfold delTask
              split
              · rfl
              · split
                · rw [hno p]; rfl
                · rfl
            rw [hrun] at this
            cases this
          · next st hrun =>
            have hst : st = (runTasks (delTask (V := V) name faults) fs.parts
                (w.list fs.parts)).1 := by rw [hrun]
            have hok := t2.1 (by rw [hrun])
            simp only [Prod.mk.injEq] at h
            obtain ⟨h1, h2, h3⟩ := h
            refine .inr ⟨h1.symm, ?_, ?_, hk, hm, ?_, ?_, ?_⟩
            · rw [← h2, writeConfig_parts.2]
            · intro p
              rw [← h2, writeConfig_parts.1]
              show st p = _
              rw [hst, t1]
              cases hp : fs.parts p with
              | none => rw [if_neg (by rw [hall]; simp [hp])]; rfl
              | some vars =>
                have hpl : p ∈ w.list fs.parts := by rw [hall]; simp [hp]
                rw [if_pos hpl]
                have := hok p hpl
                rw [hp] at this
                unfold delTask at this ⊢
                simp only at this ⊢
                split
                · next hs =>
                  rw [if_pos hs] at this
                  split at this
                  · cases this
                  · next hd => rw [if_neg hd]; rfl
                · next hs =>
                  simp only [Option.map_some, Option.some.injEq]
                  rw [eq_comm, List.filter_eq_self]
                  intro v hv
                  simp only [ne_eq, decide_eq_true_eq]
                  rintro rfl
                  exact hs ((getVar_isSome _ _).2 (List.mem_map_of_mem hv))
            · intro hi
              unfold checkImmutable at himm
              rw [if_pos hi] at himm
              split at himm
              · cases himm
              · next iv hiv =>
                split at himm
                · cases himm
                · next hn => exact ⟨iv, hiv, fun hc => hn ((getVar_isSome _ _).2 hc)⟩
            · intro hr
              rw [← h3] at hr
              obtain ⟨c, hc1, hc2⟩ := writeConfig_ok hr
              refine ⟨c, ?_, h1 ▸ hc2⟩
              rw [← h2, hc1]
            · intro e hr
              rw [← h3] at hr
              refine Classical.byContradiction fun hc => ?_
              have hall : ∀ m ∈ o'.metas, w.serial m = true := fun m hm => by
                cases hs : w.serial m with
                | true => rfl
                | false => exact absurd ⟨m, hm, hs⟩ hc
              rw [h1] at hr
              obtain ⟨c, hc1, _⟩ := writeConfig_spec (w := w) (fs := { fs with parts := st })
                hall
              rw [hc1] at hr
              cases hr

theorem mem_filter_name {α : Type} (f : α → String) (l : List α) (name n : String) :
    n ∈ (l.filter fun v => decide (f v ≠ name)).map f ↔ n ∈ l.map f ∧ n ≠ name := by
  simp only [List.mem_map, List.mem_filter, ne_eq, decide_eq_true_eq]
  constructor
  · rintro ⟨v, ⟨h1, h2⟩, rfl⟩
    exact ⟨⟨v, h1, rfl⟩, h2⟩
  · rintro ⟨⟨v, h1, rfl⟩, h2⟩
    exact ⟨v, ⟨h1, h2⟩, rfl⟩

theorem filter_nodup {α : Type} (f : α → String) (l : List α) (q : α → Bool)
    (h : (l.map f).Nodup) : ((l.filter q).map f).Nodup :=
  h.sublist (List.Sublist.map f List.filter_sublist)

/-- C30: after a successful `drop_variable` the partitions, the configuration and the metadata
are in step, the variable is gone from all of them, and the others have the same values. -/
theorem C30_drop {w : World P V} (hw : GoodWorld w) {o o' : Obj V} {faults : Faults P}
    {name : String} {fs fs' : Files P V} (hs : Aligned o fs)
    (h : dropVariable w o faults name fs = (o', fs', .ok ())) :
    Aligned o' fs' ∧ o' = { o with metas := o.metas.filter fun m => decide (m.name ≠ name) } ∧
    fs'.imm = fs.imm ∧
    ∀ p, fs'.parts p = (fs.parts p).map fun vars =>
      vars.filter fun v => decide (v.name ≠ name) := by
  rcases drop_spec hw hs.bounded h with ⟨_, _, _, ⟨e, he⟩, _⟩ | ⟨h1, h2, h3, hk, hm, himm, hcfg, _⟩
  · cases he
  · refine ⟨?_, h1, h2, h3⟩
    obtain ⟨c, hc1, hc2⟩ := hcfg rfl
    -- the variable has the dimension of the partitioning
    have hdim : ∀ m ∈ o.metas, m.name = name → o.dim ∈ m.dims := by
      intro m hmm he
      refine Classical.byContradiction fun hc => ?_
      obtain ⟨iv, hiv, hno⟩ := himm (hs.immutable.2 ⟨m, hmm, hc⟩)
      exact hno ((hs.immNames iv hiv name).2 ⟨m, hmm, he, hc⟩)
    have hmem : ∀ m, m ∈ o'.metas ↔ m ∈ o.metas ∧ m.name ≠ name := by
      intro m
      rw [h1]
      simp [List.mem_filter]
    have hod : o'.dim = o.dim := by rw [h1]
    have hoi : o'.imm = o.imm := by rw [h1]
    refine ⟨?_, ?_, ⟨c, hc1, hc2⟩, ?_, ?_, ?_, ?_, bounded_of_subset hs.bounded fun p hp hc => hp
      (by rw [h3, hc]; rfl)⟩
    · rw [h1]; exact filter_nodup _ _ _ hs.nodup
    · intro k hk'
      rw [h1] at hk'
      obtain ⟨x, hx, he⟩ := hs.keys k hk'
      exact ⟨x, (hmem x).2 ⟨hx, fun hc => hk (hc ▸ he ▸ hk')⟩, he⟩
    · intro p vars' hp
      rw [h3] at hp
      cases hv : fs.parts p with
      | none => rw [hv] at hp; cases hp
      | some vars =>
        rw [hv] at hp
        cases hp
        obtain ⟨f1, f2, f3, size, f4⟩ := hs.parts p vars hv
        refine ⟨filter_nodup _ _ _ f1, ?_, ?_, size, fun v hv => f4 v (List.mem_filter.1 hv).1⟩
        · intro n
          rw [mem_filter_name, f2]
          constructor
          · rintro ⟨⟨m, hmm, rfl, hd⟩, hne⟩
            exact ⟨m, (hmem m).2 ⟨hmm, hne⟩, rfl, hod ▸ hd⟩
          · rintro ⟨m, hmm, rfl, hd⟩
            have := (hmem m).1 hmm
            exact ⟨⟨m, this.1, rfl, hod ▸ hd⟩, this.2⟩
        · intro v hv m hmm
          exact f3 v (List.mem_filter.1 hv).1 m ((hmem m).1 hmm).1
    · rw [hoi, hs.immutable]
      constructor
      · rintro ⟨m, hmm, hd⟩
        refine ⟨m, (hmem m).2 ⟨hmm, fun he => hd (hdim m hmm he)⟩, hod ▸ hd⟩
      · rintro ⟨m, hmm, hd⟩
        exact ⟨m, ((hmem m).1 hmm).1, hod ▸ hd⟩
    · intro hi ⟨p, hp⟩
      rw [h2]
      refine hs.stored (hoi ▸ hi) ⟨p, fun hc => hp ?_⟩
      rw [h3, hc]
      rfl
    · intro iv hiv n
      rw [h2] at hiv
      rw [hs.immNames iv hiv n]
      constructor
      · rintro ⟨m, hmm, he, hd⟩
        exact ⟨m, (hmem m).2 ⟨hmm, fun he => hd (hdim m hmm he)⟩, he, hod ▸ hd⟩
      · rintro ⟨m, hmm, he, hd⟩
        exact ⟨m, ((hmem m).1 hmm).1, he, hod ▸ hd⟩

/-! ### The addition of a variable -/

theorem tabulate_constant (shape : List Nat) (f : List Nat → V) (x : V) (hf : ∀ i, f i = x) :
    Constant (tabulate shape f) x := by
  refine ⟨Vw.tabulate_arrOk shape f, ?_⟩
  intro idx y h
  simp only [tabulate] at h
  split at h
  · cases h; exact hf idx
  · cases h

omit [DecidableEq P] in
/-- The schema before the addition is one of an object in step. -/
theorem add_aligned {o : Obj V} {fs : Files P V}
    (hs : Aligned o fs) {m : VarMeta V} (hd : o.dim ∈ m.dims) (hn : m.name ∉ metaNames o.metas)
    {c : Config V} (hc : Describes c { o with metas := o.metas ++ [m] }) (parts : Store P V)
    (hp : ∀ p, (fs.parts p = none ∧ parts p = none) ∨ ∃ vars v, fs.parts p = some vars ∧
      parts p = some (vars ++ [v]) ∧ v.name = m.name ∧ v.dims = m.dims ∧
      ∃ t ∈ vars, t.dims = m.dims ∧ v.array.shape = t.array.shape) :
    Aligned { o with metas := o.metas ++ [m] } { fs with config := .ok c, parts := parts } := by
  have hmem : ∀ x, x ∈ o.metas ++ [m] ↔ x ∈ o.metas ∨ x = m := by simp
  refine ⟨?_, ?_, ⟨c, rfl, hc⟩, ?_, ?_, ?_, ?_, bounded_of_subset hs.bounded fun p hp' hc => by
    rcases hp p with ⟨_, h⟩ | ⟨_, _, h, _⟩
    · exact hp' h
    · rw [hc] at h; cases h⟩
  · rw [List.map_append, List.nodup_append]
    refine ⟨hs.nodup, by simp, ?_⟩
    intro a ha b hb hab
    rw [List.map_cons, List.map_nil, List.mem_singleton] at hb
    subst hab
    subst hb
    exact hn ha
  · intro k hk
    obtain ⟨x, hx, he⟩ := hs.keys k hk
    exact ⟨x, (hmem x).2 (.inl hx), he⟩
  · intro p vars' hv'
    have hv' : parts p = some vars' := hv'
    rcases hp p with ⟨_, h2⟩ | ⟨vars, v, h1, h2, hvn, hvd, t, ht, htd, hsh⟩
    · rw [h2] at hv'; cases hv'
    · rw [h2] at hv'
      cases hv'
      obtain ⟨f1, f2, f3, size, f4⟩ := hs.parts p vars h1
      have hnot : m.name ∉ vars.map (·.name) := by
        intro hc
        obtain ⟨m', hm', he, _⟩ := (f2 _).1 hc
        exact hn (List.mem_map.2 ⟨m', hm', he⟩)
      refine ⟨?_, ?_, ?_, size, ?_⟩
      · rw [List.map_append, List.nodup_append]
        refine ⟨f1, by simp, ?_⟩
        intro a ha b hb hab
        rw [List.map_cons, List.map_nil, List.mem_singleton] at hb
        subst hab
        rw [hb, hvn] at ha
        exact hnot ha
      · intro n
        rw [List.map_append, List.mem_append, f2, List.map_cons, List.map_nil,
          List.mem_singleton, hvn]
        constructor
        · rintro (⟨m', hm', h⟩ | rfl)
          · exact ⟨m', (hmem m').2 (.inl hm'), h⟩
          · exact ⟨m, (hmem m).2 (.inr rfl), rfl, hd⟩
        · rintro ⟨m', hm', he, hd'⟩
          rcases (hmem m').1 hm' with hm' | rfl
          · exact .inl ⟨m', hm', he, hd'⟩
          · exact .inr he.symm
      · intro x hx m' hm' he
        rcases List.mem_append.1 hx with hx | hx
        · rcases (hmem m').1 hm' with hm' | rfl
          · exact f3 x hx m' hm' he
          · exact absurd (he ▸ List.mem_map_of_mem hx) hnot
        · rw [List.mem_singleton] at hx
          subst hx
          rcases (hmem m').1 hm' with hm' | rfl
          · rw [hvn] at he
            exact absurd (List.mem_map.2 ⟨m', hm', he⟩) hn
          · exact hvd
      · intro x hx
        rcases List.mem_append.1 hx with hx | hx
        · exact f4 x hx
        · rw [List.mem_singleton] at hx
          subst hx
          rw [hsh, f4 t ht, htd, hvd]
  · rw [show ({ o with metas := o.metas ++ [m] } : Obj V).imm = o.imm from rfl, hs.immutable]
    constructor
    · rintro ⟨x, hx, hxd⟩
      exact ⟨x, (hmem x).2 (.inl hx), hxd⟩
    · rintro ⟨x, hx, hxd⟩
      rcases (hmem x).1 hx with hx | rfl
      · exact ⟨x, hx, hxd⟩
      · exact absurd hd hxd
  · rintro hi ⟨p, hp'⟩
    refine hs.stored hi ⟨p, fun hcon => hp' ?_⟩
    rcases hp p with ⟨_, h2⟩ | ⟨vars, v, h1, _⟩
    · exact h2
    · rw [h1] at hcon; cases hcon
  · intro iv hiv n
    rw [hs.immNames iv hiv n]
    constructor
    · rintro ⟨x, hx, hxd⟩
      exact ⟨x, (hmem x).2 (.inl hx), hxd⟩
    · rintro ⟨x, hx, he, hxd⟩
      rcases (hmem x).1 hx with hx | rfl
      · exact ⟨x, hx, he, hxd⟩
      · exact absurd hd hxd

/-- C30: after a successful `add_variable` the partitions, the configuration and the metadata
are in step, the other variables have the same values, and the new variable has the fill
value everywhere. -/
theorem C30_add {w : World P V} (hw : GoodWorld w) {o o' : Obj V} {faults : Faults P}
    {m : VarMeta V} {fs fs' : Files P V} (hs : Aligned o fs)
    (h : Sch.addVariable w o faults m fs = (o', fs', .ok ())) :
    Aligned o' fs' ∧ o' = { o with metas := o.metas ++ [m] } ∧ fs'.imm = fs.imm ∧
    ∀ p, (fs.parts p = none ∧ fs'.parts p = none) ∨
      ∃ vars v, fs.parts p = some vars ∧ fs'.parts p = some (vars ++ [v]) ∧
        v.name = m.name ∧ v.dims = m.dims ∧ v.fill = m.fill ∧
        ∀ x, m.fill = some x → Constant v.array x := by
  unfold Sch.addVariable at h
  split at h
  · cases h
  · next hd =>
    rw [Classical.not_not] at hd
    split at h
    · cases h
    · next hn =>
      split at h
      · cases h
      · simp only at h
        split at h
        · cases h
        · next fs1 hcfg =>
          have hc := writeConfig_ok (w := w) (o := { o with metas := o.metas ++ [m] }) (fs := fs)
            (by rw [hcfg])
          rw [hcfg] at hc
          obtain ⟨c, hc1, hc2⟩ := hc
          simp only at hc1
          subst hc1
          split at h
          · cases h
          · next t ht =>
            split at h
            · next st hrun =>
              split at hrun
              · cases hrun
              · next l hl =>
                obtain ⟨rfl, hnd, hall⟩ := bag_spec hw hs.bounded hl
                obtain ⟨t1, t2⟩ := runTasks_spec (addTask w t.name m faults) fs.parts _ hnd
                simp only at hrun
                have hok := t2.1 (by rw [hrun])
                have htd : t.dims = m.dims := by simpa using List.find?_some ht
                have htm : t ∈ o.metas ++ [m] := List.mem_of_find?_eq_some ht
                cases h
                have key : ∀ p, (fs.parts p = none ∧ st p = none) ∨ ∃ vars v,
                    fs.parts p = some vars ∧ st p = some (vars ++ [v]) ∧ v.name = m.name ∧
                    v.dims = m.dims ∧ v.fill = m.fill ∧
                    (∀ x, m.fill = some x → Constant v.array x) ∧
                    ∃ t ∈ vars, t.dims = m.dims ∧ v.array.shape = t.array.shape := by
                  intro p
                  have hst := t1 p
                  simp only [hrun] at hst
                  cases hp : fs.parts p with
                  | none =>
                    rw [if_neg (by rw [hall]; simp [hp]), hp] at hst
                    exact .inl ⟨rfl, hst⟩
                  | some vars =>
                    have hpl : p ∈ w.list fs.parts := by rw [hall]; simp [hp]
                    have h2 := hok p hpl
                    rw [if_pos hpl] at hst
                    rw [hp] at hst h2
                    unfold addTask at hst h2
                    simp only at hst h2
                    split at h2
                    · cases h2
                    · next tv htv =>
                      rw [htv] at hst
                      simp only at hst
                      split at h2
                      · cases h2
                      · next hlen =>
                        rw [if_neg hlen] at hst
                        split at h2
                        · cases h2
                        · next hex =>
                          rw [if_neg hex] at hst
                          split at h2
                          · next hf =>
                            rw [hf] at hst
                            obtain ⟨g1, g2⟩ := getVar_some _ _ _ htv
                            refine .inr ⟨vars, _, rfl, hst, rfl, rfl, rfl, ?_, tv, g1, ?_, rfl⟩
                            · intro x hx
                              refine tabulate_constant _ _ x fun i => ?_
                              simp only [blank, hx]
                            · rcases List.mem_append.1 htm with htm | htm
                              · rw [(hs.parts p vars hp).dims tv g1 t htm g2.symm, htd]
                              · rw [List.mem_singleton] at htm
                                subst htm
                                rw [htv] at hex
                                exact absurd rfl hex
                          · cases h2
                          · cases h2
                refine ⟨?_, rfl, rfl, ?_⟩
                · refine add_aligned hs hd hn hc2 st fun p => ?_
                  rcases key p with h | ⟨vars, v, h1, h2, h3, h4, _, _, h7⟩
                  · exact .inl h
                  · exact .inr ⟨vars, v, h1, h2, h3, h4, h7⟩
                · intro p
                  rcases key p with h | ⟨vars, v, h1, h2, h3, h4, h5, h6, _⟩
                  · exact .inl h
                  · exact .inr ⟨vars, v, h1, h2, h3, h4, h5, h6⟩
            · next st e hrun =>
              split at h
              · cases h
              · cases h

omit [DecidableEq P] in
/-- The state of the partitions after the tasks of an addition, whatever happened: each one
is as before or has the new variable. -/
theorem addTask_state (w : World P V) (tmpl : String) (m : VarMeta V) (faults : Faults P) (p : P)
    (cur : Option (List (Var V))) :
    (addTask w tmpl m faults p cur).1 = cur ∨ ∃ vars v, cur = some vars ∧ v.name = m.name ∧
      m.name ∉ vars.map (·.name) ∧ (addTask w tmpl m faults p cur).1 = some (vars ++ [v]) := by
  unfold addTask
  cases cur with
  | none => exact .inl rfl
  | some vars =>
    simp only
    split
    · exact .inl rfl
    · split
      · exact .inl rfl
      · split
        · exact .inl rfl
        · next hex =>
          have hno : m.name ∉ vars.map (·.name) := fun hc => hex ((getVar_isSome _ _).2 hc)
          split
          · exact .inr ⟨vars, _, rfl, rfl, hno, rfl⟩
          · exact .inr ⟨vars, _, rfl, rfl, hno, rfl⟩
          · exact .inl rfl

/-- C30: if an addition fails while the arrays are created, the schema and the files are those
of before.  Missing for C30: a variable whose metadata cannot be written as JSON
(`C30_counterexample_json`), a collection without partition (`C30_counterexample_empty`), and
failures of the removal. -/
theorem C30_add_failed_partial {w : World P V} (hw : GoodWorld w) {o o' : Obj V}
    {faults : Faults P} {m : VarMeta V} {fs fs' : Files P V} {e : PyErr} (hs : Aligned o fs)
    (h : Sch.addVariable w o faults m fs = (o', fs', .error e))
    (hj : ∀ x ∈ o.metas ++ [m], w.serial x = true)
    (hdel : ∀ p, faults.del p = false)
    (hp : (∃ p, fs.parts p ≠ none) ∨ w.emptyBag = .ok ()) :
    o' = o ∧ fs'.parts = fs.parts ∧ fs'.imm = fs.imm ∧ Aligned o' fs' := by
  have hsame : ∀ {o' : Obj V} {fs' : Files P V}, o' = o → fs' = fs →
      o' = o ∧ fs'.parts = fs.parts ∧ fs'.imm = fs.imm ∧ Aligned o' fs' := by
    rintro _ _ rfl rfl
    exact ⟨rfl, rfl, rfl, hs⟩
  unfold Sch.addVariable at h
  split at h
  · cases h; exact hsame rfl rfl
  · next hd =>
    rw [Classical.not_not] at hd
    split at h
    · cases h; exact hsame rfl rfl
    · next hn =>
      split at h
      · cases h; exact hsame rfl rfl
      · simp only at h
        obtain ⟨c, hc1, hc2⟩ := writeConfig_spec (w := w) (fs := fs)
          (o := { o with metas := o.metas ++ [m] }) hj
        rw [hc1] at h
        simp only at h
        split at h
        · next hnone =>
          have := List.find?_eq_none.1 hnone m (by simp)
          simp at this
        · next t ht =>
          split at h
          · cases h
          · next st e1 hrun =>
            -- the state of the partitions after the tasks
            have hst : ∀ p, st p = fs.parts p ∨ ∃ vars v, fs.parts p = some vars ∧
                v.name = m.name ∧ m.name ∉ vars.map (·.name) ∧ st p = some (vars ++ [v]) := by
              intro p
              split at hrun
              · cases hrun; exact .inl rfl
              · next l hl =>
                obtain ⟨rfl, hnd, hall⟩ := bag_spec hw hs.bounded hl
                have t1 := (runTasks_spec (addTask w t.name m faults) fs.parts _ hnd).1 p
                rw [hrun] at t1
                split at t1
                · rw [show st p = _ from t1]
                  exact addTask_state w t.name m faults p (fs.parts p)
                · exact .inl t1
            have hbst : Bounded st := bounded_of_subset hs.bounded fun p hp' hc => by
              rcases hst p with h1 | ⟨vars, v, h1, _⟩
              · exact hp' (h1.trans hc)
              · rw [hc] at h1; cases h1
            have hback : ∀ p, ((st p).map fun vars : List (Var V) =>
                vars.filter fun v => decide (v.name ≠ m.name)) = fs.parts p := by
              intro p
              have hno : ∀ vars, fs.parts p = some vars → m.name ∉ vars.map (·.name) := by
                intro vars hv hc
                obtain ⟨m', hm', he, _⟩ := ((hs.parts p vars hv).names _).1 hc
                exact hn (List.mem_map.2 ⟨m', hm', he⟩)
              have hid : ∀ vars : List (Var V), m.name ∉ vars.map (·.name) →
                  (vars.filter fun v => decide (v.name ≠ m.name)) = vars := by
                intro vars hv
                rw [List.filter_eq_self]
                intro v hvm
                simp only [ne_eq, decide_eq_true_eq]
                exact fun he => hv (List.mem_map.2 ⟨v, hvm, he⟩)
              rcases hst p with h1 | ⟨vars, v, h1, h2, h3, h4⟩
              · rw [h1]
                cases hv : fs.parts p with
                | none => rfl
                | some vars => simp only [Option.map_some, hid vars (hno vars hv)]
              · rw [h4, h1]
                simp only [Option.map_some, List.filter_append, hid vars h3]
                simp [h2]
            have hfilter : ((o.metas ++ [m]).filter fun x => decide (x.name ≠ m.name)) =
                o.metas := by
              rw [List.filter_append]
              have : (o.metas.filter fun x => decide (x.name ≠ m.name)) = o.metas := by
                rw [List.filter_eq_self]
                intro x hx
                simp only [ne_eq, decide_eq_true_eq]
                exact fun he => hn (List.mem_map.2 ⟨x, hx, he⟩)
              rw [this]
              simp
            -- the removal
            have hsome : (∃ p, fs.parts p ≠ none) → ∃ p, st p ≠ none := by
              rintro ⟨p, hp⟩
              refine ⟨p, ?_⟩
              rcases hst p with h1 | ⟨vars, v, h1, _, _, h4⟩
              · rw [h1]; exact hp
              · rw [h4]; simp
            have hpart : ∃ p, fs.parts p ≠ none := by
              rcases hp with hp | hp
              · exact hp
              · refine Classical.byContradiction fun hc => ?_
                have hlist : w.list fs.parts = [] := by
                  cases hl : w.list fs.parts with
                  | nil => rfl
                  | cons p t =>
                    exact absurd ⟨p, ((hw fs.parts hs.bounded).2 p).1 (by rw [hl]; simp)⟩ hc
                have hb : bag w fs.parts = .ok [] := by
                  unfold bag
                  rw [hlist, hp]
                  rfl
                simp only [hb] at hrun
                cases hrun
            have hbag : bag w st = .ok (w.list st) := by
              obtain ⟨p, hp⟩ := hsome hpart
              unfold bag
              have := ((hw st hbst).2 p).2 hp
              split
              · next hl => rw [hl] at this; simp at this
              · next hl => rw [hl]
            have hnk : m.name ∉ o.keys := by
              intro hk
              obtain ⟨x, hx, he⟩ := hs.keys _ hk
              exact hn (List.mem_map.2 ⟨x, hx, he⟩)
            have himm : checkImmutable { o with metas := o.metas ++ [m] } m.name
                { fs with config := .ok c, parts := st } = .ok () := by
              unfold checkImmutable
              simp only
              split
              · next hi =>
                cases hiv : fs.imm with
                | none => exact absurd hiv (hs.stored hi hpart)
                | some iv =>
                  simp only
                  rw [if_neg]
                  intro hc
                  rw [getVar_isSome, hs.immNames iv hiv] at hc
                  obtain ⟨x, hx, he, _⟩ := hc
                  exact hn (List.mem_map.2 ⟨x, hx, he⟩)
              · rfl
            have htasks : (runTasks (delTask (V := V) m.name faults) st (w.list st)).2
                = .ok () := by
              rw [(runTasks_spec _ _ _ (hw st hbst).1).2]
              intro p _
              unfold delTask
              split
              · rfl
              · split
                · rw [hdel p]; rfl
                · rfl
            obtain ⟨c2, hc3, hc4⟩ := writeConfig_spec (w := w) (o := o)
              (fs := { fs with
                config := .ok c
                parts := (runTasks (delTask (V := V) m.name faults) st (w.list st)).1 })
              fun x hx => hj x (by simp [hx])
            have hdrop : dropVariable w { o with metas := o.metas ++ [m] } faults
                m.name { fs with config := .ok c, parts := st } = (o, { fs with
                  config := .ok c2
                  parts := (runTasks (delTask (V := V) m.name faults) st (w.list st)).1 },
                  .ok ()) := by
              unfold dropVariable
              rw [if_neg hnk, if_neg (by simp [metaNames])]
              simp only [himm, hbag]
              cases hr : runTasks (delTask (V := V) m.name faults) st (w.list st) with
              | mk st2 r2 =>
                rw [hr] at htasks hc3
                simp only at htasks
                subst htasks
                simp only [hfilter]
                rw [hc3]
            rw [hdrop] at h
            simp only [Prod.mk.injEq] at h
            obtain ⟨rfl, rfl, _⟩ := h
            have hparts : (runTasks (delTask (V := V) m.name faults) st (w.list st)).1 =
                fs.parts := by
              rcases drop_spec hw hbst hdrop with ⟨_, _, _, ⟨e, he⟩, _⟩ | ⟨_, _, h3, _⟩
              · cases he
              · funext p
                rw [← hback p]
                exact h3 p
            simp only [hparts]
            refine ⟨trivial, trivial, trivial, hs.nodup, hs.keys, ⟨c2, rfl, hc4⟩, hs.parts, hs.immutable,
              hs.stored, hs.immNames, hs.bounded⟩

end Verif
