import Verif.Lemmas.TimeLine
import Verif.Props.Load

/-! C68: a collection partitioned by the dates of its axis, filled with `merge_time_series`, loads as
one time series. -/

namespace Verif

open Spec Nd Ds TSD Sch

variable {V : Type} {x : Axis V} {sig : Signature V} {size : String → Nat} {keyOf : Int → Int}
  {sc : Pipe.Scheme V} {o : Obj V}

theorem hidden_nil (tol : Option Int) (t : Int) : ¬ Hidden tol [] t := by
  cases tol with
  | none =>
    rintro ⟨⟨a, ha, _⟩, _⟩
    cases ha
  | some d =>
    rintro (h | ⟨pre, a, b, post, h, _⟩)
    · cases h
    · simp at h

/-- The records of the collection after any insertions. -/
theorem filled_inv {w : World (List Int) V} (hb : ByTime x sc keyOf)
    (hsplit : w.split = Pipe.splitDataset sc) (hsc : GoodScheme sc)
    (haxis : o.imm = true → o.axis = o.dim) (hdims : ∀ m ∈ o.metas, m.dims.Nodup)
    (hx : x.dim = o.dim) {fs fs' : Files (List Int) V} {steps : List (Step V)}
    (h : Filled w o x sig size fs steps fs') (hs : Aligned o fs) (hparts : ∀ k, fs.parts k = none)
    (himm : fs.imm = none) :
    Aligned o fs' ∧ ∃ recs, LineInv x sig size keyOf fs' recs ∧
      (∀ k, ∀ r ∈ recs k, Survives keyOf steps r) ∧
      ∀ r, Kept keyOf steps r → r ∈ recs [keyOf r.1] := by
  induction h with
  | start =>
    refine ⟨hs, fun _ => [], ⟨?_, fun _ _ => rfl, fun _ => by simp [StrictSorted], by simp, ?_⟩, by simp,
      ?_⟩
    · intro k vars hk
      rw [hparts k] at hk
      cases hk
    · intro iv hiv
      rw [himm] at hiv
      cases hiv
    · rintro r ⟨before, s, after, he, _⟩
      simp at he
  | @insert fs1 fs2 steps before faults validate np tol ds ds' l r hi ha hcall hh hl ih =>
    obtain ⟨hs1, recs, hinv, hsound, hkept⟩ := ih
    obtain ⟨hs2, recs', hinv', hstep⟩ := line_step hb hsplit hsc haxis hdims hx hi ha hs1 hcall hh hl
      hinv
    refine ⟨hs2, recs', hinv', ?_, ?_⟩
    · intro k rc hrc
      have hlast : rc ∈ inPart keyOf k l → Survives keyOf (steps ++ [⟨l, tol, r.isOk⟩]) rc :=
        fun hm => ⟨steps, _, [], rfl, (List.mem_filter.1 hm).1, by simp⟩
      have hkey := hinv'.keys k rc hrc
      have hprev : rc ∈ recs k →
          (r.isOk = true → ¬ Hidden tol ((inPart keyOf k l).map (·.1)) rc.1) →
          Survives keyOf (steps ++ [⟨l, tol, r.isOk⟩]) rc := by
        intro hm hn
        obtain ⟨b, s, a, e1, e2, e3⟩ := hsound k rc hm
        refine ⟨b, s, a ++ [⟨l, tol, r.isOk⟩], by simp [e1], e2, ?_⟩
        intro s' hs' hd
        rcases List.mem_append.1 hs' with hs' | hs'
        · exact e3 s' hs' hd
        · simp only [List.mem_singleton] at hs'
          subst hs'
          rw [hkey]
          exact hn hd
      rcases (hstep k).1 with ⟨_, e⟩ | hm
      · rw [e] at hrc
        by_cases hempty : inPart keyOf k l = []
        · refine hprev hrc fun _ => ?_
          rw [hempty]
          exact hidden_nil _ _
        · by_cases hok : r.isOk = true
          · obtain ⟨_, _, h3⟩ := (hstep k).2 hok hempty
            rcases h3 with ⟨e1, _⟩ | ⟨_, e1⟩
            · rw [hinv.empty k e1] at hrc
              cases hrc
            · obtain ⟨_, _, h5, _⟩ := C05_outcome _ _ _ tol (hinv.sorted k) (hl.filter _) e1
              rw [← e] at hrc
              rcases h5 rc hrc with hm | ⟨hm, hn⟩
              · exact hlast hm
              · exact hprev hm fun _ => hn
          · exact hprev hrc fun hc => absurd hc hok
      · obtain ⟨_, _, h3⟩ := hm
        rcases h3 with ⟨_, e1⟩ | ⟨_, e1⟩
        · rw [e1] at hrc
          exact hlast hrc
        · obtain ⟨_, _, h5, _⟩ := C05_outcome _ _ _ tol (hinv.sorted k) (hl.filter _) e1
          rcases h5 rc hrc with hm | ⟨hm, hn⟩
          · exact hlast hm
          · exact hprev hm fun _ => hn
    · rintro rc ⟨b, s, a, e1, e2, e3, e4⟩
      generalize hk : [keyOf rc.1] = k at *
      have hnew : rc ∈ l → r.isOk = true → rc ∈ recs' k := by
        intro hm hok
        have hin : rc ∈ inPart keyOf k l := List.mem_filter.2 ⟨hm, decide_eq_true hk⟩
        obtain ⟨_, _, h3⟩ := (hstep k).2 hok (List.ne_nil_of_mem hin)
        rcases h3 with ⟨_, e⟩ | ⟨_, e⟩
        · rw [e]; exact hin
        · exact (C05_outcome _ _ _ tol (hinv.sorted k) (hl.filter _) e).2.1 rc hin
      rcases List.eq_nil_or_concat a with rfl | ⟨a', last, rfl⟩
      · obtain ⟨_, e⟩ := List.append_inj' e1 rfl
        simp only [List.cons.injEq, and_true] at e
        subst e
        exact hnew e3 e2
      · simp only [List.concat_eq_append, ← List.cons_append, ← List.append_assoc] at e1
        obtain ⟨e5, e6⟩ := List.append_inj' e1 rfl
        simp only [List.cons.injEq, and_true] at e6
        subst e6
        obtain ⟨n1, n2⟩ := e4 ⟨l, tol, r.isOk⟩ (by simp)
        have hold : rc ∈ recs k := by
          rw [← hk]
          exact hkept rc ⟨b, s, a', e5, e2, e3, fun s' hs' => by
            rw [hk]
            exact e4 s' (by simp [hs'])⟩
        rcases (hstep k).1 with ⟨_, e⟩ | ⟨_, _, h3⟩
        · rw [e]; exact hold
        · rcases h3 with ⟨e, _⟩ | ⟨_, e⟩
          · rw [hinv.empty k e] at hold
            cases hold
          · exact (C05_outcome _ _ _ tol (hinv.sorted k) (hl.filter _) e).2.2.2 rc hold n1 n2

/-- C68: let the partitions be given by the dates of the axis, and let datasets with strictly
increasing dates be inserted with `merge_time_series`, with any tolerances and whatever the outcomes
of the insertions.  A load returns strictly increasing records, all the variables having the same
ones.  Each of them was inserted, and not replaced by a later insertion that returned.  The records
of an insertion that returned are all loaded, but those that a later one replaced or that lie one
tick after the end of a later one. -/
theorem C68_time_line (w : World (List Int) V) (o : Obj V) (sc : Pipe.Scheme V) (x : Axis V)
    (sig : Signature V) (size : String → Nat) (keyOf : Int → Int) (hb : ByTime x sc keyOf)
    (hsplit : w.split = Pipe.splitDataset sc) (hsc : GoodScheme sc)
    (haxis : o.imm = true → o.axis = o.dim) (hdims : ∀ m ∈ o.metas, m.dims.Nodup)
    (hx : x.dim = o.dim) (fs fs' : Files (List Int) V) (hs : Aligned o fs)
    (hparts : ∀ k, fs.parts k = none) (himm : fs.imm = none) (steps : List (Step V))
    (h : Filled w o x sig size fs steps fs') (hlist : OrderedListing w fs'.parts)
    (le : List Int → List Int → Bool) (delayed : Bool) (filters : List Int → Bool) :
    (Sch.load w o le delayed none filters none fs' = .ok none ∧
      ∀ r, Kept keyOf steps r → filters [keyOf r.1] = false) ∨
    ∃ zds l, Sch.load w o le delayed none filters none fs' = .ok (some zds) ∧
      HoldsLine x sig size zds.vars l ∧ StrictSorted l ∧
      (∀ r ∈ l, filters [keyOf r.1] = true ∧ Survives keyOf steps r) ∧
      ∀ r, Kept keyOf steps r → filters [keyOf r.1] = true → r ∈ l := by
  obtain ⟨hs', recs, hinv, hsound, hkept⟩ := filled_inv hb hsplit hsc haxis hdims hx h hs hparts himm
  by_cases hsel : ∃ k, fs'.parts k ≠ none ∧ filters k = true
  · obtain ⟨zds, l, h1, h2, h3, h4⟩ := line_load hx hb.monotone hinv hs' hlist le delayed filters hsel
    refine .inr ⟨zds, l, h1, h2, h3, fun r hr => ?_, fun r hr hf => (h4 r).2 ⟨hf, hkept r hr⟩⟩
    obtain ⟨f1, f2⟩ := (h4 r).1 hr
    exact ⟨f1, hsound _ r f2⟩
  · refine .inl ⟨?_, ?_⟩
    · rw [C65_aligned_load w o fs' hs']
      apply C54_none
      intro k hk
      cases hf : filters k with
      | false => rfl
      | true => exact absurd ⟨k, (hlist.2 k).1 hk, hf⟩ hsel
    · intro r hr
      cases hf : filters [keyOf r.1] with
      | false => rfl
      | true =>
        refine absurd ⟨[keyOf r.1], ?_, hf⟩ hsel
        intro hn
        have := hkept r hr
        rw [hinv.empty _ hn] at this
        cases this

/-- The records that a load must return, when all the insertions returned. -/
def C68_full : Prop :=
  ∀ (V : Type) (w : World (List Int) V) (o : Obj V) (sc : Pipe.Scheme V) (x : Axis V)
    (sig : Signature V) (size : String → Nat) (keyOf : Int → Int), ByTime x sc keyOf →
    w.split = Pipe.splitDataset sc → GoodScheme sc → (o.imm = true → o.axis = o.dim) →
    (∀ m ∈ o.metas, m.dims.Nodup) → x.dim = o.dim → ∀ (fs fs' : Files (List Int) V), Aligned o fs →
    (∀ k, fs.parts k = none) → fs.imm = none → ∀ (steps : List (Step V)),
    Filled w o x sig size fs steps fs' → OrderedListing w fs'.parts →
    (∀ s ∈ steps, s.done = true) →
    ∀ (le : List Int → List Int → Bool) (delayed : Bool) (filters : List Int → Bool)
      (zds : Dataset V), Sch.load w o le delayed none filters none fs' = .ok (some zds) →
    ∃ l, HoldsLine x sig size zds.vars l ∧ StrictSorted l ∧
      ∀ r, r ∈ l ↔ filters [keyOf r.1] = true ∧ Survives keyOf steps r

/-- C68: when all the insertions returned, a load returns exactly the records that no later insertion
replaced, in strictly increasing order.

`_partial`: no record lies one tick after the end of a later insertion in its partition
(`C68_counterexample`). -/
theorem C68_content_partial (w : World (List Int) V) (o : Obj V) (sc : Pipe.Scheme V) (x : Axis V)
    (sig : Signature V) (size : String → Nat) (keyOf : Int → Int) (hb : ByTime x sc keyOf)
    (hsplit : w.split = Pipe.splitDataset sc) (hsc : GoodScheme sc)
    (haxis : o.imm = true → o.axis = o.dim) (hdims : ∀ m ∈ o.metas, m.dims.Nodup)
    (hx : x.dim = o.dim) (fs fs' : Files (List Int) V) (hs : Aligned o fs)
    (hparts : ∀ k, fs.parts k = none) (himm : fs.imm = none) (steps : List (Step V))
    (h : Filled w o x sig size fs steps fs') (hlist : OrderedListing w fs'.parts)
    (hdone : ∀ s ∈ steps, s.done = true) (htick : NoTick keyOf steps)
    (le : List Int → List Int → Bool) (delayed : Bool) (filters : List Int → Bool) :
    (Sch.load w o le delayed none filters none fs' = .ok none ∧
      ∀ r, Survives keyOf steps r → filters [keyOf r.1] = false) ∨
    ∃ zds l, Sch.load w o le delayed none filters none fs' = .ok (some zds) ∧
      HoldsLine x sig size zds.vars l ∧ StrictSorted l ∧
      ∀ r, r ∈ l ↔ filters [keyOf r.1] = true ∧ Survives keyOf steps r := by
  have hk : ∀ r, Survives keyOf steps r → Kept keyOf steps r := by
    rintro r ⟨b, s, a, e1, e2, e3⟩
    refine ⟨b, s, a, e1, hdone s (by simp [e1]), e2, fun s' hs' => ⟨e3 s' hs' (hdone s' ?_), ?_⟩⟩
    · rw [e1]; simp [hs']
    · exact htick b s a e1 r e2 s' hs'
  rcases C68_time_line w o sc x sig size keyOf hb hsplit hsc haxis hdims hx fs fs' hs hparts himm steps
    h hlist le delayed filters with ⟨h1, h2⟩ | ⟨zds, l, h1, h2, h3, h4, h5⟩
  · exact .inl ⟨h1, fun r hr => h2 r (hk r hr)⟩
  · exact .inr ⟨zds, l, h1, h2, h3, fun r => ⟨h4 r, fun ⟨hf, hr⟩ => h5 r (hk r hr) hf⟩⟩

end Verif
