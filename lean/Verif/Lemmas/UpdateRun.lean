import Verif.Lemmas.UpdateSame

/-! Lemmas about the processing of the partitions of an update. -/

namespace Verif

open Spec Nd Ds Upd

variable {P V : Type} [DecidableEq P] {names : List String}

theorem items_call {c : Cfg P V} {f : Callback V (Dict V)} {st : Store P V} {p : P}
    {l : List (String × Py (Arr V))} (h : items c f st p = .ok l) :
    ∃ zds ind d, f zds ind = .ok d ∧ l.map (·.1) = d.map (·.1) := by
  simp only [items] at h
  split at h
  · simp only [bind, Except.bind] at h
    split at h
    · cases h
    · next zds _ =>
      split at h
      · cases h
      · next d hd =>
        cases h
        refine ⟨zds, none, d, hd, ?_⟩
        rw [List.map_map]; rfl
  · simp only [bind, Except.bind] at h
    split at h
    · cases h
    · next zi _ =>
      split at h
      · cases h
      · next d hd =>
        cases h
        refine ⟨zi.1, some zi.2, d, hd, ?_⟩
        rw [List.map_map]; rfl

theorem items_names {c : Cfg P V} {f : Callback V (Dict V)} {st : Store P V} {p : P}
    {l : List (String × Py (Arr V))} (h : items c f st p = .ok l) (hf : Returns f names) :
    ∀ n ∈ l.map (·.1), n ∈ names := by
  obtain ⟨zds, ind, d, h1, h2⟩ := items_call h
  intro n hn
  rw [h2] at hn
  obtain ⟨x, hx, rfl⟩ := List.mem_map.1 hn
  exact hf _ _ _ h1 x hx

theorem items_nodup {c : Cfg P V} {f : Callback V (Dict V)} {st : Store P V} {p : P}
    {l : List (String × Py (Arr V))} (h : items c f st p = .ok l) (hf : Keys f) :
    (l.map (·.1)).Nodup := by
  obtain ⟨zds, ind, d, h1, h2⟩ := items_call h
  rw [h2]
  exact hf _ _ _ h1

theorem writeLazy_frame {c : Cfg P V} {f : Callback V (Dict V)} {p : P} {ks : List Nat}
    {st st' : Store P V} {r : Py Unit} (hf : Returns f names)
    (h : writeLazy c f p st ks = (st', r)) :
    (∀ q, q ≠ p → st' q = st q) ∧ SameStore names st st' := by
  induction ks generalizing st with
  | nil => cases h; exact ⟨fun _ _ => rfl, SameStore.refl _ _⟩
  | cons k t ih =>
    simp only [writeLazy] at h
    split at h
    · cases h; exact ⟨fun _ _ => rfl, SameStore.refl _ _⟩
    · next l hl =>
      split at h
      · cases h; exact ⟨fun _ _ => rfl, SameStore.refl _ _⟩
      · next x hx =>
        split at h
        · cases h; exact ⟨fun _ _ => rfl, SameStore.refl _ _⟩
        · next st1 hw =>
          obtain ⟨a1, a2, _⟩ := writeItem_spec hw
          obtain ⟨b1, b2⟩ := ih h
          have hn := items_names hl hf x.1 (List.mem_map_of_mem (List.mem_of_getElem? hx))
          exact ⟨fun q hq => (b1 q hq).trans (a1 q hq), (a2.mono (by simpa using hn)).trans b2⟩

theorem updatePart_frame {c : Cfg P V} {f : Callback V (Dict V)} {isLazy : Bool} {p : P}
    {st st' : Store P V} {r : Py Unit} (hf : Returns f names)
    (h : updatePart c f isLazy st p = (st', r)) :
    (∀ q, q ≠ p → st' q = st q) ∧ SameStore names st st' := by
  unfold updatePart at h
  split at h
  · cases h; exact ⟨fun _ _ => rfl, SameStore.refl _ _⟩
  · next l hl =>
    split at h
    · exact writeLazy_frame hf h
    · obtain ⟨h1, h2, _⟩ := writeAll_spec h
      exact ⟨h1, h2.mono (items_names hl hf)⟩

theorem updateParts_frame {c : Cfg P V} {f : Callback V (Dict V)} {isLazy : Bool} {ps : List P}
    {st st' : Store P V} {r : Py Unit} (hf : Returns f names)
    (h : updateParts c f isLazy st ps = (st', r)) :
    (∀ q, q ∉ ps → st' q = st q) ∧ SameStore names st st' := by
  induction ps generalizing st with
  | nil => cases h; exact ⟨fun _ _ => rfl, SameStore.refl _ _⟩
  | cons p t ih =>
    simp only [updateParts] at h
    split at h
    · next st1 e hp =>
      cases h
      obtain ⟨h1, h2⟩ := updatePart_frame hf hp
      exact ⟨fun q hq => h1 q (by simp at hq; exact hq.1), h2⟩
    · next st1 hp =>
      obtain ⟨h1, h2⟩ := updatePart_frame hf hp
      obtain ⟨h3, h4⟩ := ih h
      simp only [List.mem_cons, not_or]
      exact ⟨fun q hq => (h3 q hq.2).trans (h1 q hq.1), h2.trans h4⟩

/-- Every callback only returns variables of some list, as far as one call is concerned. -/
theorem updatePart_other {c : Cfg P V} {f : Callback V (Dict V)} {isLazy : Bool} {p : P}
    {st st' : Store P V} {r : Py Unit} (h : updatePart c f isLazy st p = (st', r)) :
    ∀ q, q ≠ p → st' q = st q := by
  unfold updatePart at h
  split at h
  · cases h; exact fun _ _ => rfl
  · next l hl =>
    split at h
    · have : ∀ (ks : List Nat) (st : Store P V), writeLazy c f p st ks = (st', r) →
          ∀ q, q ≠ p → st' q = st q := by
        intro ks
        induction ks with
        | nil => intro st h; cases h; exact fun _ _ => rfl
        | cons k t ih =>
          intro st h
          simp only [writeLazy] at h
          split at h
          · cases h; exact fun _ _ => rfl
          · split at h
            · cases h; exact fun _ _ => rfl
            · split at h
              · cases h; exact fun _ _ => rfl
              · next st1 hw =>
                intro q hq
                exact (ih st1 h q hq).trans ((writeItem_spec hw).1 q hq)
      exact this _ _ h
    · exact (writeAll_spec h).1

theorem updateParts_other {c : Cfg P V} {f : Callback V (Dict V)} {isLazy : Bool} {ps : List P}
    {st st' : Store P V} {r : Py Unit} (h : updateParts c f isLazy st ps = (st', r)) :
    ∀ q, q ∉ ps → st' q = st q := by
  induction ps generalizing st with
  | nil => cases h; exact fun _ _ => rfl
  | cons p t ih =>
    simp only [updateParts] at h
    split at h
    · next st1 e hp =>
      cases h
      exact fun q hq => updatePart_other hp q (by simp at hq; exact hq.1)
    · next st1 hp =>
      simp only [List.mem_cons, not_or]
      exact fun q hq => (ih h q hq.2).trans (updatePart_other hp q hq.1)

/-- With at most one variable, it does not matter when the array is computed. -/
theorem updatePart_single {c : Cfg P V} {f : Callback V (Dict V)} {p : P} {st : Store P V}
    (h : ∀ zds ind d, f zds ind = .ok d → d.length ≤ 1) :
    updatePart c f true st p = updatePart c f false st p := by
  unfold updatePart
  cases hl : items c f st p with
  | error e => rfl
  | ok l =>
    simp only [if_true, Bool.false_eq_true, if_false]
    obtain ⟨zds, ind, d, h1, h2⟩ := items_call hl
    have hlen : l.length ≤ 1 := by
      have := congrArg List.length h2
      simp only [List.length_map] at this
      have := h _ _ _ h1
      omega
    match l, hlen with
    | [], _ => rfl
    | [x], _ =>
      simp only [List.length_singleton, List.range_one, writeLazy, hl, List.getElem?_cons_zero,
        writeAll]

theorem updateParts_single {c : Cfg P V} {f : Callback V (Dict V)} {ps : List P}
    {st : Store P V} (h : ∀ zds ind d, f zds ind = .ok d → d.length ≤ 1) :
    updateParts c f true st ps = updateParts c f false st ps := by
  induction ps generalizing st with
  | nil => rfl
  | cons p t ih =>
    simp only [updateParts, updatePart_single h]
    split
    · rfl
    · exact ih

/-- The content of a partition after its own update, starting from `st`. -/
def after (c : Cfg P V) (f : Callback V (Dict V)) (st : Store P V) (p : P) :
    Option (List (Var V)) × Py Unit :=
  match items c f st p with
  | .error e => (st p, .error e)
  | .ok l => ((writeAll st p l).1 p, (writeAll st p l).2)

theorem updatePart_after (c : Cfg P V) (f : Callback V (Dict V)) (st : Store P V) (p : P) :
    (updatePart c f false st p).1 p = (after c f st p).1 ∧
      (updatePart c f false st p).2 = (after c f st p).2 := by
  unfold updatePart after
  cases items c f st p <;> simp

theorem after_ok {c : Cfg P V} {f : Callback V (Dict V)} {st : Store P V} {p : P}
    (h : (after c f st p).2 = .ok ()) (hk : Keys f) :
    ∃ l, items c f st p = .ok l ∧ ∀ (st' : Store P V), st' p = (after c f st p).1 →
      ∀ x ∈ l, ∃ a, x.2 = .ok a ∧ stored st' p x.1 = some a := by
  unfold after at h ⊢
  cases hl : items c f st p with
  | error e => simp only [hl] at h; cases h
  | ok l =>
    simp only [hl] at h ⊢
    refine ⟨l, rfl, ?_⟩
    intro st' hst' x hx
    have := (writeAll_spec (st := st) (p := p) (l := l) rfl).2.2 h (items_nodup hl hk) x hx
    simpa only [stored, hst'] using this

/-- The arrays written for `p` are those computed from `st`, in any content `st'` reached
from `st` in which `p` was not processed yet. -/
def Stable (c : Cfg P V) (f : Callback V (Dict V)) (names : List String) (st : Store P V) :
    Prop :=
  ∀ st' p, SameStore names st st' → st' p = st p → items c f st' p = items c f st p

theorem stable_depth {c : Cfg P V} {f : Callback V (Dict V)} (hc : c.depth = 0)
    (st : Store P V) : Stable c f names st :=
  fun _ _ _ h => items_local c hc f _ h

theorem stable_ignores {c : Cfg P V} {f : Callback V (Dict V)} (hf : Ignores f names)
    (st : Store P V) : Stable c f names st :=
  fun _ p h _ => (items_same h c f hf p).symm

theorem after_stable {c : Cfg P V} {f : Callback V (Dict V)} {st st' : Store P V}
    (hs : Stable c f names st) {p : P} (h1 : SameStore names st st') (h2 : st' p = st p) :
    after c f st' p = after c f st p := by
  unfold after
  rw [hs st' p h1 h2, h2]
  cases items c f st p with
  | error e => rfl
  | ok l =>
    simp only [Prod.mk.injEq]
    exact writeAll_local h2

/-- The outcome of the sequential processing. -/
theorem updateParts_after {c : Cfg P V} {f : Callback V (Dict V)} (hf : Returns f names)
    {st0 : Store P V} (hs : Stable c f names st0) {ps : List P} (hnd : ps.Nodup)
    {st st' : Store P V} (h0 : SameStore names st0 st) (hp0 : ∀ p ∈ ps, st p = st0 p)
    (h : updateParts c f false st ps = (st', .ok ())) :
    ∀ p ∈ ps, st' p = (after c f st0 p).1 ∧ (after c f st0 p).2 = .ok () := by
  induction ps generalizing st with
  | nil => simp
  | cons p t ih =>
    rw [List.nodup_cons] at hnd
    simp only [updateParts] at h
    split at h
    · cases h
    · next st1 hp =>
      have hfr := updatePart_frame hf hp
      obtain ⟨u1, u2⟩ := updatePart_after c f st p
      rw [hp, after_stable hs h0 (hp0 p (by simp))] at u1 u2
      have hih := ih hnd.2 (h0.trans hfr.2) (fun q hq => by
        rw [hfr.1 q (by rintro rfl; exact hnd.1 hq), hp0 q (by simp [hq])]) h
      intro q hq
      rcases List.mem_cons.1 hq with rfl | hq
      · exact ⟨(updateParts_other h q hnd.1).trans u1, u2.symm⟩
      · exact hih q hq

/-! ### The workers -/

/-- Where a partition is, against what its update computes from `st0`. -/
def At (c : Cfg P V) (f : Callback V (Dict V)) (st0 : Store P V) (m : Machine P V) (p : P) :
    Prop :=
  match m.loc p with
  | .idle => m.store p = st0 p
  | .writing l => (writeAll m.store p l).1 p = (after c f st0 p).1 ∧
      (writeAll m.store p l).2 = (after c f st0 p).2 ∧ ∀ n ∈ l.map (·.1), n ∈ names
  | .done => m.store p = (after c f st0 p).1 ∧ (after c f st0 p).2 = .ok ()
  | .failed => m.store p = (after c f st0 p).1 ∧ (after c f st0 p).2 ≠ .ok ()

theorem at_other {c : Cfg P V} {f : Callback V (Dict V)} {st0 : Store P V} {m m' : Machine P V}
    {q : P} (h : At (names := names) c f st0 m q) (h1 : m'.loc q = m.loc q)
    (h2 : m'.store q = m.store q) : At (names := names) c f st0 m' q := by
  unfold At at h ⊢
  rw [h1, h2]
  cases hl : m.loc q with
  | idle => simp only [hl] at h ⊢; exact h
  | writing l =>
    simp only [hl] at h ⊢
    obtain ⟨w1, w2⟩ := writeAll_local (l := l) h2
    rw [w1, w2]
    exact h
  | done => simp only [hl] at h ⊢; exact h
  | failed => simp only [hl] at h ⊢; exact h

theorem step_inv {c : Cfg P V} {f : Callback V (Dict V)} (hf : Returns f names)
    {st0 : Store P V} (hs : Stable c f names st0) {m : Machine P V}
    (h0 : SameStore names st0 m.store) (hat : ∀ q, At (names := names) c f st0 m q) (p : P) :
    SameStore names st0 (m.step c f p).store ∧
      ∀ q, At (names := names) c f st0 (m.step c f p) q := by
  have hp := hat p
  unfold At at hp
  unfold Machine.step
  cases hl : m.loc p with
  | done => exact ⟨h0, hat⟩
  | failed => exact ⟨h0, hat⟩
  | idle =>
    simp only [hl] at hp ⊢
    have hi := hs m.store p h0 hp
    cases hx : items c f m.store p with
    | error e =>
      refine ⟨h0, fun q => ?_⟩
      by_cases hq : q = p
      · subst hq
        simp only [At, if_true, after, ← hi, hx]
        exact ⟨hp, by simp⟩
      · exact at_other (hat q) (by simp [hq]) rfl
    | ok l =>
      refine ⟨h0, fun q => ?_⟩
      by_cases hq : q = p
      · subst hq
        simp only [At, if_true, after, ← hi, hx]
        obtain ⟨w1, w2⟩ := writeAll_local (l := l) hp
        exact ⟨w1, w2, items_names hx hf⟩
      · exact at_other (hat q) (by simp [hq]) rfl
  | writing l =>
    simp only [hl] at hp ⊢
    obtain ⟨p1, p2, p3⟩ := hp
    cases l with
    | nil =>
      refine ⟨h0, fun q => ?_⟩
      by_cases hq : q = p
      · subst hq
        simp only [At, if_true]
        exact ⟨p1, p2.symm⟩
      · exact at_other (hat q) (by simp [hq]) rfl
    | cons x t =>
      simp only [writeAll] at p1 p2
      simp only
      cases hw : writeItem m.store p x with
      | error e =>
        rw [hw] at p1 p2
        refine ⟨h0, fun q => ?_⟩
        by_cases hq : q = p
        · subst hq
          simp only [At, if_true]
          exact ⟨p1, by rw [← p2]; simp⟩
        · exact at_other (hat q) (by simp [hq]) rfl
      | ok st1 =>
        rw [hw] at p1 p2
        obtain ⟨w1, w2, _⟩ := writeItem_spec hw
        refine ⟨h0.trans (w2.mono (by simpa using p3 x.1 (by simp))), fun q => ?_⟩
        by_cases hq : q = p
        · subst hq
          simp only [At, if_true]
          exact ⟨p1, p2, fun n hn => p3 n (by simp at hn ⊢; exact .inr hn)⟩
        · exact at_other (hat q) (by simp [hq]) (w1 q hq)

theorem run_inv {c : Cfg P V} {f : Callback V (Dict V)} (hf : Returns f names)
    {st0 : Store P V} (hs : Stable c f names st0) (sched : List P) {m : Machine P V}
    (h0 : SameStore names st0 m.store) (hat : ∀ q, At (names := names) c f st0 m q) :
    SameStore names st0 (m.run c f sched).store ∧
      ∀ q, At (names := names) c f st0 (m.run c f sched) q := by
  induction sched generalizing m with
  | nil => exact ⟨h0, hat⟩
  | cons p t ih =>
    obtain ⟨h1, h2⟩ := step_inv hf hs h0 hat p
    exact ih h1 h2

theorem step_frame {c : Cfg P V} {f : Callback V (Dict V)} (hf : Returns f names)
    (m : Machine P V) (p : P)
    (hl : ∀ q l, m.loc q = .writing l → ∀ n ∈ l.map (·.1), n ∈ names) :
    SameStore names m.store (m.step c f p).store ∧
    (∀ q, q ≠ p → (m.step c f p).store q = m.store q) ∧
    ∀ q l, (m.step c f p).loc q = .writing l → ∀ n ∈ l.map (·.1), n ∈ names := by
  unfold Machine.step
  cases hp : m.loc p with
  | done => exact ⟨SameStore.refl _ _, fun _ _ => rfl, hl⟩
  | failed => exact ⟨SameStore.refl _ _, fun _ _ => rfl, hl⟩
  | idle =>
    simp only
    cases hx : items c f m.store p with
    | error e =>
      refine ⟨SameStore.refl _ _, fun _ _ => rfl, fun q l h => ?_⟩
      simp only at h
      split at h
      · cases h
      · exact hl q l h
    | ok l =>
      refine ⟨SameStore.refl _ _, fun _ _ => rfl, fun q l' h => ?_⟩
      simp only at h
      split at h
      · cases h; exact items_names hx hf
      · exact hl q l' h
  | writing l =>
    cases l with
    | nil =>
      refine ⟨SameStore.refl _ _, fun _ _ => rfl, fun q l h => ?_⟩
      simp only at h
      split at h
      · cases h
      · exact hl q l h
    | cons x t =>
      simp only
      have hn := hl p _ hp
      cases hw : writeItem m.store p x with
      | error e =>
        refine ⟨SameStore.refl _ _, fun _ _ => rfl, fun q l h => ?_⟩
        simp only at h
        split at h
        · cases h
        · exact hl q l h
      | ok st1 =>
        obtain ⟨w1, w2, _⟩ := writeItem_spec hw
        refine ⟨w2.mono (by simpa using hn x.1 (by simp)), w1, fun q l h => ?_⟩
        simp only at h
        split at h
        · cases h; exact fun n hn' => hn n (by simp at hn' ⊢; exact .inr hn')
        · exact hl q l h

theorem run_frame {c : Cfg P V} {f : Callback V (Dict V)} (hf : Returns f names)
    (sched : List P) (m : Machine P V)
    (hl : ∀ q l, m.loc q = .writing l → ∀ n ∈ l.map (·.1), n ∈ names) :
    SameStore names m.store (m.run c f sched).store ∧
    ∀ q, q ∉ sched → (m.run c f sched).store q = m.store q := by
  induction sched generalizing m with
  | nil => exact ⟨SameStore.refl _ _, fun _ _ => rfl⟩
  | cons p t ih =>
    obtain ⟨h1, h2, h3⟩ := step_frame hf m p hl
    obtain ⟨h4, h5⟩ := ih _ h3
    refine ⟨h1.trans h4, fun q hq => ?_⟩
    simp only [List.mem_cons, not_or] at hq
    exact (h5 q hq.2).trans (h2 q hq.1)

end Verif

namespace Verif

open Spec Nd Ds Upd

variable {P V : Type} [DecidableEq P] {names : List String}

/-- The number of actions left for a partition. -/
def left (c : Cfg P V) (f : Callback V (Dict V)) (st0 : Store P V) (p : P) : Local V → Nat
  | .idle => match items c f st0 p with
    | .error _ => 1
    | .ok l => l.length + 2
  | .writing l => l.length + 1
  | .done => 0
  | .failed => 0

theorem step_left {c : Cfg P V} {f : Callback V (Dict V)} {st0 : Store P V}
    (hs : Stable c f names st0) {m : Machine P V}
    (h0 : SameStore names st0 m.store) (hat : ∀ q, At (names := names) c f st0 m q) (p q : P) :
    left c f st0 q ((m.step c f p).loc q) ≤
      left c f st0 q (m.loc q) - (if p = q then 1 else 0) := by
  have hother : p ≠ q → (m.step c f p).loc q = m.loc q := by
    intro h
    have h : ¬ q = p := fun hc => h hc.symm
    unfold Machine.step
    cases m.loc p with
    | done => rfl
    | failed => rfl
    | idle => simp only; cases items c f m.store p <;> simp [h]
    | writing l =>
      cases l with
      | nil => simp [h]
      | cons x t => simp only; cases writeItem m.store p x <;> simp [h]
  by_cases hpq : p = q
  · subst hpq
    have hp := hat p
    unfold At at hp
    unfold Machine.step
    rw [if_pos rfl]
    cases hl : m.loc p with
    | done => simp [left, hl]
    | failed => simp [left, hl]
    | idle =>
      simp only [hl] at hp ⊢
      have hi := hs m.store p h0 hp
      cases hx : items c f m.store p with
      | error e => simp [left]
      | ok l => rw [hi] at hx; simp [left, hx]
    | writing l =>
      cases l with
      | nil => simp [left]
      | cons x t => simp only; cases writeItem m.store p x <;> simp [left]
  · rw [hother hpq, if_neg hpq]
    omega

theorem run_left {c : Cfg P V} {f : Callback V (Dict V)} (hf : Returns f names)
    {st0 : Store P V} (hs : Stable c f names st0) (sched : List P) {m : Machine P V}
    (h0 : SameStore names st0 m.store) (hat : ∀ q, At (names := names) c f st0 m q) (q : P) :
    left c f st0 q ((m.run c f sched).loc q) ≤ left c f st0 q (m.loc q) - sched.count q := by
  induction sched generalizing m with
  | nil => simp [Machine.run]
  | cons p t ih =>
    obtain ⟨h1, h2⟩ := step_inv hf hs h0 hat p
    have hst := step_left hs h0 hat p q
    have := ih h1 h2
    simp only [Machine.run, List.foldl_cons] at this ⊢
    rw [List.count_cons]
    by_cases hpq : p = q
    · simp only [hpq, if_true, beq_self_eq_true] at hst this ⊢
      omega
    · have hb : (p == q) = false := by simpa using hpq
      simp only [hpq, hb, if_false, Bool.false_eq_true] at hst ⊢
      omega

end Verif
