import Verif.Spec.Lock

/-! C50: mutual exclusion of the transactions. -/

namespace Verif

open Lock

variable {P : Type} [DecidableEq P]

open Spec

theorem run_induct (Q : State P → Prop) (ok : Event P → Prop)
    (hstep : ∀ s e s', ok e → Q s → step s e = some s' → Q s') (s s' : State P)
    (es : List (Event P)) (hok : ∀ e ∈ es, ok e) (h0 : Q s) (h : run s es = some s') : Q s' := by
  induction es generalizing s with
  | nil => simp only [run] at h; cases h; exact h0
  | cons e t ih =>
    simp only [run] at h
    split at h
    · cases h
    · next s1 h1 =>
      exact ih s1 (fun e he => hok e (List.mem_cons_of_mem _ he))
        (hstep s e s1 (hok e (List.mem_cons_self ..)) h0 h1) h

theorem proc_setProc (s : State P) (p q : P) (x : Proc) :
    (setProc s p x).proc q = if q = p then x else s.proc q := rfl

/-- The owner of the lock is the process in the block. -/
theorem owner_step (s s' : State P) (e : Event P) (hQ : ∀ p, s.owner = some p ↔ Holds s p)
    (h : step s e = some s') : ∀ p, s'.owner = some p ↔ Holds s' p := by
  intro q
  have hq := hQ q
  unfold Holds at *
  cases e with
  | begin p eager n =>
    simp only [step] at h
    split at h
    · next hc =>
      cases h
      rw [proc_setProc]
      show s.owner = some q ↔ _
      by_cases hqp : q = p
      · subst hqp
        rw [if_pos rfl, hq, hc.1]
        simp
      · rw [if_neg hqp]; exact hq
    · cases h
  | acquire p =>
    simp only [step] at h
    split at h
    · next hc =>
      cases h
      show some p = some q ↔ ((setProc s p _).proc q).phase = _
      rw [proc_setProc]
      by_cases hqp : q = p
      · subst hqp; simp
      · rw [if_neg hqp, ← hq, hc.2]
        simp [Ne.symm hqp]
    · cases h
  | start p =>
    simp only [step] at h
    split at h
    · cases h
      rw [proc_setProc]
      show s.owner = some q ↔ _
      by_cases hqp : q = p
      · subst hqp; rw [if_pos rfl]; exact hq
      · rw [if_neg hqp]; exact hq
    · cases h
  | finish p ok =>
    simp only [step] at h
    split at h
    · cases h
      rw [proc_setProc]
      show s.owner = some q ↔ _
      by_cases hqp : q = p
      · subst hqp; rw [if_pos rfl]; exact hq
      · rw [if_neg hqp]; exact hq
    · cases h
  | leave p =>
    simp only [step] at h
    split at h
    · next hc =>
      cases h
      show none = some q ↔ ((setProc s p _).proc q).phase = _
      rw [proc_setProc]
      by_cases hqp : q = p
      · subst hqp; simp
      · rw [if_neg hqp, ← hq, (hQ p).2 hc.1]
        simp [Ne.symm hqp]
    · cases h
  | interrupt p =>
    simp only [step] at h
    split at h
    · next hc =>
      cases h
      show none = some q ↔ ((setProc s p _).proc q).phase = _
      rw [proc_setProc]
      by_cases hqp : q = p
      · subst hqp; simp
      · rw [if_neg hqp, ← hq, (hQ p).2 hc]
        simp [Ne.symm hqp]
    · cases h
  | finished p =>
    simp only [step] at h
    split at h
    · next hc =>
      cases h
      rw [proc_setProc]
      show s.owner = some q ↔ _
      by_cases hqp : q = p
      · subst hqp
        rw [if_pos rfl, hq, hc.1]
        simp
      · rw [if_neg hqp]; exact hq
    · cases h

/-- Whatever happens, two processes are not both in the block of the lock, and a process that is
not in the block does not hold the lock: it is released on every path. -/
theorem C50_lock (es : List (Event P)) (s : State P) (h : run (initial P) es = some s) :
    (∀ p q, Holds s p → Holds s q → p = q) ∧ ∀ p, s.owner = some p ↔ Holds s p := by
  have hown := run_induct (fun s => ∀ p, s.owner = some p ↔ Holds s p) (fun _ => True)
    (fun s e s' _ hQ hs => owner_step s s' e hQ hs) (initial P) s es (fun _ _ => trivial)
    (by intro p; simp [initial, Holds]) h
  refine ⟨?_, hown⟩
  intro p q hp hq
  have h1 := (hown p).2 hp
  rw [(hown q).2 hq] at h1
  cases h1
  rfl

/-- A process in the block can always leave it, by the end of its tasks: the lock is not held for
ever. -/
theorem C50_can_leave (s : State P) (p : P) (hp : Holds s p) :
    ∃ es s', run s es = some s' ∧ s'.owner = none ∧ ∀ q, q ≠ p → s'.proc q = s.proc q := by
  have key : ∀ k s, (s.proc p).pending * 2 + (s.proc p).running = k → Holds s p →
      ∃ es s', run s es = some s' ∧ s'.owner = none ∧ ∀ q, q ≠ p → s'.proc q = s.proc q := by
    intro k
    induction k using Nat.strongRecOn with
    | _ k ih =>
      intro s hk hin
      by_cases hr : 0 < (s.proc p).running
      · have h1 : step s (.finish p true) = some (setProc s p { s.proc p with
            running := (s.proc p).running - 1, failed := (s.proc p).failed || !true }) := by
          simp only [step, hr, if_true]
        obtain ⟨es, s', g1, g2, g3⟩ := ih ((s.proc p).pending * 2 + ((s.proc p).running - 1))
          (by omega) (setProc s p { s.proc p with
            running := (s.proc p).running - 1, failed := (s.proc p).failed || !true })
          (by rw [proc_setProc, if_pos rfl]) (by unfold Holds; rw [proc_setProc, if_pos rfl]; exact hin)
        refine ⟨.finish p true :: es, s', by simp only [run, h1, g1], g2, ?_⟩
        intro q hq
        rw [g3 q hq, proc_setProc, if_neg hq]
      · by_cases hpend : 0 < (s.proc p).pending
        · have h1 : step s (.start p) = some (setProc s p { s.proc p with
              pending := (s.proc p).pending - 1, running := (s.proc p).running + 1 }) := by
            unfold Holds at hin
            simp only [step, hpend, hin, true_or, and_self, if_true]
          obtain ⟨es, s', g1, g2, g3⟩ := ih
            (((s.proc p).pending - 1) * 2 + ((s.proc p).running + 1)) (by omega)
            (setProc s p { s.proc p with
              pending := (s.proc p).pending - 1, running := (s.proc p).running + 1 })
            (by rw [proc_setProc, if_pos rfl])
            (by unfold Holds; rw [proc_setProc, if_pos rfl]; exact hin)
          refine ⟨.start p :: es, s', by simp only [run, h1, g1], g2, ?_⟩
          intro q hq
          rw [g3 q hq, proc_setProc, if_neg hq]
        · refine ⟨[.leave p], { setProc s p { s.proc p with phase := .left } with owner := none },
            ?_, rfl, ?_⟩
          · have : (s.proc p).phase = .inside ∧ ((s.proc p).failed = true ∨
                (s.proc p).pending = 0 ∧ (s.proc p).running = 0) :=
              ⟨hin, .inr ⟨by omega, by omega⟩⟩
            simp only [run, step, this, and_self, if_true]
          · intro q hq
            show (setProc s p _).proc q = _
            rw [proc_setProc, if_neg hq]
  exact key _ s rfl hp

/-- The statement: two processes do not write at the same time. -/
def C50_full : Prop :=
  ∀ (es : List (Event Bool)) (s : State Bool), run (initial Bool) es = some s →
    ∀ p q, Writes s p → Writes s q → p = q

/-- Two processes do not write at the same time.  Partial: the tasks are given to the cluster as
delayed tasks, as the insertions do, no task raises and the transactions are not interrupted. -/
theorem C50_exclusion_partial (es : List (Event P)) (s : State P)
    (hok : ∀ e ∈ es, match e with
      | .begin _ eager _ => eager = false
      | .finish _ ok => ok = true
      | .interrupt _ => False
      | _ => True)
    (h : run (initial P) es = some s) :
    (∀ p, Writes s p → Holds s p) ∧ ∀ p q, Writes s p → Writes s q → p = q := by
  have hinv := run_induct (fun s : State P => ∀ p, (s.proc p).eager = false ∧
      (s.proc p).failed = false ∧ ((s.proc p).phase = .waiting → (s.proc p).running = 0) ∧
      ((s.proc p).phase = .idle → (s.proc p).running = 0) ∧
      ((s.proc p).phase = .left → (s.proc p).running = 0 ∧ (s.proc p).pending = 0))
    (fun e => match e with
      | .begin _ eager _ => eager = false
      | .finish _ ok => ok = true
      | .interrupt _ => False
      | _ => True) (by
    intro s e s' he hQ hs q
    have hq := hQ q
    cases e with
    | begin p eager n =>
      simp only [step] at hs
      split at hs
      · cases hs
        rw [proc_setProc]
        by_cases hqp : q = p
        · rw [if_pos hqp]; simpa using he
        · rw [if_neg hqp]; exact hq
      · cases hs
    | acquire p =>
      simp only [step] at hs
      split at hs
      · cases hs
        show ((setProc s p _).proc q).eager = _ ∧ _
        rw [proc_setProc]
        by_cases hqp : q = p
        · rw [if_pos hqp]; subst hqp
          exact ⟨hq.1, hq.2.1, by simp, by simp, by simp⟩
        · rw [if_neg hqp]; exact hq
      · cases hs
    | start p =>
      simp only [step] at hs
      split at hs
      · next hc =>
        cases hs
        rw [proc_setProc]
        by_cases hqp : q = p
        · rw [if_pos hqp]; subst hqp
          have hin : (s.proc q).phase = .inside := by
            rcases hc.2 with h | h | h
            · exact h
            · have := (hq.2.2.2.2 h).2
              omega
            · rw [hq.1] at h; cases h.2
          simp only [hin]
          exact ⟨hq.1, hq.2.1, by simp, by simp, by simp⟩
        · rw [if_neg hqp]; exact hq
      · cases hs
    | finish p ok =>
      simp only [step] at hs
      split at hs
      · next hc =>
        cases hs
        rw [proc_setProc]
        by_cases hqp : q = p
        · rw [if_pos hqp]; subst hqp
          simp only at he
          refine ⟨hq.1, by simp [hq.2.1, he], ?_, ?_, ?_⟩
          · intro h; have := hq.2.2.1 h; simp only; omega
          · intro h; have := hq.2.2.2.1 h; simp only; omega
          · intro h; have := hq.2.2.2.2 h; simp only; omega
        · rw [if_neg hqp]; exact hq
      · cases hs
    | leave p =>
      simp only [step] at hs
      split at hs
      · next hc =>
        cases hs
        show ((setProc s p _).proc q).eager = _ ∧ _
        rw [proc_setProc]
        by_cases hqp : q = p
        · rw [if_pos hqp]; subst hqp
          rw [hq.2.1] at hc
          rcases hc.2 with h | h
          · cases h
          · exact ⟨hq.1, hq.2.1, by simp, by simp, fun _ => ⟨h.2, h.1⟩⟩
        · rw [if_neg hqp]; exact hq
      · cases hs
    | interrupt p => exact absurd he id
    | finished p =>
      simp only [step] at hs
      split at hs
      · cases hs
        rw [proc_setProc]
        by_cases hqp : q = p
        · rw [if_pos hqp]; simp
        · rw [if_neg hqp]; exact hq
      · cases hs) (initial P) s es hok (by intro p; simp [initial]) h
  have hw : ∀ p, Writes s p → Holds s p := by
    intro p hp
    unfold Writes at hp
    obtain ⟨_, _, h1, h2, h3⟩ := hinv p
    unfold Holds
    cases hph : (s.proc p).phase with
    | inside => rfl
    | waiting => have := h1 hph; omega
    | idle => have := h2 hph; omega
    | left => have := (h3 hph).1; omega
  exact ⟨hw, fun p q hp hq => (C50_lock es s h).1 p q (hw p hp) (hw q hq)⟩

/-- The tasks given by `Client.map` (all the methods but the insertion) are executed before the
lock is taken: two processes write at the same time. -/
theorem C50_counterexample : ¬ C50_full := by
  intro h
  have := h [.begin true false 1, .acquire true, .start true, .begin false true 1, .start false] _ rfl
    true false (by decide) (by decide)
  cases this

/-- A task that raises: the lock is released while the other tasks of the transaction are executed,
even when all the tasks are delayed. -/
theorem C50_counterexample_failure : ∃ (es : List (Event Bool)) (s : State Bool),
    (∀ p eager n, .begin p eager n ∈ es → eager = false) ∧ run (initial Bool) es = some s ∧
    Writes s true ∧ Writes s false :=
  ⟨[.begin true false 2, .acquire true, .start true, .start true, .finish true false, .leave true,
    .begin false false 1, .acquire false, .start false], _, by
      intro p eager n hm
      simp only [List.mem_cons, List.not_mem_nil, or_false, reduceCtorEq, false_or,
        Event.begin.injEq] at hm
      rcases hm with h | h
      · exact h.2.1
      · exact h.2.1, rfl, by decide, by decide⟩

/-- `is_locked` is true as soon as a lock has been taken, also when nobody holds it. -/
theorem C50_is_locked (es : List (Event P)) (s s' : State P) (h : run s es = some s')
    (hl : isLocked s = true) : isLocked s' = true := by
  refine run_induct (fun s => isLocked s = true) (fun _ => True) ?_ s s' es (fun _ _ => trivial) hl h
  intro s e s' _ hQ hs
  unfold isLocked at *
  cases e <;> simp only [step] at hs <;> split at hs <;> first | (cases hs; done) | (cases hs; exact hQ) | (cases hs; rfl)

example : ∃ s : State Bool, run (initial Bool)
    [.begin true false 1, .acquire true, .start true, .finish true true, .leave true, .finished true] =
      some s ∧ s.owner = none ∧ isLocked s = true := ⟨_, rfl, rfl, rfl⟩

/-- The hypotheses of `C50_exclusion_partial` are met by two processes that take the lock in
turn. -/
example : ∃ s : State Bool, run (initial Bool)
    [.begin true false 2, .acquire true, .start true, .begin false false 1, .finish true true,
     .start true, .finish true true, .leave true, .acquire false, .start false] = some s ∧
    Writes s false ∧ ¬ Writes s true := ⟨_, rfl, by decide, by decide⟩

end Verif
