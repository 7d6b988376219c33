import Verif.Lemmas.Storage
import Verif.Spec.Workers

/-! Lemmas on the parallel execution of programs confined to regions of the file system. -/

namespace Verif

open Spec Storage Work

variable {C R : Type}

theorem inRegion_trans {r : List Path} {p q : Path} (h : InRegion r p) (hpq : p <+: q) :
    InRegion r q := by
  obtain ⟨d, hd, hp⟩ := h
  exact ⟨d, hd, hp.trans hpq⟩

theorem rename_agree {r : List Path} {s d : Path} {a b : FS C} (hs : InRegion r s)
    (h : Agree r a b) : Agree r (rename s d a) (rename s d b) := by
  intro q hq
  unfold rename
  split
  · exact h _ (inRegion_trans hs (List.prefix_append _ _))
  · split
    · rfl
    · exact h q hq

theorem apply_agree {r : List Path} {s : Step C} {a b : FS C} (hw : Within r s)
    (h : Agree r a b) : Agree r (apply a s) (apply b s) := by
  cases s with
  | mkdirs p => intro q hq; simp only [apply, h q hq]
  | write p c => intro q hq; simp only [apply, h q hq]
  | remove p => intro q hq; simp only [apply, h q hq]
  | move s d =>
    simp only [apply]
    rw [h d hw.2]
    split
    · split
      · exact rename_agree hw.1 h
      · exact h
    · exact rename_agree hw.1 h

theorem run_agree {r : List Path} (steps : List (Step C)) (hw : ∀ s ∈ steps, Within r s)
    {a b : FS C} (h : Agree r a b) : Agree r (run a steps) (run b steps) := by
  induction steps generalizing a b with
  | nil => exact h
  | cons s t ih =>
    exact ih (fun x hx => hw x (by simp [hx])) (apply_agree (hw s (by simp)) h)

theorem rename_other {r : List Path} {s d q : Path} (hs : InRegion r s) (hd : InRegion r d)
    (hq : ¬ InRegion r q) (a : FS C) : rename s d a q = a q := by
  unfold rename
  rw [if_neg fun h => hq (inRegion_trans hd h), if_neg fun h => hq (inRegion_trans hs h)]

/-- Outside its region a step only creates directories. -/
theorem apply_other {r : List Path} {s : Step C} (hw : Within r s) (a : FS C) {q : Path}
    (hq : ¬ InRegion r q) :
    apply a s q = a q ∨ (a q = none ∧ apply a s q = some .dir ∧ ∃ p, s = .mkdirs p ∧ q <+: p) := by
  cases s with
  | mkdirs p =>
    simp only [apply]
    split
    · rename_i h
      right
      exact ⟨by simpa using h.2, rfl, p, rfl, h.1⟩
    · left; rfl
  | write p c =>
    left
    have : q ≠ p := by rintro rfl; exact hq hw
    simp [apply, this]
  | remove p =>
    left
    have : q ≠ p := by rintro rfl; exact hq hw
    simp [apply, this]
  | move s d =>
    left
    have h1 : rename s d a q = a q := rename_other hw.1 hw.2 hq a
    have h2 : ∀ n, rename s (d ++ [n]) a q = a q := fun n =>
      rename_other hw.1 (inRegion_trans hw.2 (List.prefix_append _ _)) hq a
    have h3 : apply a (.move s d) = rename s d a ∨
        (∃ n, apply a (.move s d) = rename s (d ++ [n]) a) ∨ apply a (.move s d) = a := by
      simp only [apply]
      split
      · split
        · exact .inr (.inl ⟨_, rfl⟩)
        · exact .inr (.inr rfl)
      · exact .inl rfl
    rcases h3 with h | ⟨n, h⟩ | h
    · rw [h, h1]
    · rw [h, h2 n]
    · rw [h]

theorem apart_out {a b : List Path} (h : ApartDirs a b) {q : Path} (hq : InRegion b q) :
    ¬ InRegion a q := by
  rintro ⟨x, hx, hxq⟩
  obtain ⟨y, hy, hyq⟩ := hq
  rcases prefix_cases hxq hyq with k | k
  · exact (h x hx y hy).1 k
  · exact (h x hx y hy).2 k

/-- A step of a worker changes nothing in the region of another one. -/
theorem apply_apart {a b : List Path} (h : ApartDirs a b) {s : Step C} (hw : Within a s) (fs : FS C) :
    Agree b (apply fs s) fs := by
  intro q hq
  rcases apply_other hw fs (apart_out h hq) with k | ⟨_, _, p, rfl, hp⟩
  · exact k
  · exact absurd (inRegion_trans hq hp) fun hc => apart_out h hc hw

theorem agree_trans {r : List Path} {a b c : FS C} (h : Agree r a b) (k : Agree r b c) :
    Agree r a c := fun q hq => (h q hq).trans (k q hq)

theorem agree_symm {r : List Path} {a b : FS C} (h : Agree r a b) : Agree r b a :=
  fun q hq => (h q hq).symm

/-- The state after some turns: `count` gives the number of turns of each worker. -/
structure Reached (programs : List (Program C)) (regions : List (List Path)) (fs : FS C)
    (count : Nat → Nat) (st : State C) : Prop where
  length : st.workers.length = programs.length
  status : ∀ (i : Nat) f, programs[i]? = some f → st.workers[i]? =
    some (if count i = 0 then .waiting else .running ((f fs).drop (count i - 1)))
  agree : ∀ (i : Nat) f r, programs[i]? = some f → regions[i]? = some r →
    Agree r st.fs (run fs ((f fs).take (count i - 1)))
  outside : ∀ q, (∀ r ∈ regions, ¬ InRegion r q) → st.fs q = fs q ∨
    (fs q = none ∧ st.fs q = some .dir ∧ ∃ (i : Nat) (f : Program C) (p : Path),
      programs[i]? = some f ∧ .mkdirs p ∈ (f fs).take (count i - 1) ∧ q <+: p)
  made : ∀ q, (∀ r ∈ regions, ¬ InRegion r q) → ∀ (i : Nat) (f : Program C) (p : Path),
    programs[i]? = some f → .mkdirs p ∈ (f fs).take (count i - 1) → q <+: p →
    (st.fs q).isSome

theorem reached_start (programs : List (Program C)) (regions : List (List Path)) (fs : FS C) :
    Reached programs regions fs (fun _ => 0) (start programs fs) where
  length := by simp [start]
  status := by intro i f hf; simp [start, hf]
  agree := by intro i f r _ _; simp [start, run]; exact fun _ _ => rfl
  outside := by intro q _; exact .inl rfl
  made := by intro q _ i f p _ hp; simp at hp

theorem take_succ_step {l : List (Step C)} {n : Nat} {s : Step C} {t : List (Step C)}
    (h : l.drop n = s :: t) : l.take (n + 1) = l.take n ++ [s] ∧ l.drop (n + 1) = t := by
  have hlt : n < l.length := by
    apply Classical.byContradiction
    intro hc
    rw [List.drop_eq_nil_of_le (by omega)] at h
    exact absurd h (by simp)
  rw [List.drop_eq_getElem_cons hlt] at h
  injection h with h1 h2
  exact ⟨by rw [List.take_succ_eq_append_getElem hlt, h1], h2⟩

theorem reached_turn {programs : List (Program C)} {regions : List (List Path)} {fs : FS C}
    (hsep : Separated programs regions fs) {count : Nat → Nat} {st : State C}
    (h : Reached programs regions fs count st) (i : Nat) :
    Reached programs regions fs (fun j => if j = i then count j + 1 else count j)
      (turn programs st i) := by
  by_cases hi : i < programs.length
  · obtain ⟨f, hf⟩ : ∃ f, programs[i]? = some f := ⟨programs[i], List.getElem?_eq_getElem hi⟩
    obtain ⟨r, hr⟩ : ∃ r, regions[i]? = some r :=
      ⟨regions[i]'(hsep.length ▸ hi), List.getElem?_eq_getElem _⟩
    have hconf := hsep.confined i f r hf hr
    have hlen : i < st.workers.length := h.length ▸ hi
    by_cases h0 : count i = 0
    · have hst := h.status i f hf
      rw [if_pos h0] at hst
      have hread : f st.fs = f fs := hconf.reads _ (by
        have := h.agree i f r hf hr
        simpa [h0, run] using this)
      have hturn : turn programs st i =
          { st with workers := st.workers.set i (.running (f fs)) } := by
        simp [turn, hst, hf, hread]
      rw [hturn]
      have hc : ∀ j, ((if j = i then count j + 1 else count j) - 1) = count j - 1 := by
        intro j; split
        · rename_i hj; subst hj; omega
        · rfl
      refine ⟨by simpa using h.length, ?_, ?_, ?_, ?_⟩
      · intro j g hg
        by_cases hj : j = i
        · subst hj
          have hfg : f = g := by rw [hf] at hg; exact Option.some.inj hg
          subst hfg
          simp [hlen, h0]
        · simp only [if_neg hj]
          rw [List.getElem?_set_ne (fun hc => hj hc.symm)]
          exact h.status j g hg
      · intro j g s hg hs
        simp only [hc]
        exact h.agree j g s hg hs
      · intro q hq
        simp only [hc]
        exact h.outside q hq
      · intro q hq j g p hg hp hqp
        simp only [hc] at hp
        exact h.made q hq j g p hg hp hqp
    · have hst := h.status i f hf
      rw [if_neg h0] at hst
      have hci : count i + 1 - 1 = (count i - 1) + 1 := by omega
      match hd : (f fs).drop (count i - 1) with
      | [] =>
        have hturn : turn programs st i = st := by simp [turn, hst, hd]
        rw [hturn]
        have hle : (f fs).length ≤ count i - 1 := by simpa using hd
        have htake : ∀ (j : Nat) (g : Program C), programs[j]? = some g →
            (g fs).take ((if j = i then count j + 1 else count j) - 1) =
              (g fs).take (count j - 1) := by
          intro j g hg
          by_cases hj : j = i
          · subst hj
            have hfg : f = g := by rw [hf] at hg; exact Option.some.inj hg
            subst hfg
            rw [if_pos rfl, List.take_of_length_le (by omega), List.take_of_length_le hle]
          · rw [if_neg hj]
        refine ⟨h.length, ?_, ?_, ?_, ?_⟩
        · intro j g hg
          by_cases hj : j = i
          · subst hj
            have hfg : f = g := by rw [hf] at hg; exact Option.some.inj hg
            subst hfg
            rw [hst, hd]
            simp only [if_pos, Nat.add_eq_zero_iff, Nat.one_ne_zero, and_false, if_false]
            rw [List.drop_eq_nil_of_le (by omega)]
          · simp only [if_neg hj]; exact h.status j g hg
        · intro j g s hg hs
          rw [htake j g hg]; exact h.agree j g s hg hs
        · intro q hq
          rcases h.outside q hq with k | ⟨k1, k2, j, g, p, hg, hp, hqp⟩
          · exact .inl k
          · exact .inr ⟨k1, k2, j, g, p, hg, by rw [htake j g hg]; exact hp, hqp⟩
        · intro q hq j g p hg hp hqp
          rw [htake j g hg] at hp
          exact h.made q hq j g p hg hp hqp
      | s :: t =>
        have hturn : turn programs st i =
            { fs := apply st.fs s, workers := st.workers.set i (.running t) } := by
          simp [turn, hst, hd]
        rw [hturn]
        obtain ⟨htk, hdr⟩ := take_succ_step hd
        have hs : s ∈ f fs := List.mem_of_mem_drop (by rw [hd]; simp)
        have hw := hconf.within s hs
        refine ⟨by simpa using h.length, ?_, ?_, ?_, ?_⟩
        · intro j g hg
          by_cases hj : j = i
          · subst hj
            have hfg : f = g := by rw [hf] at hg; exact Option.some.inj hg
            subst hfg
            simp only [if_pos, Nat.add_eq_zero_iff, Nat.one_ne_zero, and_false, if_false]
            rw [hci, hdr]
            simp [hlen]
          · simp only [if_neg hj]
            rw [List.getElem?_set_ne (fun hc => hj hc.symm)]
            exact h.status j g hg
        · intro j g b hg hb
          by_cases hj : j = i
          · subst hj
            have hfg : f = g := by rw [hf] at hg; exact Option.some.inj hg
            subst hfg
            have hrb : r = b := by rw [hr] at hb; exact Option.some.inj hb
            subst hrb
            simp only [if_pos]
            rw [hci, htk, run_append]
            exact apply_agree hw (h.agree j f r hf hr)
          · simp only [if_neg hj]
            exact agree_trans (apply_apart (hsep.apart i j r b (fun hc => hj hc.symm) hr hb) hw _)
              (h.agree j g b hg hb)
        · intro q hq
          have hqr : ¬ InRegion r q := hq r (List.mem_of_getElem? hr)
          rcases apply_other hw st.fs hqr with k | ⟨k1, k2, p, rfl, hqp⟩
          · rcases h.outside q hq with l | ⟨l1, l2, j, g, p, hg, hp, hqp⟩
            · left; rw [← l]; exact k
            · refine .inr ⟨l1, k.trans l2, j, g, p, hg, ?_, hqp⟩
              by_cases hj : j = i
              · subst hj
                have hfg : f = g := by rw [hf] at hg; exact Option.some.inj hg
                subst hfg
                simp only [if_pos]
                rw [hci, htk]
                exact List.mem_append_left _ hp
              · simpa only [if_neg hj] using hp
          · right
            refine ⟨?_, k2, i, f, p, hf, ?_, hqp⟩
            · rcases h.outside q hq with l | ⟨l1, _, _⟩
              · rw [← l]; exact k1
              · exact l1
            · simp only [if_pos]
              rw [hci, htk]
              simp
        · intro q hq j g p hg hp hqp
          have hqr : ¬ InRegion r q := hq r (List.mem_of_getElem? hr)
          have keep : (st.fs q).isSome → (apply st.fs s q).isSome := by
            intro hsome
            rcases apply_other hw st.fs hqr with k | ⟨_, k2, _⟩
            · rw [k]; exact hsome
            · rw [k2]; rfl
          by_cases hj : j = i
          · subst hj
            have hfg : f = g := by rw [hf] at hg; exact Option.some.inj hg
            subst hfg
            simp only [if_pos] at hp
            rw [hci, htk] at hp
            rcases List.mem_append.1 hp with hp | hp
            · exact keep (h.made q hq j f p hf hp hqp)
            · rw [List.mem_singleton] at hp
              subst hp
              simp only [apply]
              split
              · rfl
              · rename_i hn
                cases hsq : st.fs q with
                | none => exact absurd ⟨hqp, by simp [hsq]⟩ hn
                | some x => rfl
          · simp only [if_neg hj] at hp
            exact keep (h.made q hq j g p hg hp hqp)
  · have hn : programs[i]? = none := List.getElem?_eq_none (by omega)
    have hw : st.workers[i]? = none := List.getElem?_eq_none (by rw [h.length]; omega)
    have hturn : turn programs st i = st := by simp [turn, hw]
    have hne : ∀ j g, programs[j]? = some g → j ≠ i := by
      rintro j g hg rfl; rw [hn] at hg; exact absurd hg (by simp)
    rw [hturn]
    refine ⟨h.length, ?_, ?_, ?_, ?_⟩
    · intro j g hg; simp only [if_neg (hne j g hg)]; exact h.status j g hg
    · intro j g s hg hs; simp only [if_neg (hne j g hg)]; exact h.agree j g s hg hs
    · intro q hq
      rcases h.outside q hq with k | ⟨k1, k2, j, g, p, hg, hp, hqp⟩
      · exact .inl k
      · exact .inr ⟨k1, k2, j, g, p, hg, by simp only [if_neg (hne j g hg)]; exact hp, hqp⟩
    · intro q hq j g p hg hp hqp
      simp only [if_neg (hne j g hg)] at hp
      exact h.made q hq j g p hg hp hqp

theorem reached_turns {programs : List (Program C)} {regions : List (List Path)} {fs : FS C}
    (hsep : Separated programs regions fs) (schedule : List Nat) {count : Nat → Nat}
    {st : State C} (h : Reached programs regions fs count st) :
    Reached programs regions fs (fun j => count j + schedule.count j)
      (schedule.foldl (turn programs) st) := by
  induction schedule generalizing count st with
  | nil => simpa using h
  | cons i t ih =>
    have := ih (reached_turn hsep h i)
    rw [List.foldl_cons]
    have he : (fun j => count j + (i :: t).count j) =
        fun j => (if j = i then count j + 1 else count j) + t.count j := by
      funext j
      rw [List.count_cons]
      by_cases hj : j = i
      · subst hj; simp; omega
      · have : (i == j) = false := by simpa using fun hc => hj hc.symm
        simp [hj, this]
    rw [he]; exact this

theorem reached_exec {programs : List (Program C)} {regions : List (List Path)} {fs : FS C}
    (hsep : Separated programs regions fs) (schedule : List Nat) :
    Reached programs regions fs (fun j => schedule.count j) (exec programs fs schedule) := by
  simpa [exec] using reached_turns hsep schedule (reached_start programs regions fs)

theorem finished_count {programs : List (Program C)} {regions : List (List Path)} {fs : FS C}
    {count : Nat → Nat} {st : State C} (h : Reached programs regions fs count st)
    (hfin : finished st) (i : Nat) (f : Program C) (hf : programs[i]? = some f) :
    (f fs).take (count i - 1) = f fs := by
  have hs := h.status i f hf
  have := hfin _ (List.mem_of_getElem? hs)
  split at this
  · exact absurd this (by simp)
  · injection this with this
    exact List.take_of_length_le (by simpa using this)

end Verif
