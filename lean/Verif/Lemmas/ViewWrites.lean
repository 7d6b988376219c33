import Verif.Lemmas.ViewOverlap

/-! Lemmas about the writes of an update of a view that succeeds. -/

namespace Verif.Vw

open Spec Nd Ds Upd

variable {D P V H : Type} [DecidableEq D] [DecidableEq P]

omit [DecidableEq D] [DecidableEq P] in
theorem sameVar_eq {names : List String} {v w : Var V} (h : SameVar names v w)
    (hn : v.name ∉ names) : w = v := by
  obtain ⟨h1, h2, h3, h4, h5, _, h7⟩ := h
  cases v
  cases w
  simp_all

theorem writeItems_ok {e : Env D V H} {p : P} (l : List (String × Py (Arr V)))
    (hn : (l.map (·.1)).Nodup) {fs fs' : Files D P V H}
    (h : writeItems e fs p l = (fs', .ok ())) :
    (∀ n, n ∉ l.map (·.1) → ∀ part', fs' e.base p = some part' →
      ∃ part, fs e.base p = some part ∧ getVar part'.vars n = getVar part.vars n) ∧
    ∀ x ∈ l, ∃ a part', x.2 = .ok a ∧ fs' e.base p = some part' ∧
      (getVar part'.vars x.1).map (·.array) = some a := by
  induction l generalizing fs with
  | nil =>
    cases h
    exact ⟨fun n _ part' hp => ⟨part', hp, rfl⟩, fun x hx => by cases hx⟩
  | cons x t ih =>
    obtain ⟨n, r⟩ := x
    simp only [List.map_cons, List.nodup_cons] at hn
    simp only [writeItems] at h
    split at h
    · cases h
    · next fs1 hw =>
      obtain ⟨i1, i2⟩ := ih hn.2 h
      cases r with
      | error err => simp only [writeOne, bind, Except.bind] at hw; cases hw
      | ok a =>
        obtain ⟨part, vars, w1, w2, rfl⟩ := writeOne_spec hw
        obtain ⟨s1, v, s2, s3, s4⟩ := writeVar_spec w2
        have hput : put fs e.base p (some { part with vars }) e.base p =
            some { part with vars } := by simp [put]
        constructor
        · intro m hm part' hp'
          simp only [List.map_cons, List.mem_cons, not_or] at hm
          obtain ⟨q, q1, q2⟩ := i1 m hm.2 part' hp'
          rw [hput] at q1
          cases q1
          refine ⟨part, w1, q2.trans ?_⟩
          rcases SameVars.getVar s1 m with ⟨g1, g2⟩ | ⟨a1, a2, g1, g2, g3⟩
          · rw [g1, g2]
          · rw [g1, g2, sameVar_eq g3 (by
              rw [(getVar_some _ _ _ g1).2]
              simp [hm.1])]
        · intro y hy
          rcases List.mem_cons.1 hy with rfl | hy
          · cases hfs : fs' e.base p with
            | none =>
              exfalso
              -- the directory of the partition stays
              have hsome : ∀ (l : List (String × Py (Arr V))) (g g' : Files D P V H),
                  writeItems e g p l = (g', .ok ()) → (g e.base p).isSome →
                  (g' e.base p).isSome := by
                intro l
                induction l with
                | nil => intro g g' hg hs; cases hg; exact hs
                | cons z u ihz =>
                  intro g g' hg hs
                  simp only [writeItems] at hg
                  split at hg
                  · cases hg
                  · next g1 hg1 =>
                    refine ihz g1 g' hg ?_
                    obtain ⟨zn, zr⟩ := z
                    cases zr with
                    | error err => simp only [writeOne, bind, Except.bind] at hg1; cases hg1
                    | ok b =>
                      obtain ⟨_, _, _, _, rfl⟩ := writeOne_spec hg1
                      simp [put]
              have := hsome t _ _ h (by rw [hput]; rfl)
              rw [hfs] at this
              cases this
            | some part' =>
              obtain ⟨q, q1, q2⟩ := i1 n hn.1 part' hfs
              rw [hput] at q1
              cases q1
              exact ⟨a, part', rfl, rfl, by simp only [q2, s4]; rfl⟩
          · exact i2 y hy

/-- What is outside the directory of the partition is not changed. -/
theorem updateOne_frame (e : Env D V H) (how : How) (f : Callback V (Dict V))
    (now : Files D P V H → Py (List (Dataset V × P))) (fs : Files D P V H) (p : P) :
    ∀ d q, ¬ (d = e.base ∧ q = p) → (updateOne e how f now fs p).1 d q = fs d q := by
  have hk : Kept e f [p] fun g => ∀ d q, ¬ (d = e.base ∧ q = p) → g d q = fs d q := by
    constructor
    intro g q n a g' hg hq _ hw d r hr
    obtain ⟨part, vars, _, _, rfl⟩ := writeOne_spec hw
    rw [List.mem_singleton.1 hq]
    simp only [put]
    rw [if_neg hr]
    exact hg d r hr
  exact hk.updateOne (List.mem_singleton.2 rfl) how now fs fun _ _ _ => rfl

theorem updateBatch_frame (e : Env D V H) (how : How) (f : Callback V (Dict V))
    (now : Files D P V H → Py (List (Dataset V × P))) (b : List P) (fs : Files D P V H) :
    ∀ d q, ¬ (d = e.base ∧ q ∈ b) → (updateBatch e how f now fs b).1 d q = fs d q := by
  induction b generalizing fs with
  | nil => intro d q _; rfl
  | cons p t ih =>
    intro d q hq
    simp only [List.mem_cons] at hq
    have h1 := updateOne_frame e how f now fs p d q (fun h => hq ⟨h.1, .inl h.2⟩)
    simp only [updateBatch]
    split
    · next h => rw [h] at h1; exact h1
    · next g h =>
      rw [h] at h1
      rw [ih g d q (fun h => hq ⟨h.1, .inr h.2⟩)]
      exact h1

theorem updateBatch_append (e : Env D V H) (how : How) (f : Callback V (Dict V))
    (now : Files D P V H → Py (List (Dataset V × P))) (a b : List P) (fs fs' fs'' : Files D P V H)
    (ha : updateBatch e how f now fs a = (fs', .ok ()))
    (hb : updateBatch e how f now fs' b = (fs'', .ok ())) :
    updateBatch e how f now fs (a ++ b) = (fs'', .ok ()) := by
  induction a generalizing fs with
  | nil => cases ha; exact hb
  | cons p t ih =>
    simp only [updateBatch, List.cons_append] at ha ⊢
    split at ha
    · cases ha
    · next g hg => exact ih g ha

theorem updateBatches_ok (e : Env D V H) (how : How) (f : Callback V (Dict V))
    (now : Files D P V H → Py (List (Dataset V × P))) (bs : List (List P))
    (fs fs' : Files D P V H) (h : updateBatches e how f now fs bs = (fs', .ok ())) :
    updateBatch e how f now fs bs.flatten = (fs', .ok ()) := by
  induction bs generalizing fs with
  | nil => exact h
  | cons b t ih =>
    simp only [updateBatches] at h
    split at h
    · cases h
    · next g hg => exact updateBatch_append e how f now b _ fs g fs' hg (ih g h)

/-- In a batch that succeeds each partition is updated, from a content that differs from the
first one only in partitions before it. -/
theorem updateBatch_each (e : Env D V H) (how : How) (f : Callback V (Dict V))
    (now : Files D P V H → Py (List (Dataset V × P))) (b : List P) (hn : b.Nodup)
    (fs fs' : Files D P V H) (h : updateBatch e how f now fs b = (fs', .ok ())) :
    ∀ p ∈ b, ∃ g g', updateOne e how f now g p = (g', .ok ()) ∧
      (∀ d, g d p = fs d p) ∧ (∀ d q, d ≠ e.base → g d q = fs d q) ∧
      fs' e.base p = g' e.base p := by
  induction b generalizing fs with
  | nil => intro p hp; cases hp
  | cons a t ih =>
    rw [List.nodup_cons] at hn
    simp only [updateBatch] at h
    split at h
    · cases h
    · next g hg =>
      have hfr := updateOne_frame e how f now fs a
      rw [hg] at hfr
      simp only at hfr
      intro p hp
      rcases List.mem_cons.1 hp with rfl | hpt
      · refine ⟨fs, g, hg, fun _ => rfl, fun _ _ _ => rfl, ?_⟩
        have := updateBatch_frame e how f now t g e.base p (fun h => hn.1 h.2)
        rw [h] at this
        exact this
      · obtain ⟨g1, g2, i1, i2, i3, i4⟩ := ih hn.2 g h p hpt
        have hne : p ≠ a := by rintro rfl; exact hn.1 hpt
        refine ⟨g1, g2, i1, fun d => ?_, fun d q hd => ?_, i4⟩
        · rw [i2, hfr d p (fun h => hne h.2)]
        · rw [i3 d q hd, hfr d q (fun h => hd h.1)]

omit [DecidableEq D] in
theorem callItems_keys {e : Env D V H} {how : How} {f : Callback V (Dict V)} (hk : Keys f)
    {dsl : List (Dataset V × P)} {p : P} {l : List (String × Py (Arr V))}
    (h : callItems e how f dsl p = .ok l) : (l.map (·.1)).Nodup := by
  unfold callItems at h
  split at h
  · split at h
    · cases h
    · simp only [bind, Except.bind] at h
      split at h
      · cases h
      · next d hd =>
        cases h
        rw [List.map_map]
        exact hk _ _ _ hd
  · simp only [bind, Except.bind] at h
    split at h
    · cases h
    · split at h
      · cases h
      · next d hd =>
        cases h
        rw [List.map_map]
        exact hk _ _ _ hd

/-- The modes in which the arrays written are those computed from the datasets loaded at the
beginning. -/
def Steady (how : How) (f : Callback V (Dict V)) : Prop :=
  how.delayed = false ∨
    how.depth = 0 ∧ (how.isLazy = false ∨ ∀ zds ind d, f zds ind = .ok d → d.length ≤ 1)

omit [DecidableEq D] in
theorem callItems_length {e : Env D V H} {how : How} {f : Callback V (Dict V)}
    (hf : ∀ zds ind d, f zds ind = .ok d → d.length ≤ 1)
    {dsl : List (Dataset V × P)} {p : P} {l : List (String × Py (Arr V))}
    (h : callItems e how f dsl p = .ok l) : l.length ≤ 1 := by
  unfold callItems at h
  split at h
  · split at h
    · cases h
    · simp only [bind, Except.bind] at h
      split at h
      · cases h
      · next d hd =>
        cases h
        simpa using hf _ _ _ hd
  · simp only [bind, Except.bind] at h
    split at h
    · cases h
    · split at h
      · cases h
      · next d hd =>
        cases h
        simpa using hf _ _ _ hd

omit [DecidableEq D] in
theorem find_mapped {dsl : List (Dataset V × P)} {p : P} {g : Dataset V}
    (hn : (dsl.map (·.2)).Nodup) (h : (g, p) ∈ dsl) :
    dsl.find? (fun x => decide (x.2 = p)) = some (g, p) := by
  induction dsl with
  | nil => cases h
  | cons x t ih =>
    simp only [List.map_cons, List.nodup_cons] at hn
    simp only [List.find?]
    rcases List.mem_cons.1 h with rfl | h
    · simp
    · have : x.2 ≠ p := by
        rintro rfl
        exact hn.1 (List.mem_map.2 ⟨(g, x.2), h, rfl⟩)
      simp only [this, decide_false]
      exact ih hn.2 h

omit [DecidableEq D] [DecidableEq P] in
theorem loadList_snd {e : Env D V H} {del : Bool} {sel : Option (List String)}
    {metas : List (VarMeta V)} {parts : List P} {fs : Files D P V H}
    {dsl : List (Dataset V × P)} (h : loadList e del sel metas parts fs = .ok dsl) :
    dsl.map (·.2) = parts ∧ ∀ x ∈ dsl, loadOne e del (selectNames e.refMeta sel)
      (selectNames metas sel) (fs e.refDir x.2) (fs e.base x.2) [] = .ok x.1 := by
  unfold loadList at h
  induction parts generalizing dsl with
  | nil => cases h; exact ⟨rfl, fun x hx => by cases hx⟩
  | cons p t ih =>
    simp only [mapPy, bind, Except.bind] at h
    split at h
    · cases h
    · next y hy =>
      split at hy
      · cases hy
      · next z hz =>
        cases hy
        split at h
        · cases h
        · next dsl' hd =>
          cases h
          obtain ⟨i1, i2⟩ := ih hd
          refine ⟨by simp [i1], fun x hx => ?_⟩
          rcases List.mem_cons.1 hx with rfl | hx
          · exact hz
          · exact i2 x hx

/-- In a steady mode the arrays of the partition come from the datasets loaded at the
beginning: an exception before the first write, or the writes of these arrays. -/
theorem updateOne_writes {e : Env D V H} {how : How} {f : Callback V (Dict V)}
    (hm : Steady how f) {sel : Option (List String)} {metas : List (VarMeta V)} {parts : List P}
    (hnp : parts.Nodup) {fs g : Files D P V H} {dsl : List (Dataset V × P)}
    (hl : loadList e how.delayed sel metas parts fs = .ok dsl) {p : P} (hp : p ∈ parts)
    (hg : ∀ d, g d p = fs d p) :
    (∃ err, updateOne e how f (fun fs =>
      if how.delayed then loadList e true sel metas parts fs else .ok dsl) g p = (g, .error err) ∧
      (how.delayed = true ∧ loadList e true sel metas parts g = .error err ∨
        callItems e how f dsl p = .error err)) ∨
    ∃ l, callItems e how f dsl p = .ok l ∧ updateOne e how f (fun fs =>
      if how.delayed then loadList e true sel metas parts fs else .ok dsl) g p =
        writeItems e g p l := by
  -- the datasets loaded later give the same arrays for this partition
  have hsame : ∀ dsl', (if how.delayed then loadList e true sel metas parts g else .ok dsl) =
      .ok dsl' → callItems e how f dsl' p = callItems e how f dsl p := by
    intro dsl' hd
    cases hdel : how.delayed with
    | false =>
      rw [hdel] at hd
      cases hd
      rfl
    | true =>
      rw [hdel] at hd hl
      simp only [if_true] at hd
      obtain ⟨a1, a2⟩ := loadList_snd hl
      obtain ⟨b1, b2⟩ := loadList_snd hd
      have hdep : how.depth = 0 := by
        rcases hm with hm | hm
        · rw [hdel] at hm; cases hm
        · exact hm.1
      obtain ⟨x, hx, hxp⟩ := List.mem_map.1 (a1 ▸ hp)
      obtain ⟨y, hy, hyp⟩ := List.mem_map.1 (b1 ▸ hp)
      have e1 := a2 x hx
      have e2 := b2 y hy
      rw [hxp] at e1
      rw [hyp, hg, hg, e1] at e2
      have f1 := find_mapped (p := p) (g := x.1) (by rw [a1]; exact hnp) (by rw [← hxp]; exact hx)
      have f2 := find_mapped (p := p) (g := y.1) (by rw [b1]; exact hnp) (by rw [← hyp]; exact hy)
      unfold callItems
      rw [if_pos hdep, if_pos hdep, f1, f2]
      simp only [Except.ok.injEq] at e2
      rw [e2]
  unfold updateOne
  split
  · next err hcall =>
    refine .inl ⟨err, rfl, ?_⟩
    simp only [bind, Except.bind] at hcall
    split at hcall
    · next hd =>
      cases hcall
      cases hdel : how.delayed with
      | false => rw [hdel] at hd; cases hd
      | true => rw [hdel] at hd; exact .inl ⟨rfl, hd⟩
    · next dsl' hd => exact .inr ((hsame dsl' hd).symm.trans hcall)
  · next l hcall =>
    simp only [bind, Except.bind] at hcall
    split at hcall
    · cases hcall
    · next dsl' hd =>
      refine .inr ⟨l, (hsame dsl' hd).symm.trans hcall, ?_⟩
      split
      · next hlz =>
        simp only [Bool.and_eq_true] at hlz
        have hlen : l.length ≤ 1 := by
          rcases hm with hm | ⟨_, hm | hm⟩
          · rw [hlz.1] at hm; cases hm
          · rw [hlz.2] at hm; cases hm
          · exact callItems_length hm hcall
        cases l with
        | nil => rfl
        | cons x t =>
          cases t with
          | cons y u => simp at hlen
          | nil =>
            simp only [List.length_cons, List.length_nil, List.range_succ, List.range_zero,
              List.nil_append, writeDelayed, bind, Except.bind, hd, hcall]
            simp only [List.getElem?_cons_zero]
            simp only [writeItems]
      · rfl

/-- In a steady mode the arrays of the partition come from the datasets loaded at the
beginning. -/
theorem updateOne_steady {e : Env D V H} {how : How} {f : Callback V (Dict V)} (hk : Keys f)
    (hm : Steady how f) {sel : Option (List String)} {metas : List (VarMeta V)} {parts : List P}
    (hnp : parts.Nodup) {fs g g' : Files D P V H} {dsl : List (Dataset V × P)}
    (hl : loadList e how.delayed sel metas parts fs = .ok dsl) {p : P} (hp : p ∈ parts)
    (hg : ∀ d, g d p = fs d p)
    (h : updateOne e how f (fun fs =>
      if how.delayed then loadList e true sel metas parts fs else .ok dsl) g p = (g', .ok ())) :
    ∃ l, callItems e how f dsl p = .ok l ∧
      (∀ n, n ∉ l.map (·.1) → ∀ part', g' e.base p = some part' →
        ∃ part, fs e.base p = some part ∧ getVar part'.vars n = getVar part.vars n) ∧
      ∀ x ∈ l, ∃ a part', x.2 = .ok a ∧
        g' e.base p = some part' ∧ (getVar part'.vars x.1).map (·.array) = some a := by
  rcases updateOne_writes hm hnp hl hp hg with ⟨err, h', _⟩ | ⟨l, hl0, h'⟩
  · rw [h] at h'; cases h'
  · rw [h] at h'
    refine ⟨l, hl0, ?_⟩
    have hw := writeItems_ok l (callItems_keys hk hl0) h'.symm
    rw [hg] at hw
    exact hw

end Verif.Vw
