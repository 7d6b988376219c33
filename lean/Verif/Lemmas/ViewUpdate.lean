import Verif.Lemmas.View
import Verif.Lemmas.OverlapArray
import Verif.Props.Batches

/-! Lemmas about the updates of a view. -/

namespace Verif.Vw

open Nd Ds Upd Spec

variable {D P V H : Type} [DecidableEq D] [DecidableEq P]

/-- The array comes from a result of the callback for the variable `n`, maybe trimmed. -/
def Comes (f : Callback V (Dict V)) (n : String) (a : Arr V) : Prop :=
  ∃ zds ind d x, f zds ind = .ok d ∧ x ∈ d ∧ x.1 = n ∧ (a = x.2 ∨
    ∃ (dim : String) (zds' : Dataset V) (i : Nat × Nat), i.1 ≤ i.2 ∧
      trimArray zds' dim i n x.2 = .ok a)

theorem calcSlice_le (dim : String) (p : P) (l : List (Dataset V × P)) (start : Nat)
    (last ind : Nat × Nat) (hl : last.1 ≤ last.2) (h : calcSlice dim p start last l = .ok ind) :
    ind.1 ≤ ind.2 := by
  induction l generalizing start last with
  | nil => cases h; exact hl
  | cons x t ih =>
    obtain ⟨zds, q⟩ := x
    simp only [calcSlice] at h
    split at h
    · cases h
    · split at h
      · cases h; exact Nat.le_add_right _ _
      · exact ih _ _ (Nat.le_add_right _ _) h

omit [DecidableEq D] in
theorem selectOverlap_le {e : Env D V H} {depth : Nat} {dsl : List (Dataset V × P)} {p : P}
    {zds : Dataset V} {ind : Nat × Nat} (h : selectOverlap e depth dsl p = .ok (zds, ind)) :
    ind.1 ≤ ind.2 := by
  unfold selectOverlap at h
  split at h
  · cases h
  · split at h
    · cases h
    · simp only [bind, Except.bind] at h
      split at h
      · cases h
      · split at h
        · cases h
        · next hi =>
          cases h
          exact calcSlice_le _ _ _ _ _ _ (Nat.le_refl _) hi

omit [DecidableEq D] in
theorem callItems_comes {e : Env D V H} {how : How} {f : Callback V (Dict V)}
    {dsl : List (Dataset V × P)} {p : P} {l : List (String × Py (Arr V))}
    (h : callItems e how f dsl p = .ok l) :
    ∀ x ∈ l, ∀ a, x.2 = .ok a → Comes f x.1 a := by
  unfold callItems at h
  split at h
  · split at h
    · cases h
    · next y _ =>
      simp only [bind, Except.bind] at h
      split at h
      · cases h
      · next d hd =>
        cases h
        intro x hx a ha
        obtain ⟨z, hz, rfl⟩ := List.mem_map.1 hx
        cases ha
        exact ⟨_, _, d, z, hd, hz, rfl, .inl rfl⟩
  · simp only [bind, Except.bind] at h
    split at h
    · cases h
    · next zi hz =>
      obtain ⟨zds, ind⟩ := zi
      simp only at h
      split at h
      · cases h
      · next d hd =>
        cases h
        intro x hx a ha
        obtain ⟨z, hz', rfl⟩ := List.mem_map.1 hx
        simp only at ha
        split at ha
        · exact ⟨_, _, d, z, hd, hz', rfl, .inr ⟨_, _, _, selectOverlap_le hz, ha⟩⟩
        · cases ha
          exact ⟨_, _, d, z, hd, hz', rfl, .inl rfl⟩

/-- What the writes preserve. -/
structure Kept (e : Env D V H) (f : Callback V (Dict V)) (parts : List P)
    (Q : Files D P V H → Prop) : Prop where
  step : ∀ fs p n a fs', Q fs → p ∈ parts → Comes f n a →
    writeOne e fs p (n, .ok a) = .ok fs' → Q fs'

theorem Kept.one {e : Env D V H} {f : Callback V (Dict V)} {parts : List P}
    {Q : Files D P V H → Prop} (hk : Kept e f parts Q) {fs fs' : Files D P V H} {p : P}
    {x : String × Py (Arr V)} (hq : Q fs) (hp : p ∈ parts)
    (hc : ∀ a, x.2 = .ok a → Comes f x.1 a) (h : writeOne e fs p x = .ok fs') : Q fs' := by
  obtain ⟨n, r⟩ := x
  cases r with
  | error err => simp only [writeOne, bind, Except.bind] at h; cases h
  | ok a => exact hk.step fs p n a fs' hq hp (hc a rfl) h

theorem Kept.items {e : Env D V H} {f : Callback V (Dict V)} {parts : List P}
    {Q : Files D P V H → Prop} (hk : Kept e f parts Q) {p : P} (hp : p ∈ parts)
    (l : List (String × Py (Arr V))) (hc : ∀ x ∈ l, ∀ a, x.2 = .ok a → Comes f x.1 a)
    (fs : Files D P V H) (hq : Q fs) : Q (writeItems e fs p l).1 := by
  induction l generalizing fs with
  | nil => exact hq
  | cons x t ih =>
    simp only [writeItems]
    split
    · exact hq
    · next fs' h =>
      exact ih (fun y hy => hc y (List.mem_cons_of_mem _ hy)) fs'
        (hk.one hq hp (hc x (List.mem_cons_self ..)) h)

theorem Kept.delayed {e : Env D V H} {f : Callback V (Dict V)} {parts : List P}
    {Q : Files D P V H → Prop} (hk : Kept e f parts Q) {p : P} (hp : p ∈ parts) (how : How)
    (now : Files D P V H → Py (List (Dataset V × P))) (ks : List Nat)
    (fs : Files D P V H) (hq : Q fs) : Q (writeDelayed e how f now p fs ks).1 := by
  induction ks generalizing fs with
  | nil => exact hq
  | cons k t ih =>
    simp only [writeDelayed]
    split
    · exact hq
    · next fs' h =>
      refine ih fs' ?_
      simp only [bind, Except.bind] at h
      split at h
      · cases h
      · split at h
        · cases h
        · next l hl =>
          split at h
          · cases h
          · next x hx =>
            exact hk.one hq hp (callItems_comes hl x (List.mem_of_getElem? hx)) h

theorem Kept.updateOne {e : Env D V H} {f : Callback V (Dict V)} {parts : List P}
    {Q : Files D P V H → Prop} (hk : Kept e f parts Q) {p : P} (hp : p ∈ parts) (how : How)
    (now : Files D P V H → Py (List (Dataset V × P)))
    (fs : Files D P V H) (hq : Q fs) : Q (Vw.updateOne e how f now fs p).1 := by
  unfold Vw.updateOne
  split
  · exact hq
  · next l h =>
    split
    · exact hk.delayed hp how now _ fs hq
    · simp only [bind, Except.bind] at h
      split at h
      · cases h
      · exact hk.items hp l (callItems_comes h) fs hq

theorem Kept.batch {e : Env D V H} {f : Callback V (Dict V)} {parts : List P}
    {Q : Files D P V H → Prop} (hk : Kept e f parts Q) (how : How)
    (now : Files D P V H → Py (List (Dataset V × P))) (b : List P) (hb : ∀ p ∈ b, p ∈ parts)
    (fs : Files D P V H) (hq : Q fs) : Q (updateBatch e how f now fs b).1 := by
  induction b generalizing fs with
  | nil => exact hq
  | cons p t ih =>
    simp only [updateBatch]
    have h1 := hk.updateOne (hb p (List.mem_cons_self ..)) how now fs hq
    split
    · next h => rw [h] at h1; exact h1
    · next h =>
      rw [h] at h1
      exact ih (fun q hq => hb q (List.mem_cons_of_mem _ hq)) _ h1

theorem Kept.batches {e : Env D V H} {f : Callback V (Dict V)} {parts : List P}
    {Q : Files D P V H → Prop} (hk : Kept e f parts Q) (how : How)
    (now : Files D P V H → Py (List (Dataset V × P))) (bs : List (List P))
    (hb : ∀ b ∈ bs, ∀ p ∈ b, p ∈ parts)
    (fs : Files D P V H) (hq : Q fs) : Q (updateBatches e how f now fs bs).1 := by
  induction bs generalizing fs with
  | nil => exact hq
  | cons b t ih =>
    simp only [updateBatches]
    have h1 := hk.batch how now b (hb b (List.mem_cons_self ..)) fs hq
    have h2 := fun fs => ih (fun c hc => hb c (List.mem_cons_of_mem _ hc)) fs
    split <;> (next h => rw [h] at h1; exact h2 _ h1)

omit [DecidableEq P] in
theorem split_flatten {l : List P} {n : Int} {bs : List (List P)}
    (h : Batches.splitSequence l (some n) = .ok bs) : bs.flatten = l := by
  have hn : 0 < n := by
    unfold Batches.splitSequence at h
    simp only [Option.getD_some] at h
    split at h
    · cases h
    · omega
  have hl : l ≠ [] := by
    rintro rfl
    unfold Batches.splitSequence at h
    simp only [Option.getD_some, List.length_nil, Nat.min_zero, if_true] at h
    split at h <;> cases h
  obtain ⟨bs', h1, h2, _⟩ := C19_split_sequence l (some n) hl (by simp [hn])
  rw [h1] at h
  cases h
  exact h2

/-- The possible outcomes of an update of a view. -/
theorem update_split (e : Env D V H) (how : How) (listing : List P) (filters : P → Bool)
    (sel : Option (List String)) (f : Callback V (Dict V)) (st : State D P V H) :
    (∃ err, Vw.update e how listing filters sel f st = (st, .error err)) ∨
    (Vw.update e how listing filters sel f st = (st, .ok ()) ∧
      partitions e listing filters st.files = []) ∨
    ∃ dsl bs, loadList e how.delayed sel st.metas (partitions e listing filters st.files)
        st.files = .ok dsl ∧ dsl ≠ [] ∧
      bs.flatten = partitions e listing filters st.files ∧ 0 ≤ how.depth ∧
      Vw.update e how listing filters sel f st =
        ({ st with files := (updateBatches e how f (fun fs =>
            if how.delayed then loadList e true sel st.metas
              (partitions e listing filters st.files) fs
            else .ok dsl) st.files bs).1 },
          (updateBatches e how f (fun fs =>
            if how.delayed then loadList e true sel st.metas
              (partitions e listing filters st.files) fs
            else .ok dsl) st.files bs).2) := by
  unfold Vw.update
  split
  · exact .inl ⟨_, rfl⟩
  · simp only
    split
    · exact .inl ⟨_, rfl⟩
    · next h =>
      refine .inr (.inl ⟨rfl, ?_⟩)
      have := (mapPy_spec _ _ _ h).1
      exact List.eq_nil_of_length_eq_zero this.symm
    · next x rest h =>
      split
      · exact .inl ⟨_, rfl⟩
      · split
        · exact .inl ⟨_, rfl⟩
        · split
          · exact .inl ⟨_, rfl⟩
          · split
            · exact .inl ⟨_, rfl⟩
            · next hcd =>
              split
              · exact .inl ⟨_, rfl⟩
              · next bs hbs =>
                refine .inr (.inr ⟨x :: rest, bs, h, by simp, split_flatten hbs, ?_, rfl⟩)
                unfold checkDepth at hcd
                split at hcd
                · omega
                · split at hcd
                  · cases hcd
                  · split at hcd
                    · cases hcd
                    · omega

/-- What the writes preserve is preserved by an update, whatever its outcome. -/
theorem Kept.update {e : Env D V H} {how : How} {listing : List P} {filters : P → Bool}
    {sel : Option (List String)} {f : Callback V (Dict V)} {st : State D P V H}
    {Q : Files D P V H → Prop} (hk : Kept e f (partitions e listing filters st.files) Q)
    (hq : Q st.files) : Q (Vw.update e how listing filters sel f st).1.files := by
  rcases update_split e how listing filters sel f st with ⟨err, h⟩ | ⟨h, _⟩ |
    ⟨dsl, bs, _, _, hb, _, h⟩
  · rw [h]; exact hq
  · rw [h]; exact hq
  · rw [h]
    exact hk.batches how _ bs (fun b hbs p hp => by
      rw [← hb]; exact List.mem_flatten.2 ⟨b, hbs, hp⟩) _ hq

theorem update_metas (e : Env D V H) (how : How) (listing : List P) (filters : P → Bool)
    (sel : Option (List String)) (f : Callback V (Dict V)) (st : State D P V H) :
    (Vw.update e how listing filters sel f st).1.metas = st.metas ∧
    (Vw.update e how listing filters sel f st).1.saved = st.saved := by
  rcases update_split e how listing filters sel f st with ⟨err, h⟩ | ⟨h, _⟩ |
    ⟨dsl, bs, _, _, hb, _, h⟩ <;> rw [h] <;> exact ⟨rfl, rfl⟩

/-- What one write does. -/
theorem writeOne_spec {e : Env D V H} {fs fs' : Files D P V H} {p : P} {n : String} {a : Arr V}
    (h : writeOne e fs p (n, .ok a) = .ok fs') :
    ∃ part vars, fs e.base p = some part ∧ writeVar part.vars n a = .ok vars ∧
      fs' = put fs e.base p (some { part with vars }) := by
  unfold writeOne at h
  simp only [bind, Except.bind] at h
  split at h
  · cases h
  · next part hp =>
    split at h
    · cases h
    · next vars hv =>
      cases h
      exact ⟨part, vars, hp, hv, rfl⟩

omit [DecidableEq D] [DecidableEq P] in
theorem trim_arrOk {zds : Dataset V} {dim : String} {i : Nat × Nat} {n : String} {b a : Arr V}
    (hb : ArrOk b) (hi : i.1 ≤ i.2) (ht : trimArray zds dim i n b = .ok a) : ArrOk a := by
  unfold trimArray at ht
  split at ht
  · cases ht
  · next v hv =>
    split at ht
    · cases ht
    · next ax hax =>
      have hlt : ax < v.dims.length := by
        have := idxOf?_spec hax
        exact (List.getElem?_eq_some_iff.1 this).1
      obtain ⟨m, h1, h2⟩ := getitem_trim hb v.dims.length 0 ax i hi hlt ht
      rw [h2]
      refine takeAxis_arrOk hb h1 _ fun q hq => ?_
      obtain ⟨r, hr, rfl⟩ := List.mem_map.1 hq
      rw [List.mem_range] at hr
      omega

/-- An array that comes from a callback that returns well formed arrays is well formed. -/
theorem Comes.arrOk {f : Callback V (Dict V)} {n : String} {a : Arr V} (h : Comes f n a)
    (hg : GoodCallback f) : ArrOk a := by
  obtain ⟨zds, ind, d, x, h1, h2, rfl, h3⟩ := h
  have hx := hg zds ind d h1 x h2
  rcases h3 with rfl | ⟨dim, zds', i, hi, ht⟩
  · exact hx
  · exact trim_arrOk hx hi ht

end Verif.Vw
