import Verif.Spec.Sharing

/-!
What a call may change, and what the objects it makes may refer to.
-/

namespace Verif.Sh

open Nd Spec

variable {V : Type}

/-- The variable is in one of the datasets `DS`. -/
def Held (h : Heap V) (DS : Nat → Prop) (r : Nat) : Prop := ∃ n, DS n ∧ HasVar h n r

def DictOf (h : Heap V) (DS : Nat → Prop) (c : Nat) : Prop := ∃ n, DS n ∧ HasDict h n c

/-- The buffer is one of those of the operands, or is new. -/
def BufOk (h : Heap V) (DS HS : Nat → Prop) (b : Nat) : Prop :=
  (∃ n, DS n ∧ HasBuf h n b) ∨ (∃ k a, HS k ∧ h.hands[k]? = some a ∧ a.buf = b) ∨
    h.bufs.length ≤ b

def VarOk (h : Heap V) (DS : Nat → Prop) (r : Nat) : Prop := Held h DS r ∨ h.vars.length ≤ r

def DictOk (h : Heap V) (DS : Nat → Prop) (c : Nat) : Prop :=
  DictOf h DS c ∨ h.dicts.length ≤ c

/-- What a call on the datasets `DS` and the arrays `HS` may do to the objects `h`; `W` when the
call may write in place, `T` the datasets that it changes. -/
structure Grow (W : Prop) (T DS HS : Nat → Prop) (h h' : Heap V) : Prop where
  nbufs : h.bufs.length ≤ h'.bufs.length
  nvars : h.vars.length ≤ h'.vars.length
  ndicts : h.dicts.length ≤ h'.dicts.length
  nsets : h.sets.length ≤ h'.sets.length
  nhands : h.hands.length ≤ h'.hands.length
  bufs : ∀ b, b < h.bufs.length → h'.bufs[b]? = h.bufs[b]? ∨
    W ∧ ∃ k a, HS k ∧ h.hands[k]? = some a ∧ a.buf = b
  sets : ∀ n, n < h.sets.length → h'.sets[n]? = h.sets[n]? ∨ T n
  vars : ∀ r, r < h.vars.length → h'.vars[r]? = h.vars[r]? ∨ Held h DS r
  dicts : ∀ c, c < h.dicts.length → h'.dicts[c]? = h.dicts[c]? ∨ DictOf h DS c
  hands : ∀ k, k < h.hands.length → h'.hands[k]? = h.hands[k]?
  holds : ∀ (n : Nat) (D : DsObj), h'.sets[n]? = some D → h.sets[n]? = some D ∨
    (∀ p ∈ D.vars, VarOk h DS p.2) ∧ DictOk h DS D.chunks
  objs : ∀ (r : Nat) (o : VarObj V), h'.vars[r]? = some o → h.vars[r]? = some o ∨ BufOk h DS HS o.array.buf
  newHands : ∀ (k : Nat) (a : Ref), h'.hands[k]? = some a → h.hands[k]? = some a ∨ BufOk h DS HS a.buf

theorem Grow.refl (W : Prop) (T DS HS : Nat → Prop) (h : Heap V) : Grow W T DS HS h h where
  nbufs := Nat.le_refl _
  nvars := Nat.le_refl _
  ndicts := Nat.le_refl _
  nsets := Nat.le_refl _
  nhands := Nat.le_refl _
  bufs _ _ := .inl rfl
  sets _ _ := .inl rfl
  vars _ _ := .inl rfl
  dicts _ _ := .inl rfl
  hands _ _ := rfl
  holds _ _ e := .inl e
  objs _ _ e := .inl e
  newHands _ _ e := .inl e

section
variable {W : Prop} {T DS HS : Nat → Prop} {h h' : Heap V}

theorem append_lt {α : Type} {l t : List α} {n i : Nat} (hn : n ≤ l.length) (hi : i < n) :
    (l ++ t)[i]? = l[i]? := List.getElem?_append_left (by omega)

theorem append_some {α : Type} {l t : List α} {i : Nat} {x : α} (e : (l ++ t)[i]? = some x) :
    l[i]? = some x ∨ x ∈ t := by
  rcases Nat.lt_or_ge i l.length with hi | hi
  · rw [List.getElem?_append_left hi] at e
    exact .inl e
  · rw [List.getElem?_append_right hi] at e
    exact .inr (List.mem_of_getElem? e)

theorem Grow.addBufs (g : Grow W T DS HS h h') (l : List (Arr V)) :
    Grow W T DS HS h { h' with bufs := h'.bufs ++ l } :=
  { g with
    nbufs := Nat.le_trans g.nbufs (by simp)
    bufs := fun b hb => by
      rw [append_lt g.nbufs hb]
      exact g.bufs b hb }

theorem Grow.setBuf (g : Grow W T DS HS h h') (hw : W) {k : Nat} (hk : HS k) {a : Ref}
    (ha : h.hands[k]? = some a) (b : Arr V) :
    Grow W T DS HS h { h' with bufs := h'.bufs.set a.buf b } :=
  { g with
    nbufs := Nat.le_trans g.nbufs (by simp)
    bufs := fun i hi => by
      simp only [List.getElem?_set]
      split
      · rename_i e
        exact .inr ⟨hw, k, a, hk, ha, e⟩
      · exact g.bufs i hi }

theorem Grow.addVars (g : Grow W T DS HS h h') (l : List (VarObj V))
    (ok : ∀ o ∈ l, BufOk h DS HS o.array.buf) :
    Grow W T DS HS h { h' with vars := h'.vars ++ l } :=
  { g with
    nvars := Nat.le_trans g.nvars (by simp)
    vars := fun r hr => by
      rw [append_lt g.nvars hr]
      exact g.vars r hr
    objs := fun r o e => by
      rcases append_some e with e | e
      · exact g.objs r o e
      · exact .inr (ok o e) }

theorem Grow.setObj (g : Grow W T DS HS h h') (r : Nat) (o : VarObj V) (hr : VarOk h DS r)
    (ok : BufOk h DS HS o.array.buf ∨ h'.vars[r]?.any (fun o' => o'.array.buf == o.array.buf) = true) :
    Grow W T DS HS h (h'.setObj r o) :=
  { g with
    nvars := Nat.le_trans g.nvars (by simp [Heap.setObj])
    vars := fun s hs => by
      simp only [Heap.setObj, List.getElem?_set]
      split
      · rename_i e
        subst e
        rcases hr with hr | hr
        · exact .inr hr
        · omega
      · exact g.vars s hs
    objs := fun s x e => by
      simp only [Heap.setObj, List.getElem?_set] at e
      split at e
      · rename_i e'
        subst e'
        split at e
        · obtain rfl := Option.some.inj e
          rcases ok with ok | ok
          · exact .inr ok
          · cases hv : h'.vars[r]? with
            | none => simp [hv] at ok
            | some o' =>
              simp only [hv, Option.any_some, beq_iff_eq] at ok
              rw [← ok]
              rcases g.objs r o' hv with e1 | e1
              · rcases hr with ⟨n, hn, hr⟩ | hr
                · exact .inr (.inl ⟨n, hn, r, o', hr, e1, rfl⟩)
                · have := (List.getElem?_eq_some_iff.1 e1).1
                  omega
              · exact .inr e1
        · cases e
      · exact g.objs s x e }

theorem Grow.setDs (g : Grow W T DS HS h h') (n : Nat) (D : DsObj) (hn : T n)
    (hv : ∀ p ∈ D.vars, VarOk h DS p.2) (hc : DictOk h DS D.chunks) :
    Grow W T DS HS h (h'.setDs n D) :=
  { g with
    nsets := Nat.le_trans g.nsets (by simp [Heap.setDs])
    sets := fun s hs => by
      simp only [Heap.setDs, List.getElem?_set]
      split
      · rename_i e
        subst e
        exact .inr hn
      · exact g.sets s hs
    holds := fun s x e => by
      simp only [Heap.setDs, List.getElem?_set] at e
      split at e
      · split at e
        · obtain rfl := Option.some.inj e
          exact .inr ⟨hv, hc⟩
        · cases e
      · exact g.holds s x e }

theorem Grow.newDs (g : Grow W T DS HS h h') (chunks : List (String × Nat)) (D : DsObj)
    (hv : ∀ p ∈ D.vars, VarOk h DS p.2) (hc : DictOk h DS D.chunks) :
    Grow W T DS HS h { h' with dicts := h'.dicts ++ [chunks], sets := h'.sets ++ [D] } :=
  { g with
    ndicts := Nat.le_trans g.ndicts (by simp)
    nsets := Nat.le_trans g.nsets (by simp)
    sets := fun s hs => by
      rw [append_lt g.nsets hs]
      exact g.sets s hs
    dicts := fun s hs => by
      rw [append_lt g.ndicts hs]
      exact g.dicts s hs
    holds := fun s x e => by
      rcases append_some e with e | e
      · exact g.holds s x e
      · obtain rfl := List.mem_singleton.1 e
        exact .inr ⟨hv, hc⟩ }

theorem Grow.setDict (g : Grow W T DS HS h h') (c : Nat) (x : List (String × Nat))
    (hc : DictOf h DS c) : Grow W T DS HS h { h' with dicts := h'.dicts.set c x } :=
  { g with
    ndicts := Nat.le_trans g.ndicts (by simp)
    dicts := fun s hs => by
      simp only [List.getElem?_set]
      split
      · rename_i e
        subst e
        exact .inr hc
      · exact g.dicts s hs }

theorem Grow.addHand (g : Grow W T DS HS h h') (a : Ref) (ok : BufOk h DS HS a.buf) :
    Grow W T DS HS h { h' with hands := h'.hands ++ [a] } :=
  { g with
    nhands := Nat.le_trans g.nhands (by simp)
    hands := fun s hs => by
      rw [append_lt g.nhands hs]
      exact g.hands s hs
    newHands := fun s x e => by
      rcases append_some e with e | e
      · exact g.newHands s x e
      · obtain rfl := List.mem_singleton.1 e
        exact .inr ok }

/-! ### The parts of the calls -/

theorem Grow.construct (g : Grow W T DS HS h h') (vars : List (String × Nat))
    (attrs : List (String × String)) (chunks : List (String × Nat)) (limit : Nat)
    (delayed : Option Bool) (hv : ∀ p ∈ vars, VarOk h DS p.2) :
    Grow W T DS HS h (h'.construct vars attrs chunks limit delayed).1 := by
  have key : ∀ (l acc : List (String × Nat)), (∀ p ∈ acc, VarOk h DS p.2) →
      (∀ p ∈ l, VarOk h DS p.2) → ∀ p ∈ l.foldl put acc, VarOk h DS p.2 := by
    intro l
    induction l with
    | nil => intro acc ha _ p hp; exact ha p hp
    | cons q t ih =>
      intro acc ha hl
      refine ih (put acc q) ?_ fun p hp => hl p (List.mem_cons_of_mem _ hp)
      have hq := hl q List.mem_cons_self
      clear ih hl
      induction acc with
      | nil =>
        intro p hp
        simp only [put, List.mem_singleton] at hp
        subst hp; exact hq
      | cons x s ih2 =>
        intro p hp
        simp only [put] at hp
        split at hp
        · rcases List.mem_cons.1 hp with rfl | hp
          · exact hq
          · exact ha p (List.mem_cons_of_mem _ hp)
        · rcases List.mem_cons.1 hp with rfl | hp
          · exact ha p List.mem_cons_self
          · exact ih2 (fun p hp => ha p (List.mem_cons_of_mem _ hp)) p hp
  simp only [Heap.construct]
  split
  · exact g
  · exact g.newDs _ _ (key vars [] nofun hv) (.inr g.ndicts)

theorem mapIdx_ge {α β : Type} (l : List α) (n : Nat) (f : α → β) :
    ∀ p ∈ l.mapIdx (fun i o => (f o, n + i)), n ≤ p.2 := by
  intro p hp
  obtain ⟨i, hi, e⟩ := List.mem_mapIdx.1 hp
  rw [← e]
  simp

theorem Grow.build (g : Grow W T DS HS h h') (l : List (VarObj V)) (attrs : List (String × String))
    (chunks : List (String × Nat)) (limit : Nat) (delayed : Option Bool)
    (ok : ∀ o ∈ l, BufOk h DS HS o.array.buf) :
    Grow W T DS HS h (h'.build l attrs chunks limit delayed).1 :=
  (g.addVars l ok).construct _ _ _ _ _ fun p hp =>
    .inr (Nat.le_trans g.nvars (mapIdx_ge l h'.vars.length (·.name) p hp))

theorem Grow.joined (g : Grow W T DS HS h h') (l : List (VarObj V × Joined V))
    (ok : ∀ p ∈ l, BufOk h DS HS p.1.array.buf) :
    Grow W T DS HS h (h'.joined l).1 ∧ ∀ o ∈ (h'.joined l).2, BufOk h DS HS o.array.buf := by
  induction l generalizing h' with
  | nil => exact ⟨g, nofun⟩
  | cons p t ih =>
    obtain ⟨o, j⟩ := p
    have ok' := fun p hp => ok p (List.mem_cons_of_mem _ hp)
    cases j with
    | same w =>
      obtain ⟨g1, h1⟩ := ih g ok'
      refine ⟨g1, fun x hx => ?_⟩
      rcases List.mem_cons.1 hx with rfl | hx
      · exact ok _ List.mem_cons_self
      · exact h1 x hx
    | fresh a =>
      obtain ⟨g1, h1⟩ := ih (g.addBufs [a]) ok'
      refine ⟨g1, fun x hx => ?_⟩
      rcases List.mem_cons.1 hx with rfl | hx
      · exact .inr (.inr g.nbufs)
      · exact h1 x hx

theorem Grow.derive (g : Grow W T DS HS h h') (l : List (VarObj V × Joined V))
    (attrs : List (String × String)) (chunks : List (String × Nat)) (limit : Nat)
    (delayed : Option Bool) (ok : ∀ p ∈ l, BufOk h DS HS p.1.array.buf) :
    Grow W T DS HS h (h'.derive l attrs chunks limit delayed).1 :=
  (g.joined l ok).1.build _ _ _ _ _ (g.joined l ok).2

end


/-! ### One call -/

theorem getDs_spec {h : Heap V} {n : Nat} {d : DsObj} {c : List (String × Nat)}
    (e : h.getDs n = some (d, c)) : h.sets[n]? = some d ∧ h.dicts[d.chunks]? = some c := by
  simp only [Heap.getDs, Option.bind_eq_some_iff, Option.map_eq_some_iff] at e
  obtain ⟨d', h1, c', h2, e⟩ := e
  cases e
  exact ⟨h1, h2⟩

theorem mem_lookup {β : Type} {l : List (String × β)} {k : String} {x : β}
    (e : l.lookup k = some x) : (k, x) ∈ l := by
  induction l with
  | nil => cases e
  | cons p t ih =>
    obtain ⟨k', y⟩ := p
    rw [List.lookup_cons] at e
    split at e
    · rename_i hk
      obtain rfl := Option.some.inj e
      rw [beq_iff_eq.1 hk]
      exact List.mem_cons_self
    · exact List.mem_cons_of_mem _ (ih e)

theorem getObj_spec {h : Heap V} {d : DsObj} {name : String} {r : Nat} {o : VarObj V}
    (e : h.getObj d name = .ok (r, o)) :
    d.vars.lookup name = some r ∧ h.vars[r]? = some o := by
  simp only [Heap.getObj] at e
  split at e
  · cases e
  · rename_i p hp
    simp only [Option.bind_eq_some_iff, Option.map_eq_some_iff] at hp
    obtain ⟨r', h1, o', h2, e'⟩ := hp
    subst e'
    cases e
    exact ⟨h1, h2⟩

theorem objects_spec {h : Heap V} {n : Nat} {d : DsObj} (hd : h.sets[n]? = some d)
    {o : VarObj V} (ho : o ∈ h.objects d) : HasBuf h n o.array.buf := by
  obtain ⟨p, hp, e⟩ := List.mem_filterMap.1 ho
  exact ⟨p.2, o, ⟨d, p.1, hd, hp⟩, e, rfl⟩

theorem bufOk_of {h : Heap V} {DS HS : Nat → Prop} {n : Nat} (hn : DS n) {b : Nat}
    (hb : HasBuf h n b) : BufOk h DS HS b := .inl ⟨n, hn, hb⟩

/-- The results of `mapPy` keep the variables they are made of. -/
theorem mapPy_objs {β : Type} {f : VarObj V → Py (VarObj V × β)} {l : List (VarObj V)}
    {r : List (VarObj V × β)} (hf : ∀ o y, f o = .ok y → y.1.array = o.array)
    (e : Ds.mapPy f l = .ok r) : ∀ p ∈ r, ∃ o ∈ l, p.1.array = o.array := by
  induction l generalizing r with
  | nil =>
    simp only [Ds.mapPy] at e
    cases e
    nofun
  | cons a t ih =>
    simp only [Ds.mapPy] at e
    cases h1 : f a with
    | error x => rw [h1] at e; cases e
    | ok y =>
      rw [h1] at e
      cases h2 : Ds.mapPy f t with
      | error x =>
        have : (do let ys ← Ds.mapPy f t; (Except.ok (y :: ys) : Py _)) = .ok r := e
        rw [h2] at this; cases this
      | ok ys =>
        have : (do let ys ← Ds.mapPy f t; (Except.ok (y :: ys) : Py _)) = .ok r := e
        rw [h2] at this
        have : (Except.ok (y :: ys) : Py _) = .ok r := this
        injection this with this
        subst this
        intro p hp
        rcases List.mem_cons.1 hp with rfl | hp
        · exact ⟨a, List.mem_cons_self, hf a _ h1⟩
        · obtain ⟨o, ho, e⟩ := ih h2 p hp
          exact ⟨o, List.mem_cons_of_mem _ ho, e⟩

theorem copied_objs {h : Heap V} {l : List (VarObj V)} :
    ∀ p ∈ h.copied l, p.1 ∈ l := by
  intro p hp
  obtain ⟨o, ho, e⟩ := List.mem_filterMap.1 hp
  obtain ⟨a, _, e⟩ := Option.map_eq_some_iff.1 e
  subst e
  exact ho

section
variable {W : Prop} {T DS HS : Nat → Prop} {h h' : Heap V}

theorem on_grow {n : Nat} {f : DsObj → List (String × Nat) → Heap V × Py Res}
    (hf : ∀ d c, h.sets[n]? = some d → Grow W T DS HS h (f d c).1) :
    Grow W T DS HS h (h.on n f).1 := by
  simp only [Heap.on]
  split
  · exact Grow.refl ..
  · rename_i d c e
    exact hf d c (getDs_spec e).1

theorem onVar_grow {n : Nat} {name : String} {f : Nat → VarObj V → Heap V × Py Res}
    (hf : ∀ r o, HasVar h n r → h.vars[r]? = some o → Grow W T DS HS h (f r o).1) :
    Grow W T DS HS h (h.onVar n name f).1 := by
  refine on_grow fun d c hd => ?_
  split
  · exact Grow.refl ..
  · rename_i r o e
    obtain ⟨h1, h2⟩ := getObj_spec e
    exact hf r o ⟨d, name, hd, mem_lookup h1⟩ h2

theorem asDs_fst (x : Heap V × Py Nat) : (asDs x).1 = x.1 := by
  obtain ⟨h, r⟩ := x
  cases r <;> rfl

theorem asDs_grow {x : Heap V × Py Nat} (g : Grow W T DS HS h x.1) : Grow W T DS HS h (asDs x).1 := by
  rw [asDs_fst]; exact g

theorem changed_fst (x : Heap V) (n : Nat) (d : DsObj) (r : Py Unit) :
    (x.changed n d r).1 = x.setDs n d := by
  cases r <;> rfl

theorem adopt_grow (g : Grow W T DS HS h h') {b : Bool} {a : Ref} (ha : BufOk h DS HS a.buf)
    {q : Heap V × Ref} (e : h'.adopt b a = some q) :
    Grow W T DS HS h q.1 ∧ BufOk h DS HS q.2.buf := by
  simp only [Heap.adopt] at e
  split at e
  · obtain ⟨x, _, e⟩ := Option.map_eq_some_iff.1 e
    subst e
    exact ⟨g.addBufs _, .inr (.inr g.nbufs)⟩
  · cases e
    exact ⟨g, ha⟩

theorem adopt_hands {b : Bool} {a : Ref} {q : Heap V × Ref} (e : h.adopt b a = some q) :
    q.1.hands = h.hands := by
  simp only [Heap.adopt] at e
  split at e
  · obtain ⟨x, _, e⟩ := Option.map_eq_some_iff.1 e
    subst e
    rfl
  · cases e
    rfl

theorem givens_grow (g : Grow W T DS HS h h') (hh : h'.hands = h.hands) {l : List (Given V)}
    (hl : ∀ x ∈ l, HS x.hand)
    {q : Heap V × List (VarObj V)} (e : h'.givens l = some q) :
    Grow W T DS HS h q.1 ∧ ∀ o ∈ q.2, BufOk h DS HS o.array.buf := by
  induction l generalizing h' q with
  | nil =>
    simp only [Heap.givens] at e
    cases e
    exact ⟨g, nofun⟩
  | cons x t ih =>
    simp only [Heap.givens, Option.bind_eq_some_iff, Option.map_eq_some_iff] at e
    obtain ⟨r, h1, p, h2, q', h3, e⟩ := e
    subst e
    have hr : BufOk h DS HS r.buf :=
      .inr (.inl ⟨x.hand, r, hl x List.mem_cons_self, by rw [← hh]; exact h1, rfl⟩)
    obtain ⟨g1, h4⟩ := adopt_grow g hr h2
    obtain ⟨g2, h5⟩ := ih g1 ((adopt_hands h2).trans hh)
      (fun y hy => hl y (List.mem_cons_of_mem _ hy)) h3
    refine ⟨g2, fun o ho => ?_⟩
    rcases List.mem_cons.1 ho with rfl | ho
    · exact h4
    · exact h5 o ho

theorem rename_grow (g : Grow W T DS HS h h') {d : DsObj}
    (hd : ∀ p ∈ d.vars, VarOk h DS p.2 ∧ ∀ o, h'.vars[p.2]? = some o → BufOk h DS HS o.array.buf)
    (names : List (String × String)) :
    Grow W T DS HS h (h'.rename d names).1 ∧ (h'.rename d names).2.1.chunks = d.chunks ∧
      ∀ p ∈ (h'.rename d names).2.1.vars, VarOk h DS p.2 := by
  induction names generalizing h' d with
  | nil => exact ⟨g, rfl, fun p hp => (hd p hp).1⟩
  | cons x t ih =>
    obtain ⟨old, new⟩ := x
    simp only [Heap.rename]
    split
    · exact ⟨g, rfl, fun p hp => (hd p hp).1⟩
    · split
      · exact ⟨g, rfl, fun p hp => (hd p hp).1⟩
      · rename_i r o e
        obtain ⟨h1, h2⟩ := getObj_spec e
        have ho := (hd _ (mem_lookup h1)).2 o h2
        refine ih (g.addVars [{ o with name := new }] (by
          intro x hx
          obtain rfl := List.mem_singleton.1 hx
          exact ho)) ?_
        intro p hp
        rcases List.mem_append.1 hp with hp | hp
        · have hp := (List.mem_filter.1 hp).1
          refine ⟨(hd p hp).1, fun y hy => ?_⟩
          rcases append_some hy with hy | hy
          · exact (hd p hp).2 y hy
          · obtain rfl := List.mem_singleton.1 hy
            exact ho
        · obtain rfl := List.mem_singleton.1 hp
          refine ⟨.inr g.nvars, fun y hy => ?_⟩
          have hy : (h'.vars ++ [{ o with name := new }])[h'.vars.length]? = some y := hy
          rw [List.getElem?_append_right (Nat.le_refl _), Nat.sub_self] at hy
          obtain rfl := Option.some.inj hy
          exact ho

theorem fillLoop_grow (g : Grow W T DS HS h h') (m : List (String × Nat))
    (l : List (String × Nat)) (hl : ∀ p ∈ l, VarOk h DS p.2) :
    Grow W T DS HS h { h' with vars := (fillLoop m l h'.vars).1 } := by
  induction l generalizing h' with
  | nil => exact g
  | cons p t ih =>
    obtain ⟨n, r⟩ := p
    simp only [fillLoop]
    split
    · exact g
    · rename_i o ho
      split
      · exact g
      · rename_i a _
        have := ih (g.setObj r { o with attrs := a } (hl _ List.mem_cons_self)
          (.inr (by simp [ho]))) (fun p hp => hl p (List.mem_cons_of_mem _ hp))
        exact this

theorem mergeVars_mem (a b : List (String × Nat)) :
    ∀ p ∈ (mergeVars a b).1, p ∈ a ∨ p ∈ b := by
  induction b generalizing a with
  | nil => intro p hp; exact .inl hp
  | cons x t ih =>
    intro p hp
    simp only [mergeVars] at hp
    split at hp
    · exact .inl hp
    · rcases ih _ p hp with hp | hp
      · rcases List.mem_append.1 hp with hp | hp
        · exact .inl hp
        · obtain rfl := List.mem_singleton.1 hp
          exact .inr List.mem_cons_self
      · exact .inr (List.mem_cons_of_mem _ hp)

theorem mergeDs_mem (d o : DsObj) :
    (mergeDs d o).1.chunks = d.chunks ∧ ∀ p ∈ (mergeDs d o).1.vars, p ∈ d.vars ∨ p ∈ o.vars := by
  have key := mergeVars_mem d.vars o.vars
  simp only [mergeDs]
  split
  · exact ⟨rfl, fun p hp => .inl hp⟩
  · split
    · rename_i vs e hv
      rw [hv] at key
      exact ⟨rfl, key⟩
    · rename_i vs hv
      rw [hv] at key
      split
      · exact ⟨rfl, key⟩
      · exact ⟨rfl, key⟩

theorem dropVars_mem (d : DsObj) (names : List String) :
    (dropVars d names).1.chunks = d.chunks ∧ ∀ p ∈ (dropVars d names).1.vars, p ∈ d.vars := by
  induction names generalizing d with
  | nil => exact ⟨rfl, fun p hp => hp⟩
  | cons n t ih =>
    simp only [dropVars]
    split
    · exact ⟨rfl, fun p hp => hp⟩
    · obtain ⟨h1, h2⟩ := ih { d with vars := d.vars.filter fun p => decide (p.1 ≠ n) }
      exact ⟨h1, fun p hp => (List.mem_filter.1 (h2 p hp)).1⟩

theorem put_mem {β : Type} (d : List (String × β)) (x : String × β) :
    ∀ p ∈ put d x, p ∈ d ∨ p = x := by
  induction d with
  | nil =>
    intro p hp
    exact .inr (List.mem_singleton.1 hp)
  | cons q t ih =>
    intro p hp
    simp only [put] at hp
    split at hp
    · rcases List.mem_cons.1 hp with rfl | hp
      · exact .inr rfl
      · exact .inl (List.mem_cons_of_mem _ hp)
    · rcases List.mem_cons.1 hp with rfl | hp
      · exact .inl List.mem_cons_self
      · rcases ih p hp with hp | hp
        · exact .inl (List.mem_cons_of_mem _ hp)
        · exact .inr hp

theorem addVariable_grow (g : Grow W T DS HS h h) {n : Nat} (hn : DS n) {d : DsObj}
    (hd : h.sets[n]? = some d) (m : Ds.VarMeta V) (noneValue : Py V) (hand : Option Ref)
    (hh : ∀ a, hand = some a → BufOk h DS HS a.buf) :
    Grow W T DS HS h (h.addVariable d m noneValue hand).1 ∧
      (h.addVariable d m noneValue hand).2.1.chunks = d.chunks ∧
      ∀ p ∈ (h.addVariable d m noneValue hand).2.1.vars, VarOk h DS p.2 := by
  have hd' : ∀ p ∈ d.vars, VarOk h DS p.2 := fun p hp => .inl ⟨n, hn, d, p.1, hd, hp⟩
  simp only [Heap.addVariable]
  split
  · exact ⟨g, rfl, hd'⟩
  · split
    · exact ⟨g, rfl, hd'⟩
    · rename_i h1 r e
      have key : Grow W T DS HS h h1 ∧ BufOk h DS HS r.buf := by
        simp only [Heap.dataFor] at e
        split at e
        · split at e
          · cases e
          · cases e
            exact ⟨g.addBufs _, .inr (.inr (Nat.le_refl _))⟩
        · rename_i a
          split at e
          · cases e
          · split at e
            · cases e
            · rename_i q hq
              cases e
              exact adopt_grow g (hh a rfl) hq
      refine ⟨key.1.addVars _ ?_, rfl, ?_⟩
      · intro o ho
        obtain rfl := List.mem_singleton.1 ho
        exact key.2
      · intro p hp
        rcases put_mem _ _ p hp with hp | hp
        · exact hd' p hp
        · subst hp
          exact .inr key.1.nvars

end

/-- What a call may change, and what the objects it makes may refer to. -/
theorem step_grow {DS HS : Nat → Prop} (h : Heap V) (c : Call V) (hds : ∀ n ∈ namesOf c, DS n)
    (hhs : ∀ k ∈ handsOf c, HS k) : Grow (InPlace c) (fun n => target c = some n) DS HS h (step h c).1 := by
  have g : Grow (InPlace c) (fun n => target c = some n) DS HS h h := Grow.refl ..
  have okd : ∀ {n : Nat} {d : DsObj}, DS n → h.sets[n]? = some d →
      ∀ p ∈ d.vars, VarOk h DS p.2 := fun hn hd p hp => .inl ⟨_, hn, _, p.1, hd, hp⟩
  have okc : ∀ {n : Nat} {d : DsObj}, DS n → h.sets[n]? = some d → DictOk h DS d.chunks :=
    fun hn hd => .inl ⟨_, hn, _, hd, rfl⟩
  have oko : ∀ {n : Nat} {d : DsObj}, DS n → h.sets[n]? = some d →
      ∀ o ∈ h.objects d, BufOk h DS HS o.array.buf :=
    fun hn hd o ho => bufOk_of hn (objects_spec hd ho)
  cases c with
  | array a => exact (g.addBufs _).addHand _ (.inr (.inr (Nat.le_refl _)))
  | write k idx v =>
    simp only [step]
    split
    · exact g
    · rename_i a hr
      simp only [Heap.write]
      split
      · split
        · exact g.setBuf trivial (hhs k List.mem_cons_self) hr _
        · exact g
      · exact g
  | dataset l attrs chunks limit delayed =>
    simp only [step]
    split
    · exact g
    · rename_i h1 l1 e
      obtain ⟨g1, ok⟩ := givens_grow g rfl (fun x hx => hhs _ (List.mem_map_of_mem hx)) e
      exact asDs_grow (g1.build _ _ _ _ _ ok)
  | values n name =>
    have hn := hds n List.mem_cons_self
    refine onVar_grow fun r o hr ho => ?_
    simp only [Heap.values]
    split
    · exact g.addHand _ (bufOk_of hn ⟨r, o, hr, ho, rfl⟩)
    · split
      · exact g
      · exact (g.addBufs _).addHand _ (.inr (.inr (Nat.le_refl _)))
  | assign n name k =>
    have hn := hds n List.mem_cons_self
    refine onVar_grow fun r o hr ho => ?_
    split
    · exact g
    · rename_i a ha
      simp only [Heap.assign]
      split
      · exact g
      · split
        · exact g
        · rename_i h1 a1 e
          obtain ⟨g1, ok⟩ := adopt_grow g
            (.inr (.inl ⟨k, a, hhs k List.mem_cons_self, ha, rfl⟩)) e
          exact g1.setObj r _ (.inl ⟨n, hn, hr⟩) (.inl ok)
  | fill n name =>
    have hn := hds n List.mem_cons_self
    refine onVar_grow fun r o hr ho => ?_
    simp only [Heap.fill]
    split
    · exact g
    · exact (g.addBufs _).setObj r _ (.inl ⟨n, hn, hr⟩) (.inl (.inr (.inr (Nat.le_refl _))))
  | setChunk n dim x =>
    have hn := hds n List.mem_cons_self
    exact on_grow fun d c hd => g.setDict _ _ ⟨n, hn, d, hd, rfl⟩
  | selectVars n names =>
    have hn := hds n List.mem_cons_self
    refine on_grow fun d c hd => asDs_grow ?_
    simp only [Heap.selectVars]
    split
    · exact g
    · rename_i l e
      refine g.construct _ _ _ _ _ fun p hp => ?_
      obtain ⟨q, hq, rfl⟩ := List.mem_map.1 hp
      have key : ∀ (ns : List String) (r : List (Nat × VarObj V)),
          Ds.mapPy (h.getObj d) ns = .ok r → ∀ q ∈ r, ∃ m, h.getObj d m = .ok q := by
        intro ns
        induction ns with
        | nil => intro r e; cases e; nofun
        | cons a t ih =>
          intro r e q hq
          simp only [Ds.mapPy] at e
          cases h1 : h.getObj d a with
          | error x => rw [h1] at e; cases e
          | ok y =>
            rw [h1] at e
            cases h2 : Ds.mapPy (h.getObj d) t with
            | error x =>
              have : (do let ys ← Ds.mapPy (h.getObj d) t; (Except.ok (y :: ys) : Py _)) = .ok r := e
              rw [h2] at this; cases this
            | ok ys =>
              have : (do let ys ← Ds.mapPy (h.getObj d) t; (Except.ok (y :: ys) : Py _)) = .ok r := e
              rw [h2] at this
              cases (show (Except.ok (y :: ys) : Py _) = .ok r from this)
              rcases List.mem_cons.1 hq with rfl | hq
              · exact ⟨a, h1⟩
              · exact ih ys h2 q hq
      obtain ⟨m, hm⟩ := key names l e q hq
      exact okd hn hd (m, q.1) (mem_lookup (getObj_spec hm).1)
  | byDims n dims predicate =>
    have hn := hds n List.mem_cons_self
    exact on_grow fun d c hd => asDs_grow (g.construct _ _ _ _ _ fun p hp =>
      okd hn hd p (List.mem_filter.1 hp).1)
  | isel n slices =>
    have hn := hds n List.mem_cons_self
    refine on_grow fun d c hd => asDs_grow ?_
    simp only [Heap.isel]
    split
    · exact g
    · split
      · exact g
      · rename_i l e
        refine g.derive _ _ _ _ _ fun p hp => ?_
        obtain ⟨o, ho, e⟩ := mapPy_objs (fun o y hy => by
          simp only [Heap.iselVar] at hy
          cases h1 : getitem 0 (o.dims.map (Ds.sliceOf slices)) o.array.view with
          | error x => rw [h1] at hy; cases hy
          | ok w =>
            rw [h1] at hy
            have hy : (if w.shape = [] then _ else _ : Py (VarObj V × Joined V)) = .ok y := hy
            split at hy
            · split at hy
              · cases hy
              · cases hy; rfl
            · cases hy; rfl) e p hp
        rw [e]
        exact oko hn hd o ho
  | delete n ixs axis =>
    have hn := hds n List.mem_cons_self
    refine on_grow fun d c hd => asDs_grow ?_
    simp only [Heap.deleteDs]
    split
    · exact g
    · rename_i l e
      refine g.derive _ _ _ _ _ fun p hp => ?_
      obtain ⟨o, ho, e⟩ := mapPy_objs (fun o y hy => by
        simp only [Heap.deleteVar] at hy
        split at hy
        · cases hy
        · rename_i v _
          cases h1 : Ds.deleteVar ixs axis v with
          | error x => rw [h1] at hy; cases hy
          | ok w => rw [h1] at hy; cases hy; rfl) e p hp
      rw [e]
      exact oko hn hd o ho
  | concat n others dim =>
    have hn := hds n List.mem_cons_self
    refine on_grow fun d c hd => ?_
    split
    · exact g
    · refine asDs_grow ?_
      simp only [Heap.concat]
      split
      · exact g
      · split
        · exact g
        · split
          · exact g
          · rename_i l e
            refine g.derive _ _ _ _ _ fun p hp => ?_
            obtain ⟨o, ho, e⟩ := mapPy_objs (fun o y hy => by
              cases h1 : Ds.mapPy (fun x => h.getObj x o.name) _ with
              | error x => rw [h1] at hy; cases hy
              | ok ws =>
                rw [h1] at hy
                have hy : h.concatVar o (ws.map (·.2)) dim = .ok y := hy
                simp only [Heap.concatVar] at hy
                split at hy
                · cases hy
                · split at hy
                  · cases hy
                  · split at hy
                    · cases hy; rfl
                    · split at hy
                      · cases hy; rfl
                      · cases hy; rfl
                      · cases hy) e p hp
            rw [e]
            exact oko hn hd o ho
  | setForInsertion n chunks limit =>
    have hn := hds n List.mem_cons_self
    refine on_grow fun d c hd => asDs_grow (g.build _ _ _ _ _ fun o ho => ?_)
    obtain ⟨o', ho', rfl⟩ := List.mem_map.1 ho
    exact oko hn hd o' ho'
  | compute n =>
    have hn := hds n List.mem_cons_self
    refine on_grow fun d c hd => asDs_grow ?_
    simp only [Heap.compute]
    split
    · exact g
    · refine g.derive _ _ _ _ _ fun p hp => ?_
      obtain ⟨o, ho, e⟩ := List.mem_map.1 (copied_objs p hp)
      rw [← e]
      exact oko hn hd o ho
  | rechunk n =>
    have hn := hds n List.mem_cons_self
    refine on_grow fun d c hd => asDs_grow ?_
    simp only [Heap.rechunk]
    split
    · exact g
    · exact g.build _ _ _ _ _ (oko hn hd)
  | pickle n =>
    have hn := hds n List.mem_cons_self
    refine on_grow fun d c hd => asDs_grow ?_
    obtain ⟨g1, ok⟩ := g.joined (h.copied (h.objects d)) fun p hp => oko hn hd _ (copied_objs p hp)
    exact (g1.addVars _ ok).newDs _ _
      (fun p hp => .inr (Nat.le_trans g1.nvars (mapIdx_ge
        (h.joined (h.copied (h.objects d))).2 _ (fun o => o.name) p hp)))
      (.inr g1.ndicts)
  | merge n other =>
    have hn := hds n List.mem_cons_self
    have ho := hds other (List.mem_cons_of_mem _ List.mem_cons_self)
    refine on_grow fun d c hd => on_grow fun o c' hd' => ?_
    rw [changed_fst]
    refine g.setDs _ _ rfl (fun p hp => ?_) ?_
    · rcases (mergeDs_mem d o).2 p hp with hp | hp
      · exact okd hn hd p hp
      · exact okd ho hd' p hp
    · rw [(mergeDs_mem d o).1]
      exact okc hn hd
  | rename n names =>
    have hn := hds n List.mem_cons_self
    refine on_grow fun d c hd => ?_
    rw [changed_fst]
    obtain ⟨g1, h1, h2⟩ := rename_grow g (d := d) (fun p hp =>
      ⟨okd hn hd p hp, fun o ho => bufOk_of hn ⟨p.2, o, ⟨d, p.1, hd, hp⟩, ho, rfl⟩⟩) names
    exact g1.setDs _ _ rfl h2 (by rw [h1]; exact okc hn hd)
  | dropVars n names =>
    have hn := hds n List.mem_cons_self
    refine on_grow fun d c hd => ?_
    rw [changed_fst]
    obtain ⟨h1, h2⟩ := dropVars_mem d names
    exact g.setDs _ _ rfl (fun p hp => okd hn hd p (h2 p hp)) (by rw [h1]; exact okc hn hd)
  | addVariable n m noneValue hand =>
    have hn := hds n List.mem_cons_self
    refine on_grow fun d c hd => ?_
    split
    · rw [changed_fst]
      obtain ⟨g1, h1, h2⟩ := addVariable_grow g hn hd m noneValue none nofun
      exact g1.setDs _ _ rfl h2 (by rw [h1]; exact okc hn hd)
    · rename_i k
      split
      · exact g
      · rename_i r hr
        rw [changed_fst]
        obtain ⟨g1, h1, h2⟩ := addVariable_grow g hn hd m noneValue (some r) (fun a ha => by
          cases ha
          exact .inr (.inl ⟨k, r, hhs k List.mem_cons_self, hr, rfl⟩))
        exact g1.setDs _ _ rfl h2 (by rw [h1]; exact okc hn hd)
  | fillAttrs n attrs m =>
    have hn := hds n List.mem_cons_self
    refine on_grow fun d c hd => ?_
    rw [changed_fst]
    exact (fillLoop_grow g m d.vars (okd hn hd)).setDs _ _ rfl (okd (d := d) hn hd)
      (okc (d := d) hn hd)
  | copyProperties n other =>
    have hn := hds n List.mem_cons_self
    have ho := hds other (List.mem_cons_of_mem _ List.mem_cons_self)
    exact on_grow fun d c hd => on_grow fun o c' hd' =>
      g.setDs _ _ rfl (okd (d := d) hn hd) (okc (d := o) ho hd')

end Verif.Sh
