import Verif.Lemmas.Sharing
import Verif.Lemmas.SharingView
import Verif.Lemmas.Dataset

/-!
The references of the objects that a program makes are valid.
-/

namespace Verif.Sh

open Nd Spec

variable {V : Type}

/-- The variable at the place `p.2` has the name `p.1`. -/
def Named (h : Heap V) (p : String × Nat) : Prop := ∃ o, h.vars[p.2]? = some o ∧ o.name = p.1

/-- An array on a buffer that exists, with distinct elements at distinct positions. -/
def RefOk (h : Heap V) (r : Ref) : Prop := r.buf < h.bufs.length ∧ Inj r.view

theorem RefOk.mono {h h' : Heap V} {r : Ref} (ok : RefOk h r)
    (le : h.bufs.length ≤ h'.bufs.length) : RefOk h' r := ⟨Nat.lt_of_lt_of_le ok.1 le, ok.2⟩

structure Valid (h : Heap V) : Prop where
  objs : ∀ (r : Nat) (o : VarObj V), h.vars[r]? = some o → RefOk h o.array
  hands : ∀ (k : Nat) (a : Ref), h.hands[k]? = some a → RefOk h a
  sets : ∀ (n : Nat) (D : DsObj), h.sets[n]? = some D →
    D.chunks < h.dicts.length ∧ ∀ p ∈ D.vars, Named h p

theorem valid_empty : Valid (empty : Heap V) :=
  ⟨fun r o e => by simp [empty] at e, fun r o e => by simp [empty] at e,
   fun r o e => by simp [empty] at e⟩

section
variable {h : Heap V}

theorem Named.addVars {l : List (VarObj V)} {p : String × Nat} (hp : Named h p) :
    Named { h with vars := h.vars ++ l } p := by
  obtain ⟨o, h1, h2⟩ := hp
  exact ⟨o, by rw [← h1]; exact List.getElem?_append_left (List.getElem?_eq_some_iff.1 h1).1, h2⟩

theorem Valid.addBufs (v : Valid h) (l : List (Arr V)) :
    Valid { h with bufs := h.bufs ++ l } where
  objs r o e := (v.objs r o e).mono (by simp)
  hands k a e := (v.hands k a e).mono (by simp)
  sets := v.sets

theorem Valid.setBuf (v : Valid h) (i : Nat) (b : Arr V) :
    Valid { h with bufs := h.bufs.set i b } where
  objs r o e := (v.objs r o e).mono (by simp)
  hands k a e := (v.hands k a e).mono (by simp)
  sets := v.sets

theorem Valid.addVars (v : Valid h) (l : List (VarObj V))
    (ok : ∀ o ∈ l, RefOk h o.array) : Valid { h with vars := h.vars ++ l } where
  objs r o e := by
    rcases append_some e with e | e
    · exact v.objs r o e
    · exact ok o e
  hands := v.hands
  sets n D e := ⟨(v.sets n D e).1, fun p hp => ((v.sets n D e).2 p hp).addVars⟩

theorem Named.setObj {p : String × Nat} (hp : Named h p) {r : Nat} {o o' : VarObj V}
    (ho : h.vars[r]? = some o') (hn : o.name = o'.name) : Named (h.setObj r o) p := by
  obtain ⟨x, h1, h2⟩ := hp
  by_cases e : r = p.2
  · subst e
    rw [ho] at h1
    cases h1
    refine ⟨o, ?_, by rw [hn, h2]⟩
    simp only [Heap.setObj, List.getElem?_set]
    simp [(List.getElem?_eq_some_iff.1 ho).1]
  · refine ⟨x, ?_, h2⟩
    simp only [Heap.setObj, List.getElem?_set, e, if_false]
    exact h1

theorem Valid.setObj (v : Valid h) {r : Nat} {o o' : VarObj V} (ho : h.vars[r]? = some o')
    (hn : o.name = o'.name) (hb : RefOk h o.array) : Valid (h.setObj r o) where
  objs s x e := by
    simp only [Heap.setObj, List.getElem?_set] at e
    split at e
    · split at e
      · cases e; exact hb
      · cases e
    · exact v.objs s x e
  hands := v.hands
  sets n D e := ⟨(v.sets n D e).1, fun p hp => ((v.sets n D e).2 p hp).setObj ho hn⟩

theorem Valid.setDs (v : Valid h) (n : Nat) (D : DsObj) (hc : D.chunks < h.dicts.length)
    (hv : ∀ p ∈ D.vars, Named h p) : Valid (h.setDs n D) where
  objs := v.objs
  hands := v.hands
  sets m x e := by
    simp only [Heap.setDs, List.getElem?_set] at e
    split at e
    · split at e
      · cases e; exact ⟨hc, hv⟩
      · cases e
    · exact v.sets m x e

theorem Valid.newDs (v : Valid h) (chunks : List (String × Nat)) (D : DsObj)
    (hc : D.chunks ≤ h.dicts.length) (hv : ∀ p ∈ D.vars, Named h p) :
    Valid { h with dicts := h.dicts ++ [chunks], sets := h.sets ++ [D] } where
  objs := v.objs
  hands := v.hands
  sets m x e := by
    rcases append_some e with e | e
    · exact ⟨Nat.lt_of_lt_of_le (v.sets m x e).1 (by simp), (v.sets m x e).2⟩
    · obtain rfl := List.mem_singleton.1 e
      exact ⟨Nat.lt_of_le_of_lt hc (by simp), hv⟩

theorem Valid.setDict (v : Valid h) (c : Nat) (x : List (String × Nat)) :
    Valid { h with dicts := h.dicts.set c x } where
  objs := v.objs
  hands := v.hands
  sets m y e := ⟨Nat.lt_of_lt_of_le (v.sets m y e).1 (by simp), (v.sets m y e).2⟩

theorem Valid.addHand (v : Valid h) (a : Ref) (ha : RefOk h a) :
    Valid { h with hands := h.hands ++ [a] } where
  objs := v.objs
  hands k x e := by
    rcases append_some e with e | e
    · exact v.hands k x e
    · obtain rfl := List.mem_singleton.1 e
      exact ha
  sets := v.sets

theorem foldl_put_mem (l acc : List (String × Nat)) :
    ∀ p ∈ l.foldl put acc, p ∈ acc ∨ p ∈ l := by
  induction l generalizing acc with
  | nil => intro p hp; exact .inl hp
  | cons q t ih =>
    intro p hp
    rcases ih (put acc q) p hp with hp | hp
    · rcases put_mem acc q p hp with hp | hp
      · exact .inl hp
      · subst hp
        exact .inr List.mem_cons_self
    · exact .inr (List.mem_cons_of_mem _ hp)

theorem Valid.construct (v : Valid h) (vars : List (String × Nat))
    (attrs : List (String × String)) (chunks : List (String × Nat)) (limit : Nat)
    (delayed : Option Bool) (hv : ∀ p ∈ vars, Named h p) :
    Valid (h.construct vars attrs chunks limit delayed).1 := by
  simp only [Heap.construct]
  split
  · exact v
  · refine v.newDs _ _ (Nat.le_refl _) fun p hp => ?_
    rcases foldl_put_mem vars [] p hp with hp | hp
    · cases hp
    · exact hv p hp

theorem allocate_named (h : Heap V) (l : List (VarObj V)) :
    ∀ p ∈ (h.allocate l).2, Named (h.allocate l).1 p := by
  intro p hp
  simp only [Heap.allocate] at hp
  obtain ⟨i, hi, e⟩ := List.mem_mapIdx.1 hp
  subst e
  refine ⟨l[i], ?_, rfl⟩
  simp only [Heap.allocate]
  rw [List.getElem?_append_right (by simp)]
  simp [hi]

theorem Valid.build (v : Valid h) (l : List (VarObj V)) (attrs : List (String × String))
    (chunks : List (String × Nat)) (limit : Nat) (delayed : Option Bool)
    (ok : ∀ o ∈ l, RefOk h o.array) :
    Valid (h.build l attrs chunks limit delayed).1 :=
  (v.addVars l ok).construct _ _ _ _ _ (allocate_named h l)

theorem Valid.joined (v : Valid h) (l : List (VarObj V × Joined V))
    (ok : ∀ p ∈ l, RefOk h p.1.array) (inj : ∀ p ∈ l, ∀ w, p.2 = .same w → Inj w) :
    Valid (h.joined l).1 ∧ h.bufs.length ≤ (h.joined l).1.bufs.length ∧
      ∀ o ∈ (h.joined l).2, RefOk ((h.joined l).1) o.array := by
  induction l generalizing h with
  | nil => exact ⟨v, Nat.le_refl _, nofun⟩
  | cons p t ih =>
    obtain ⟨o, j⟩ := p
    cases j with
    | same w =>
      obtain ⟨v1, h1, h2⟩ := ih v (fun p hp => ok p (List.mem_cons_of_mem _ hp))
        fun p hp => inj p (List.mem_cons_of_mem _ hp)
      refine ⟨v1, h1, fun x hx => ?_⟩
      rcases List.mem_cons.1 hx with rfl | hx
      · exact ⟨((ok _ List.mem_cons_self).mono h1).1, inj _ List.mem_cons_self w rfl⟩
      · exact h2 x hx
    | fresh a =>
      obtain ⟨v1, h1, h2⟩ := ih (v.addBufs [a])
        (fun p hp => (ok p (List.mem_cons_of_mem _ hp)).mono (by simp))
        fun p hp => inj p (List.mem_cons_of_mem _ hp)
      simp only [List.length_append, List.length_singleton] at h1
      refine ⟨v1, Nat.le_trans (Nat.le_succ _) h1, fun x hx => ?_⟩
      rcases List.mem_cons.1 hx with rfl | hx
      · exact ⟨h1, inj_whole _ _⟩
      · exact h2 x hx

theorem Valid.derive (v : Valid h) (l : List (VarObj V × Joined V))
    (attrs : List (String × String)) (chunks : List (String × Nat)) (limit : Nat)
    (delayed : Option Bool) (ok : ∀ p ∈ l, RefOk h p.1.array)
    (inj : ∀ p ∈ l, ∀ w, p.2 = .same w → Inj w) :
    Valid (h.derive l attrs chunks limit delayed).1 :=
  (v.joined l ok inj).1.build _ _ _ _ _ (v.joined l ok inj).2.2

theorem Valid.asDs {x : Heap V × Py Nat} (g : Valid x.1) : Valid (asDs x).1 := by
  rw [asDs_fst]; exact g

theorem on_valid (v : Valid h) {n : Nat} {f : DsObj → List (String × Nat) → Heap V × Py Res}
    (hf : ∀ d c, h.sets[n]? = some d → Valid (f d c).1) : Valid (h.on n f).1 := by
  simp only [Heap.on]
  split
  · exact v
  · rename_i d c e
    exact hf d c (getDs_spec e).1

theorem onVar_valid (v : Valid h) {n : Nat} {name : String}
    {f : Nat → VarObj V → Heap V × Py Res}
    (hf : ∀ r o, h.vars[r]? = some o → Valid (f r o).1) : Valid (h.onVar n name f).1 := by
  refine on_valid v fun d c hd => ?_
  split
  · exact v
  · rename_i r o e
    exact hf r o (getObj_spec e).2

theorem adopt_valid (v : Valid h) {b : Bool} {a : Ref} (ha : RefOk h a)
    {q : Heap V × Ref} (e : h.adopt b a = some q) :
    Valid q.1 ∧ q.1.vars = h.vars ∧ q.1.sets = h.sets ∧ q.1.dicts = h.dicts ∧
      q.1.hands = h.hands ∧ h.bufs.length ≤ q.1.bufs.length ∧ RefOk q.1 q.2 := by
  simp only [Heap.adopt] at e
  split at e
  · obtain ⟨x, _, e⟩ := Option.map_eq_some_iff.1 e
    subst e
    exact ⟨v.addBufs _, rfl, rfl, rfl, rfl, by simp, ⟨by simp [whole], inj_whole _ _⟩⟩
  · cases e
    exact ⟨v, rfl, rfl, rfl, rfl, Nat.le_refl _, ha⟩

theorem givens_valid (v : Valid h) {l : List (Given V)} {q : Heap V × List (VarObj V)}
    (e : h.givens l = some q) :
    Valid q.1 ∧ h.bufs.length ≤ q.1.bufs.length ∧ ∀ o ∈ q.2, RefOk (q.1) o.array := by
  induction l generalizing h q with
  | nil =>
    simp only [Heap.givens] at e
    cases e
    exact ⟨v, Nat.le_refl _, nofun⟩
  | cons x t ih =>
    simp only [Heap.givens, Option.bind_eq_some_iff, Option.map_eq_some_iff] at e
    obtain ⟨r, h1, p, h2, q', h3, e⟩ := e
    subst e
    obtain ⟨v1, -, -, -, -, l1, l2⟩ := adopt_valid v (v.hands _ r h1) h2
    obtain ⟨v2, l3, l4⟩ := ih v1 h3
    refine ⟨v2, Nat.le_trans l1 l3, fun o ho => ?_⟩
    rcases List.mem_cons.1 ho with rfl | ho
    · exact l2.mono l3
    · exact l4 o ho

theorem objects_valid (v : Valid h) (d : DsObj) :
    ∀ o ∈ h.objects d, RefOk h o.array := by
  intro o ho
  obtain ⟨p, hp, e⟩ := List.mem_filterMap.1 ho
  exact v.objs _ _ e

theorem copied_fresh (h : Heap V) (l : List (VarObj V)) :
    ∀ p ∈ h.copied l, ∀ w, p.2 = .same w → Inj w := by
  intro p hp w e
  obtain ⟨o, _, h1⟩ := List.mem_filterMap.1 hp
  obtain ⟨a, _, h1⟩ := Option.map_eq_some_iff.1 h1
  subst h1
  cases e

theorem Valid.derived (v : Valid h) {d : DsObj} {f : VarObj V → Py (VarObj V × Joined V)}
    (hf : ∀ o y, Inj o.array.view → f o = .ok y → y.1 = o ∧ ∀ w, y.2 = .same w → Inj w)
    {l : List (VarObj V × Joined V)} (e : Ds.mapPy f (h.objects d) = .ok l)
    (attrs : List (String × String)) (chunks : List (String × Nat)) (limit : Nat)
    (delayed : Option Bool) : Valid (h.derive l attrs chunks limit delayed).1 := by
  have key : ∀ p ∈ l, RefOk h p.1.array ∧ ∀ w, p.2 = .same w → Inj w := by
    intro p hp
    obtain ⟨o, ho, h1⟩ := mapPy_mem _ _ _ e p hp
    have h2 := objects_valid v d o ho
    obtain ⟨h3, h4⟩ := hf o p h2.2 h1
    exact ⟨h3 ▸ h2, h4⟩
  exact v.derive _ _ _ _ _ (fun p hp => (key p hp).1) fun p hp => (key p hp).2

theorem rename_valid (v : Valid h) {d : DsObj} (hd : ∀ p ∈ d.vars, Named h p)
    (names : List (String × String)) :
    Valid (h.rename d names).1 ∧ (h.rename d names).2.1.chunks = d.chunks ∧
      (h.rename d names).1.dicts = h.dicts ∧
      ∀ p ∈ (h.rename d names).2.1.vars, Named (h.rename d names).1 p := by
  induction names generalizing h d with
  | nil => exact ⟨v, rfl, rfl, hd⟩
  | cons x t ih =>
    obtain ⟨old, new⟩ := x
    simp only [Heap.rename]
    split
    · exact ⟨v, rfl, rfl, hd⟩
    · split
      · exact ⟨v, rfl, rfl, hd⟩
      · rename_i r o e
        obtain ⟨h1, h2⟩ := getObj_spec e
        obtain ⟨v1, e1, e2, h3⟩ := ih (v.addVars [{ o with name := new }] (by
          intro x hx
          obtain rfl := List.mem_singleton.1 hx
          exact v.objs r o h2))
          (d := { d with vars := (d.vars.filter fun (p : String × Nat) => decide (p.1 ≠ old)) ++
                            [(new, h.vars.length)] }) (by
          intro p hp
          rcases List.mem_append.1 hp with hp | hp
          · exact (hd p (List.mem_filter.1 hp).1).addVars
          · obtain rfl := List.mem_singleton.1 hp
            exact ⟨{ o with name := new }, by simp, rfl⟩)
        exact ⟨v1, e1, e2, h3⟩

theorem fillLoop_valid (v : Valid h) (m l : List (String × Nat)) :
    Valid { h with vars := (fillLoop m l h.vars).1 } ∧
      ∀ p, Named h p → Named { h with vars := (fillLoop m l h.vars).1 } p := by
  induction l generalizing h with
  | nil => exact ⟨v, fun p hp => hp⟩
  | cons p t ih =>
    obtain ⟨n, r⟩ := p
    simp only [fillLoop]
    split
    · exact ⟨v, fun p hp => hp⟩
    · rename_i o ho
      split
      · exact ⟨v, fun p hp => hp⟩
      · rename_i a _
        obtain ⟨v1, h1⟩ := ih (v.setObj (o := { o with attrs := a }) ho rfl (v.objs r o ho))
        exact ⟨v1, fun p hp => h1 p (hp.setObj ho rfl)⟩

theorem addVariable_valid (v : Valid h) {n : Nat} {d : DsObj} (hd : h.sets[n]? = some d)
    (m : Ds.VarMeta V) (noneValue : Py V) (hand : Option Ref)
    (hh : ∀ a, hand = some a → RefOk h a) :
    Valid (h.addVariable d m noneValue hand).1 ∧
      (h.addVariable d m noneValue hand).2.1.chunks = d.chunks ∧
      (h.addVariable d m noneValue hand).1.dicts = h.dicts ∧
      ∀ p ∈ (h.addVariable d m noneValue hand).2.1.vars,
        Named (h.addVariable d m noneValue hand).1 p := by
  have hd' := (v.sets n d hd).2
  simp only [Heap.addVariable]
  split
  · exact ⟨v, rfl, rfl, hd'⟩
  · split
    · exact ⟨v, rfl, rfl, hd'⟩
    · rename_i h1 r e
      have key : Valid h1 ∧ h1.vars = h.vars ∧ h1.dicts = h.dicts ∧ RefOk h1 r := by
        simp only [Heap.dataFor] at e
        split at e
        · split at e
          · cases e
          · cases e
            exact ⟨v.addBufs _, rfl, rfl, ⟨by simp [whole], inj_whole _ _⟩⟩
        · rename_i a
          split at e
          · cases e
          · split at e
            · cases e
            · rename_i q hq
              cases e
              obtain ⟨v1, e1, -, e2, -, -, l2⟩ := adopt_valid v (hh a rfl) hq
              exact ⟨v1, e1, e2, l2⟩
      obtain ⟨v1, e1, e2, l1⟩ := key
      refine ⟨v1.addVars _ ?_, rfl, e2, ?_⟩
      · intro o ho
        obtain rfl := List.mem_singleton.1 ho
        exact l1
      · intro p hp
        rcases put_mem _ _ p hp with hp | hp
        · have : Named h1 p := by
            obtain ⟨o, h2, h3⟩ := hd' p hp
            exact ⟨o, by rw [e1]; exact h2, h3⟩
          exact this.addVars
        · subst hp
          exact ⟨{ name := m.name, delayed := d.delayed, dims := m.dims, array := r,
                   fill := m.fill, attrs := m.props }, by simp, rfl⟩

end

/-- The references stay valid. -/
theorem step_valid {h : Heap V} (v : Valid h) (c : Call V) : Valid (step h c).1 := by
  cases c with
  | array a => exact (v.addBufs [a]).addHand _ ⟨by simp [whole], inj_whole _ _⟩
  | write k idx x =>
    simp only [step]
    split
    · exact v
    · simp only [Heap.write]
      split
      · split
        · exact v.setBuf _ _
        · exact v
      · exact v
  | dataset l attrs chunks limit delayed =>
    simp only [step]
    split
    · exact v
    · rename_i h1 l1 e
      obtain ⟨v1, -, ok⟩ := givens_valid v e
      exact (v1.build _ _ _ _ _ ok).asDs
  | values n name =>
    refine onVar_valid v fun r o ho => ?_
    simp only [Heap.values]
    split
    · exact v.addHand _ (v.objs r o ho)
    · split
      · exact v
      · exact (v.addBufs _).addHand _ ⟨by simp [whole], inj_whole _ _⟩
  | assign n name k =>
    refine onVar_valid v fun r o ho => ?_
    split
    · exact v
    · rename_i a ha
      simp only [Heap.assign]
      split
      · exact v
      · split
        · exact v
        · rename_i h1 a1 e
          obtain ⟨v1, e1, -, -, -, -, l2⟩ := adopt_valid v (v.hands k a ha) e
          have ho1 : h1.vars[r]? = some o := e1 ▸ ho
          exact v1.setObj ho1 rfl l2
  | fill n name =>
    refine onVar_valid v fun r o ho => ?_
    simp only [Heap.fill]
    split
    · exact v
    · exact (v.addBufs _).setObj ho rfl ⟨by simp [whole], inj_whole _ _⟩
  | setChunk n dim x => exact on_valid v fun d c hd => v.setDict _ _
  | selectVars n names =>
    refine on_valid v fun d c hd => Valid.asDs ?_
    simp only [Heap.selectVars]
    split
    · exact v
    · rename_i l e
      refine v.construct _ _ _ _ _ fun p hp => ?_
      obtain ⟨q, hq, rfl⟩ := List.mem_map.1 hp
      obtain ⟨m, _, hm⟩ := mapPy_mem _ _ _ e q hq
      exact ⟨q.2, (getObj_spec hm).2, rfl⟩
  | byDims n dims predicate =>
    exact on_valid v fun d c hd => Valid.asDs (v.construct _ _ _ _ _ fun p hp =>
      (v.sets n d hd).2 p (List.mem_filter.1 hp).1)
  | isel n slices =>
    refine on_valid v fun d c hd => Valid.asDs ?_
    simp only [Heap.isel]
    split
    · exact v
    · split
      · exact v
      · rename_i l e
        refine v.derived (fun o y ho hy => ?_) e _ _ _ _
        simp only [Heap.iselVar] at hy
        cases h1 : getitem 0 (o.dims.map (Ds.sliceOf slices)) o.array.view with
        | error x => rw [h1] at hy; cases hy
        | ok w =>
          rw [h1] at hy
          have hy : (if w.shape = [] then _ else _ : Py (VarObj V × Joined V)) = .ok y := hy
          split at hy
          · split at hy
            · cases hy
            · cases hy
              exact ⟨rfl, nofun⟩
          · cases hy
            refine ⟨rfl, fun u hu => ?_⟩
            cases hu
            exact inj_getitem ho h1
  | delete n ixs axis =>
    refine on_valid v fun d c hd => Valid.asDs ?_
    simp only [Heap.deleteDs]
    split
    · exact v
    · rename_i l e
      refine v.derived (fun o y ho hy => ?_) e _ _ _ _
      simp only [Heap.deleteVar] at hy
      split at hy
      · cases hy
      · rename_i x _
        cases h1 : Ds.deleteVar ixs axis x with
        | error x => rw [h1] at hy; cases hy
        | ok w =>
          rw [h1] at hy
          cases hy
          exact ⟨rfl, nofun⟩
  | concat n others dim =>
    refine on_valid v fun d c hd => ?_
    split
    · exact v
    · refine Valid.asDs ?_
      simp only [Heap.concat]
      split
      · exact v
      · split
        · exact v
        · split
          · exact v
          · rename_i l e
            refine v.derived (fun o y ho hy => ?_) e _ _ _ _
            cases h1 : Ds.mapPy (fun x => h.getObj x o.name) _ with
            | error x => rw [h1] at hy; cases hy
            | ok ws =>
              rw [h1] at hy
              have hy : h.concatVar o (ws.map (·.2)) dim = .ok y := hy
              have same : ∀ w, Joined.same (V := V) o.array.view = .same w → Inj w := by
                intro w hw
                cases hw
                exact ho
              simp only [Heap.concatVar] at hy
              split at hy
              · cases hy
              · split at hy
                · cases hy
                · split at hy
                  · cases hy
                    exact ⟨rfl, same⟩
                  · split at hy
                    · cases hy
                      exact ⟨rfl, nofun⟩
                    · cases hy
                      exact ⟨rfl, same⟩
                    · cases hy
  | setForInsertion n chunks limit =>
    refine on_valid v fun d c hd => Valid.asDs (v.build _ _ _ _ _ fun o ho => ?_)
    obtain ⟨o', ho', rfl⟩ := List.mem_map.1 ho
    exact objects_valid v d o' ho'
  | compute n =>
    refine on_valid v fun d c hd => Valid.asDs ?_
    simp only [Heap.compute]
    split
    · exact v
    · refine v.derive _ _ _ _ _ (fun p hp => ?_) (copied_fresh _ _)
      obtain ⟨o, ho, e⟩ := List.mem_map.1 (copied_objs p hp)
      rw [← e]
      exact objects_valid v d o ho
  | rechunk n =>
    refine on_valid v fun d c hd => Valid.asDs ?_
    simp only [Heap.rechunk]
    split
    · exact v
    · exact v.build _ _ _ _ _ (objects_valid v d)
  | pickle n =>
    refine on_valid v fun d c hd => Valid.asDs ?_
    obtain ⟨v1, -, ok⟩ := v.joined (h.copied (h.objects d)) (fun p hp =>
      objects_valid v d _ (copied_objs p hp)) (copied_fresh _ _)
    exact (v1.addVars _ ok).newDs _ _ (Nat.le_refl _) (allocate_named _ _)
  | merge n other =>
    refine on_valid v fun d c hd => on_valid v fun o c' hd' => ?_
    rw [changed_fst]
    refine v.setDs _ _ ?_ fun p hp => ?_
    · rw [(mergeDs_mem d o).1]
      exact (v.sets n d hd).1
    · rcases (mergeDs_mem d o).2 p hp with hp | hp
      · exact (v.sets n d hd).2 p hp
      · exact (v.sets other o hd').2 p hp
  | rename n names =>
    refine on_valid v fun d c hd => ?_
    rw [changed_fst]
    obtain ⟨v1, h1, h2, h3⟩ := rename_valid v (v.sets n d hd).2 names
    exact v1.setDs _ _ (by rw [h1, h2]; exact (v.sets n d hd).1) h3
  | dropVars n names =>
    refine on_valid v fun d c hd => ?_
    rw [changed_fst]
    obtain ⟨h1, h2⟩ := dropVars_mem d names
    exact v.setDs _ _ (by rw [h1]; exact (v.sets n d hd).1)
      (fun p hp => (v.sets n d hd).2 p (h2 p hp))
  | addVariable n m noneValue hand =>
    refine on_valid v fun d c hd => ?_
    split
    · rw [changed_fst]
      obtain ⟨v1, h1, h2, h3⟩ := addVariable_valid v hd m noneValue none nofun
      exact v1.setDs _ _ (by rw [h1, h2]; exact (v.sets n d hd).1) h3
    · rename_i k
      split
      · exact v
      · rename_i r hr
        rw [changed_fst]
        obtain ⟨v1, h1, h2, h3⟩ := addVariable_valid v hd m noneValue (some r) (fun a ha => by
          cases ha
          exact v.hands k r hr)
        exact v1.setDs _ _ (by rw [h1, h2]; exact (v.sets n d hd).1) h3
  | fillAttrs n attrs m =>
    refine on_valid v fun d c hd => ?_
    rw [changed_fst]
    obtain ⟨v1, h1⟩ := fillLoop_valid v m d.vars
    exact v1.setDs _ _ (v.sets n d hd).1 fun p hp => h1 p ((v.sets n d hd).2 p hp)
  | copyProperties n other =>
    exact on_valid v fun d c hd => on_valid v fun o c' hd' =>
      v.setDs _ _ (v.sets other o hd').1 (v.sets n d hd).2

theorem run_valid {h : Heap V} (v : Valid h) (prog : List (Call V)) : Valid (run h prog) := by
  induction prog generalizing h with
  | nil => exact v
  | cons c t ih => exact ih (step_valid v c)

theorem made_valid {h : Heap V} (m : Made h) : Valid h := by
  obtain ⟨prog, rfl⟩ := m
  exact run_valid valid_empty prog

/-! ### What a confined program leaves alone -/

/-- What stays while a program runs that may touch the datasets `D` and the arrays `K` of `h`
only: nothing refers to the variables `PV`, the dictionaries `PC` and the buffers `PB`. -/
structure Safe (D K PV PC PB : Nat → Prop) (h h' : Heap V) : Prop where
  nbufs : h.bufs.length ≤ h'.bufs.length
  nvars : h.vars.length ≤ h'.vars.length
  ndicts : h.dicts.length ≤ h'.dicts.length
  nsets : h.sets.length ≤ h'.sets.length
  nhands : h.hands.length ≤ h'.hands.length
  noVar : ∀ n, D n ∨ h.sets.length ≤ n → ∀ r, HasVar h' n r → ¬ PV r
  noDict : ∀ n, D n ∨ h.sets.length ≤ n → ∀ c, HasDict h' n c → ¬ PC c
  noBuf : ∀ n, D n ∨ h.sets.length ≤ n → ∀ b, HasBuf h' n b → ¬ PB b
  noHand : ∀ k, K k ∨ h.hands.length ≤ k → ∀ a, h'.hands[k]? = some a → ¬ PB a.buf
  vars : ∀ r, PV r → h'.vars[r]? = h.vars[r]?
  dicts : ∀ c, PC c → h'.dicts[c]? = h.dicts[c]?

theorem safe_step {D K PV PC PB : Nat → Prop} {h h' : Heap V} {W : Prop} {T : Nat → Prop}
    (hv : ∀ r, PV r → r < h.vars.length) (hc : ∀ c, PC c → c < h.dicts.length)
    (hb : ∀ b, PB b → b < h.bufs.length) (s : Safe D K PV PC PB h h') {h'' : Heap V}
    (g : Grow W T (fun n => D n ∨ h.sets.length ≤ n) (fun k => K k ∨ h.hands.length ≤ k) h' h'') :
    Safe D K PV PC PB h h'' := by
  have okb : ∀ b, BufOk h' (fun n => D n ∨ h.sets.length ≤ n)
      (fun k => K k ∨ h.hands.length ≤ k) b → ¬ PB b := by
    intro b ok pb
    rcases ok with ⟨n, hn, ok⟩ | ⟨k, a, hk, ha, e⟩ | ok
    · exact s.noBuf n hn b ok pb
    · subst e
      exact s.noHand k hk a ha pb
    · have := hb b pb
      have := s.nbufs
      omega
  have okv : ∀ r, VarOk h' (fun n => D n ∨ h.sets.length ≤ n) r → ¬ PV r := by
    intro r ok pv
    rcases ok with ⟨n, hn, ok⟩ | ok
    · exact s.noVar n hn r ok pv
    · have := hv r pv
      have := s.nvars
      omega
  have nv : ∀ n, D n ∨ h.sets.length ≤ n → ∀ r, HasVar h'' n r →
      HasVar h' n r ∨ VarOk h' (fun n => D n ∨ h.sets.length ≤ n) r := by
    rintro n hn r ⟨D', name, e, hp⟩
    rcases g.holds n D' e with e1 | e1
    · exact .inl ⟨D', name, e1, hp⟩
    · exact .inr (e1.1 _ hp)
  refine ⟨Nat.le_trans s.nbufs g.nbufs, Nat.le_trans s.nvars g.nvars,
    Nat.le_trans s.ndicts g.ndicts, Nat.le_trans s.nsets g.nsets,
    Nat.le_trans s.nhands g.nhands, ?_, ?_, ?_, ?_, ?_, ?_⟩
  · intro n hn r hr
    rcases nv n hn r hr with h1 | h1
    · exact s.noVar n hn r h1
    · exact okv r h1
  · rintro n hn c ⟨D', e, hp⟩
    rcases g.holds n D' e with e1 | e1
    · exact s.noDict n hn c ⟨D', e1, hp⟩
    · subst hp
      rcases e1.2 with ⟨m, hm, ok⟩ | ok
      · exact s.noDict m hm _ ok
      · intro pc
        have := hc _ pc
        have := s.ndicts
        omega
  · rintro n hn b ⟨r, o, hr, ho, e⟩
    rcases g.objs r o ho with h1 | h1
    · rcases nv n hn r hr with h2 | h2
      · exact s.noBuf n hn b ⟨r, o, h2, h1, e⟩
      · rcases h2 with ⟨m, hm, h2⟩ | h2
        · exact s.noBuf m hm b ⟨r, o, h2, h1, e⟩
        · have := (List.getElem?_eq_some_iff.1 h1).1
          omega
    · subst e
      exact okb _ h1
  · intro k hk a ha
    rcases g.newHands k a ha with h1 | h1
    · exact s.noHand k hk a h1
    · exact okb _ h1
  · intro r pv
    rcases g.vars r (Nat.lt_of_lt_of_le (hv r pv) s.nvars) with h1 | ⟨n, hn, h1⟩
    · rw [h1]
      exact s.vars r pv
    · exact absurd pv (s.noVar n hn r h1)
  · intro c pc
    rcases g.dicts c (Nat.lt_of_lt_of_le (hc c pc) s.ndicts) with h1 | ⟨n, hn, h1⟩
    · rw [h1]
      exact s.dicts c pc
    · exact absurd pc (s.noDict n hn c h1)

/-- A confined program: what it leaves, of the datasets that it does not name and of the
buffers. -/
theorem safe_run {D K PV PC PB : Nat → Prop} {h : Heap V}
    (hv : ∀ r, PV r → r < h.vars.length) (hc : ∀ c, PC c → c < h.dicts.length)
    (hb : ∀ b, PB b → b < h.bufs.length) (prog : List (Call V)) :
    ∀ h', Safe D K PV PC PB h h' → NamesOnly h D K prog →
      Safe D K PV PC PB h (run h' prog) ∧
      (∀ n, n < h.sets.length → ¬ D n → (run h' prog).sets[n]? = h'.sets[n]?) ∧
      ∀ b, b < h'.bufs.length → PB b ∨ (∀ c ∈ prog, ¬ InPlace c) →
        (run h' prog).bufs[b]? = h'.bufs[b]? := by
  induction prog with
  | nil => intro h' s _; exact ⟨s, fun _ _ _ => rfl, fun _ _ _ => rfl⟩
  | cons c t ih =>
    intro h' s cf
    have g := step_grow (DS := fun n => D n ∨ h.sets.length ≤ n)
      (HS := fun k => K k ∨ h.hands.length ≤ k) h' c (cf c List.mem_cons_self).1
      (cf c List.mem_cons_self).2
    obtain ⟨s1, h1, h2⟩ := ih _ (safe_step hv hc hb s g)
      fun x hx => cf x (List.mem_cons_of_mem _ hx)
    refine ⟨s1, ?_, ?_⟩
    · intro n hn hd
      rw [show run h' (c :: t) = run (step h' c).1 t from rfl, h1 n hn hd]
      rcases g.sets n (Nat.lt_of_lt_of_le hn s.nsets) with h3 | h3
      · exact h3
      · have : n ∈ namesOf c := by
          cases c <;> first | (cases h3; exact List.mem_cons_self) | cases h3
        rcases (cf c List.mem_cons_self).1 n this with h4 | h4
        · exact absurd h4 hd
        · omega
    · intro b hlt hp
      rw [show run h' (c :: t) = run (step h' c).1 t from rfl,
        h2 b (Nat.lt_of_lt_of_le hlt g.nbufs)
          (hp.imp_right fun hp x hx => hp x (List.mem_cons_of_mem _ hx))]
      rcases g.bufs b hlt with h3 | ⟨hw, k, a, hk, ha, e⟩
      · exact h3
      · rcases hp with hp | hp
        · subst e
          exact absurd hp (s.noHand k hk a ha)
        · exact absurd hw (hp c List.mem_cons_self)

/-- A dataset looks the same when its object, its dictionary, its variables and their buffers
are the same. -/
theorem see_congr {h h' : Heap V} {e : Nat} (hs : h'.sets[e]? = h.sets[e]?)
    (hd : ∀ c, HasDict h e c → h'.dicts[c]? = h.dicts[c]?)
    (hv : ∀ r, HasVar h e r → h'.vars[r]? = h.vars[r]?)
    (hb : ∀ b, HasBuf h e b → h'.bufs[b]? = h.bufs[b]?) : h'.see e = h.see e := by
  simp only [Heap.see, hs]
  cases he : h.sets[e]? with
  | none => rfl
  | some d =>
    simp only [Option.bind_some]
    rw [hd d.chunks ⟨d, he, rfl⟩]
    have : d.vars.filterMap (fun p => h'.var p.2) = d.vars.filterMap fun p => h.var p.2 := by
      have key : ∀ l : List (String × Nat), (∀ p ∈ l, p ∈ d.vars) →
          l.filterMap (fun p => h'.var p.2) = l.filterMap fun p => h.var p.2 := by
        intro l
        induction l with
        | nil => intro _; rfl
        | cons p t ih =>
          intro hl
          have hp : HasVar h e p.2 := ⟨d, p.1, he, hl p List.mem_cons_self⟩
          have : h'.var p.2 = h.var p.2 := by
            simp only [Heap.var, hv p.2 hp]
            cases ho : h.vars[p.2]? with
            | none => rfl
            | some o =>
              simp only [Option.bind_some, Heap.valueOf, Heap.read,
                hb o.array.buf ⟨p.2, o, hp, ho, rfl⟩]
          simp only [List.filterMap_cons, this,
            ih fun q hq => hl q (List.mem_cons_of_mem _ hq)]
      exact key d.vars fun p hp => hp
    rw [this]

end Verif.Sh
