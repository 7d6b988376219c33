import Verif.Lemmas.SharingRefine
import Verif.Props.Sharing

/-!
The calls on objects show the values of Model/Dataset.
-/

namespace Verif.Sh

open Nd Spec

variable {V : Type}

/-! ### New datasets -/

theorem getVarE_of {vars : List (Ds.Var V)} {name : String} {x : Ds.Var V}
    (e : Ds.getVar vars name = some x) : Ds.getVarE vars name = .ok x := by
  simp only [Ds.getVarE, e]

theorem getVarE_none {vars : List (Ds.Var V)} {name : String}
    (e : Ds.getVar vars name = none) : Ds.getVarE vars name = .error .keyError := by
  simp only [Ds.getVarE, e]

theorem filterMap_some_id {α : Type} (l : List α) : l.filterMap some = l := by
  induction l with
  | nil => rfl
  | cons a t ih => simp only [List.filterMap_cons, ih]

theorem iselVar_spec {h : Heap V} {o : VarObj V} (ok : RefOk h o.array) (key : List Ix) :
    (∃ y x, h.iselVar o key = .ok y ∧ y.1 = o ∧ (∀ w, y.2 = .same w → Inj w) ∧
      joinedVal h y = some x ∧
      ∀ z, h.valueOf o = some z → z.isel key = .ok x) ∨
    ∃ e, h.iselVar o key = .error e ∧ ∀ z, h.valueOf o = some z → z.isel key = .error e := by
  obtain ⟨b, h1, h2⟩ := value_of ok
  have nat := getitem_through 0 key o.array.view b
  simp only [Heap.iselVar, h2, Option.some.injEq, forall_eq', Ds.Var.isel]
  cases hg : getitem 0 key o.array.view with
  | error e =>
    rw [hg] at nat
    exact .inr ⟨e, rfl, by simp only [valWith, nat]; rfl⟩
  | ok w =>
    rw [hg] at nat
    have value : (do
        let a ← getitem 0 key (valWith o (through o.array.view b)).array
        Except.ok { valWith o (through o.array.view b) with array := a } : Py (Ds.Var V)) =
        .ok (valWith o (through w b)) := by
      simp only [valWith, nat]
      rfl
    refine .inl ?_
    by_cases hw : w.shape = []
    · refine ⟨(o, .fresh (through w b)), _, ?_, rfl, nofun, rfl, value⟩
      show (if w.shape = [] then _ else _ : Py (VarObj V × Joined V)) = _
      rw [if_pos hw, h1]
    · refine ⟨(o, .same w), valWith o (through w b), ?_, rfl, ?_, ?_, value⟩
      · show (if w.shape = [] then _ else _ : Py (VarObj V × Joined V)) = _
        rw [if_neg hw]
      · intro u hu
        cases hu
        exact inj_getitem ok.2 hg
      · simp only [joinedVal, h1, Option.map_some]

/-- A list comprehension over the variables, and the dataset made of the results. -/
theorem derived_makes {h : Heap V} (v : Valid h) (D : DsObj)
    {f : VarObj V → Py (VarObj V × Joined V)} {g : Ds.Var V → Py (Ds.Var V)}
    (hf : ∀ o, RefOk h o.array →
      (∃ y x, f o = .ok y ∧ y.1 = o ∧ (∀ w, y.2 = .same w → Inj w) ∧ joinedVal h y = some x ∧
        ∀ z, h.valueOf o = some z → g z = .ok x) ∨
      ∃ e, f o = .error e ∧ ∀ z, h.valueOf o = some z → g z = .error e)
    (attrs : List (String × String)) (chunks : List (String × Nat)) (limit : Nat)
    (delayed : Option Bool) :
    Makes (match Ds.mapPy f (h.objects D) with
      | .error e => (h, .error e)
      | .ok l => h.derive l attrs chunks limit delayed)
    (do
      let vars ← Ds.mapPy g (h.vals D.vars)
      Ds.mk vars attrs chunks limit delayed) := by
  have ho := objects_valid v D
  have r := mapPy_refines (f := f) (g := g) (A := h.valueOf) (B := joinedVal h) (h.objects D)
    fun o hm => by
      obtain ⟨b, h1, h2⟩ := value_of (ho o hm)
      refine ⟨_, h2, ?_⟩
      rcases hf o (ho o hm) with ⟨y, x, h3, _, _, h6, h7⟩ | ⟨e, h3, h4⟩
      · exact .inl ⟨y, x, h3, h6, h7 _ h2⟩
      · exact .inr ⟨e, h3, h4 _ h2⟩
  rw [objects_vals] at r
  rcases r with ⟨l, h1, h2⟩ | ⟨e, h1, h2⟩
  · rw [h1, h2]
    have key : ∀ p ∈ l, RefOk h p.1.array ∧ ∀ w, p.2 = .same w → Inj w := by
      intro p hp
      obtain ⟨o, hm, e⟩ := mapPy_mem _ _ _ h1 p hp
      rcases hf o (ho o hm) with ⟨y, x, h3, h4, h5, _⟩ | ⟨e', h3, _⟩
      · rw [e] at h3
        cases h3
        exact ⟨h4 ▸ ho o hm, h5⟩
      · rw [e] at h3
        cases h3
    exact derive_makes v (fun p hp => (key p hp).1) (fun p hp => (key p hp).2) _ _ _ _
  · rw [h1, h2]
    exact rfl

theorem concatVar_spec {h : Heap V} {o : VarObj V} (ok : RefOk h o.array)
    {others : List (VarObj V)} (hok : ∀ x ∈ others, RefOk h x.array) (dim : String) :
    (∃ y x, h.concatVar o others dim = .ok y ∧ y.1 = o ∧ (∀ w, y.2 = .same w → Inj w) ∧
      joinedVal h y = some x ∧
      ∀ z, h.valueOf o = some z →
        Ds.concatVar z (others.filterMap h.valueOf) dim = .ok x) ∨
    ∃ e, h.concatVar o others dim = .error e ∧
      ∀ z, h.valueOf o = some z →
        Ds.concatVar z (others.filterMap h.valueOf) dim = .error e := by
  obtain ⟨b, h1, h2⟩ := value_of ok
  have same : ∀ w, Joined.same (V := V) o.array.view = .same w → Inj w := by
    intro w hw
    cases hw
    exact ok.2
  have sameVal : joinedVal h (o, .same o.array.view) =
      some (valWith o (through o.array.view b)) := by
    simp only [joinedVal, h1, Option.map_some]
  have reads : ∀ l : List (VarObj V), (∀ x ∈ l, RefOk h x.array) →
      (l.filterMap fun x => h.read x.array) = (l.filterMap h.valueOf).map (·.array) ∧
      ((l.any fun x => x.delayed != o.delayed) = true ↔
        ∃ x ∈ l.filterMap h.valueOf, x.delayed ≠ o.delayed) ∧
      (l.isEmpty = true ↔ l.filterMap h.valueOf = []) := by
    intro l
    induction l with
    | nil => intro _; exact ⟨rfl, by simp, by simp⟩
    | cons x t ih =>
      intro hl
      obtain ⟨i1, i2, i3⟩ := ih fun y hy => hl y (List.mem_cons_of_mem _ hy)
      obtain ⟨b', h3, h4⟩ := value_of (hl x List.mem_cons_self)
      refine ⟨?_, ?_, ?_⟩
      · simp only [List.filterMap_cons, h4, Heap.read, h3, Option.map_some, List.map_cons]
        rw [← i1]
        rfl
      · simp only [List.any_cons, Bool.or_eq_true, i2, List.filterMap_cons, h4, List.mem_cons,
          exists_eq_or_imp, bne_iff_ne, ne_eq]
        rfl
      · simp only [List.filterMap_cons, h4, List.isEmpty_cons, reduceCtorEq]
  obtain ⟨r1, r2, r3⟩ := reads others hok
  simp only [Heap.concatVar, h2, Option.some.injEq, forall_eq', Ds.concatVar,
    show (valWith o (through o.array.view b)).delayed = o.delayed from rfl]
  by_cases e1 : others.isEmpty = true
  · rw [if_pos e1, if_pos (r3.1 e1)]
    exact .inr ⟨_, rfl, rfl⟩
  · rw [if_neg e1, if_neg fun e => e1 (r3.2 e)]
    by_cases e2 : (others.any fun x => x.delayed != o.delayed) = true
    · rw [if_pos e2, if_pos (r2.1 e2)]
      exact .inr ⟨_, rfl, rfl⟩
    · rw [if_neg e2, if_neg fun e => e2 (r2.2 e)]
      rw [show (valWith o (through o.array.view b)).dims = o.dims from rfl]
      cases hi : o.dims.idxOf? dim with
      | none => exact .inl ⟨_, _, rfl, rfl, same, sameVal, rfl⟩
      | some ax =>
        have hc : ((o :: others).filterMap fun x => h.read x.array) =
            (valWith o (through o.array.view b)).array ::
              (others.filterMap h.valueOf).map (·.array) := by
          rw [← r1]
          simp only [List.filterMap_cons, Heap.read, h1, Option.map_some]
          rfl
        simp only [hc]
        cases concatenate ax ((valWith o (through o.array.view b)).array ::
            (others.filterMap h.valueOf).map (·.array)) with
        | ok a => exact .inl ⟨_, _, rfl, rfl, nofun, rfl, rfl⟩
        | error e =>
          cases e with
          | valueError => exact .inl ⟨_, _, rfl, rfl, same, sameVal, rfl⟩
          | _ => exact .inr ⟨_, rfl, rfl⟩


theorem map_vals {h : Heap V} {f : VarObj V → VarObj V} {g : Ds.Var V → Ds.Var V}
    (hf : ∀ o, h.valueOf (f o) = (h.valueOf o).map g) (l : List (VarObj V)) :
    (l.map f).filterMap h.valueOf = (l.filterMap h.valueOf).map g := by
  rw [List.filterMap_map, List.map_filterMap]
  exact filterMap_congr' fun o _ => hf o

theorem copied_vals (h : Heap V) (l : List (VarObj V)) :
    (h.copied l).filterMap (joinedVal h) = l.filterMap h.valueOf := by
  simp only [Heap.copied, List.filterMap_filterMap]
  refine filterMap_congr' fun o _ => ?_
  simp only [Heap.valueOf]
  cases h.read o.array <;> rfl

theorem copied_ok {h : Heap V} {l : List (VarObj V)} (ok : ∀ o ∈ l, RefOk h o.array) :
    ∀ p ∈ h.copied l, RefOk h p.1.array := by
  intro p hp
  obtain ⟨o, ho, e⟩ := List.mem_filterMap.1 hp
  obtain ⟨a, _, e⟩ := Option.map_eq_some_iff.1 e
  subst e
  exact ok o ho

/-- The object of the variable `g` on the array `r`. -/
def givenObj (g : Given V) (r : Ref) : VarObj V where
  name := g.name
  delayed := g.delayed
  dims := g.dims
  array := r
  fill := g.fill
  attrs := g.attrs

theorem through_whole (b : Nat) (a : Arr V) : through (whole b a).view a = a := rfl

theorem read_new (h : Heap V) (a : Arr V) :
    { h with bufs := h.bufs ++ [a] }.read (whole h.bufs.length a) = some a := by
  simp only [Heap.read, whole, List.getElem?_append_right (Nat.le_refl _), Nat.sub_self,
    List.getElem?_cons_zero, Option.map_some]
  rfl

theorem adopt_read {h : Heap V} {b : Bool} {r : Ref} {q : Heap V × Ref}
    (e : h.adopt b r = some q) : Ext h q.1 ∧ q.1.read q.2 = h.read r := by
  simp only [Heap.adopt] at e
  split at e
  · obtain ⟨a, ha, e⟩ := Option.map_eq_some_iff.1 e
    subst e
    exact ⟨⟨⟨[a], rfl⟩, ⟨[], by simp⟩, [], by simp⟩, by rw [read_new, ha]⟩
  · cases e
    exact ⟨.refl h, rfl⟩

theorem adopt_some {h : Heap V} (b : Bool) {r : Ref} (ok : RefOk h r) :
    ∃ q, h.adopt b r = some q := by
  simp only [Heap.adopt, Heap.read, List.getElem?_eq_getElem ok.1, Option.map_some]
  split
  · exact ⟨_, rfl⟩
  · exact ⟨_, rfl⟩

theorem givens_vals {h : Heap V} (v : Valid h) {l : List (Given V)} {q : Heap V × List (VarObj V)}
    (e : h.givens l = some q) :
    Ext h q.1 ∧ q.2.filterMap q.1.valueOf = l.filterMap (givenVal h) := by
  induction l generalizing h q with
  | nil =>
    simp only [Heap.givens] at e
    cases e
    exact ⟨.refl h, rfl⟩
  | cons g t ih =>
    simp only [Heap.givens, Option.bind_eq_some_iff, Option.map_eq_some_iff] at e
    obtain ⟨r, hr, p, hp, q', hq, e⟩ := e
    subst e
    obtain ⟨x1, rd⟩ := adopt_read hp
    obtain ⟨v1, _, _, _, e5, _, ok⟩ := adopt_valid v (v.hands _ _ hr) hp
    obtain ⟨x2, vals⟩ := ih v1 hq
    refine ⟨x1.trans x2, ?_⟩
    have rest : t.filterMap (givenVal p.1) = t.filterMap (givenVal h) := by
      refine filterMap_congr' fun g' _ => ?_
      simp only [givenVal, e5]
      cases hh : h.hands[g'.hand]? with
      | none => rfl
      | some a => simp only [Option.bind_some, x1.read (v.hands _ _ hh).1]
    rw [rest] at vals
    have head : q'.1.valueOf (givenObj g p.2) = givenVal h g := by
      simp only [givenObj, Heap.valueOf, x2.read ok.1, rd, givenVal, hr, Option.bind_some]
    rw [List.filterMap_cons, ← givenObj, head, vals, ← List.filterMap_cons]

theorem givens_some {h : Heap V} (v : Valid h) {l : List (Given V)}
    (hl : ∀ g ∈ l, g.hand < h.hands.length) : ∃ q, h.givens l = some q := by
  induction l generalizing h with
  | nil => exact ⟨_, rfl⟩
  | cons g t ih =>
    have hr := List.getElem?_eq_getElem (hl g List.mem_cons_self)
    obtain ⟨p, hp⟩ := adopt_some g.delayed (v.hands _ _ hr)
    obtain ⟨v1, _, _, _, e5, _, ok⟩ := adopt_valid v (v.hands _ _ hr) hp
    obtain ⟨q, hq⟩ := ih v1 fun g' hg' => by
      rw [e5]
      exact hl g' (List.mem_cons_of_mem _ hg')
    simp only [Heap.givens, hr, Option.bind_some, hp, hq, Option.map_some]
    exact ⟨_, rfl⟩

/-! ### Changes of a dataset -/

theorem changed_becomes {h : Heap V} {d : Nat} {D : DsObj} {c : List (String × Nat)} {r : Py Unit}
    (hd : d < h.sets.length) (hc : h.dicts[D.chunks]? = some c) :
    Becomes (h.changed d D r) d (h.seeObj D c, r) := by
  constructor
  · rw [changed_fst]
    simp only [Heap.see, Heap.setDs, List.getElem?_set_self hd, Option.bind_some, hc,
      Option.map_some]
    rfl
  · cases r <;> rfl

theorem vals_append (h : Heap V) (a b : List (String × Nat)) :
    h.vals (a ++ b) = h.vals a ++ h.vals b := by
  simp only [Heap.vals, List.filterMap_append]

theorem vals_isSome {h : Heap V} {l : List (String × Nat)} (hl : ∀ p ∈ l, Seen h p)
    (name : String) : (Ds.getVar (h.vals l) name).isSome = (l.lookup name).isSome := by
  rw [vals_get hl]
  cases e : l.lookup name with
  | none => rfl
  | some r =>
    obtain ⟨x, h1, _⟩ := hl _ (lookup_mem _ _ _ e)
    simp only [Option.bind_some, h1, Option.isSome_some]

theorem mergeVars_vals {h : Heap V} {a b : List (String × Nat)} (ha : ∀ p ∈ a, Seen h p)
    (hb : ∀ p ∈ b, Seen h p) :
    Ds.mergeVars (h.vals a) (h.vals b) = (h.vals (mergeVars a b).1, (mergeVars a b).2) := by
  induction b generalizing a with
  | nil => rfl
  | cons p t ih =>
    obtain ⟨x, h1, h2⟩ := hb p List.mem_cons_self
    rw [vals_cons h1]
    simp only [Ds.mergeVars, mergeVars, h2, vals_isSome ha]
    split
    · rfl
    · rw [← ih, vals_append]
      · congr 2
        simp only [Heap.vals, List.filterMap_cons, h1, List.filterMap_nil]
      · intro q hq
        rcases List.mem_append.1 hq with hq | hq
        · exact ha q hq
        · exact List.mem_singleton.1 hq ▸ hb p List.mem_cons_self
      · exact fun q hq => hb q (List.mem_cons_of_mem _ hq)

theorem vals_filter {h : Heap V} {l : List (String × Nat)} (hl : ∀ p ∈ l, Seen h p)
    (name : String) :
    h.vals (l.filter fun p => decide (p.1 ≠ name)) =
      (h.vals l).filter fun w => decide (w.name ≠ name) := by
  induction l with
  | nil => rfl
  | cons p t ih =>
    obtain ⟨x, h1, h2⟩ := hl p List.mem_cons_self
    have iht := ih fun q hq => hl q (List.mem_cons_of_mem _ hq)
    rw [vals_cons h1]
    simp only [List.filter_cons, h2]
    split
    · rw [vals_cons h1, iht]
    · exact iht

theorem rename_vals {h : Heap V} (v : Valid h) {D : DsObj} (hD : ∀ p ∈ D.vars, Named h p)
    (c : List (String × Nat)) (names : List (String × String)) :
    Ds.rename (h.seeObj D c) names =
      ((h.rename D names).1.seeObj (h.rename D names).2.1 c, (h.rename D names).2.2) ∧
    (h.rename D names).1.sets = h.sets ∧ Ext h (h.rename D names).1 := by
  induction names generalizing h D with
  | nil => exact ⟨rfl, rfl, .refl h⟩
  | cons x t ih =>
    obtain ⟨old, new⟩ := x
    have hs := fun p hp => seen_of v (hD p hp)
    have e1 := vals_isSome hs new
    simp only [Heap.rename, Ds.rename, show (h.seeObj D c).vars = h.vals D.vars from rfl, e1]
    by_cases hn : (D.vars.lookup new).isSome = true
    · rw [if_pos hn, if_pos hn]
      exact ⟨rfl, rfl, .refl h⟩
    · rw [if_neg hn, if_neg hn]
      rcases getObj_value v hD old with ⟨r, o, w, g1, g2, g3, g4⟩ | ⟨g1, g2, g3⟩
      · rw [g1, g4]
        simp only
        let o' : VarObj V := { o with name := new }
        have v1 := v.addVars [o'] (by
          intro x hx
          obtain rfl := List.mem_singleton.1 hx
          exact g2)
        have x1 : Ext h { h with vars := h.vars ++ [o'] } :=
          ⟨⟨[], by simp⟩, ⟨[o'], rfl⟩, [], by simp⟩
        have hlast : ({ h with vars := h.vars ++ [o'] } : Heap V).vars[h.vars.length]? =
            some o' := by
          simp only [List.getElem?_append_right (Nat.le_refl _), Nat.sub_self,
            List.getElem?_cons_zero]
        have hD1 : ∀ p ∈ (D.vars.filter fun (p : String × Nat) => decide (p.1 ≠ old)) ++
            [(new, h.vars.length)], Named { h with vars := h.vars ++ [o'] } p := by
          intro p hp
          rcases List.mem_append.1 hp with hp | hp
          · exact (hD p (List.mem_filter.1 hp).1).addVars
          · obtain rfl := List.mem_singleton.1 hp
            exact ⟨o', hlast, rfl⟩
        obtain ⟨i1, i2, i3⟩ := ih v1 (D := { D with
          vars := (D.vars.filter fun (p : String × Nat) => decide (p.1 ≠ old)) ++
            [(new, h.vars.length)] }) hD1
        refine ⟨?_, i2, x1.trans i3⟩
        rw [← i1]
        congr 1
        have e3 : ({ h with vars := h.vars ++ [o'] } : Heap V).vals
            ((D.vars.filter fun (p : String × Nat) => decide (p.1 ≠ old)) ++
              [(new, h.vars.length)]) =
            ((h.vals D.vars).filter fun w => decide (w.name ≠ old)) ++
              [{ w with name := new }] := by
          rw [vals_append, x1.vals v fun p hp => hD p (List.mem_filter.1 hp).1, vals_filter hs]
          congr 1
          have : ({ h with vars := h.vars ++ [o'] } : Heap V).var h.vars.length =
              some { w with name := new } := by
            simp only [Heap.var, hlast, Option.bind_some]
            rw [x1.value (o := o') g2.1]
            simp only [Heap.valueOf] at g3 ⊢
            obtain ⟨a, ha, e⟩ := Option.map_eq_some_iff.1 g3
            subst e
            simp only [o', ha, Option.map_some]
          simp only [Heap.vals, List.filterMap_cons, this, List.filterMap_nil]
        simp only [Heap.seeObj, e3]
      · rw [g1, g3]
        exact ⟨rfl, rfl, .refl h⟩

theorem dropVars_vals {h : Heap V} {D : DsObj} (hD : ∀ p ∈ D.vars, Seen h p)
    (c : List (String × Nat)) (names : List String) :
    Ds.dropVars (h.seeObj D c) names =
      (h.seeObj (dropVars D names).1 c, (dropVars D names).2) ∧
    (dropVars D names).1.chunks = D.chunks := by
  induction names generalizing D with
  | nil => exact ⟨rfl, rfl⟩
  | cons n t ih =>
    have e := vals_isSome hD n
    simp only [dropVars, Ds.dropVars, show (h.seeObj D c).vars = h.vals D.vars from rfl]
    cases hl : D.vars.lookup n with
    | none =>
      rw [hl] at e
      cases hg : Ds.getVar (h.vals D.vars) n with
      | none => exact ⟨rfl, rfl⟩
      | some x => rw [hg] at e; cases e
    | some r =>
      rw [hl] at e
      cases hg : Ds.getVar (h.vals D.vars) n with
      | none => rw [hg] at e; cases e
      | some x =>
        simp only
        obtain ⟨i1, i2⟩ := ih (D := { D with
          vars := D.vars.filter fun p => decide (p.1 ≠ n) }) fun p hp => hD p (List.mem_filter.1 hp).1
        refine ⟨?_, i2⟩
        rw [← i1]
        congr 1
        simp only [Heap.seeObj, vals_filter hD n]

theorem addVariable_vals {h : Heap V} (v : Valid h) {D : DsObj} (hD : ∀ p ∈ D.vars, Named h p)
    (c : List (String × Nat)) (m : Ds.VarMeta V) (noneValue : Py V) {hand : Option Ref}
    {data : Option (Arr V)} (hh : ∀ a, hand = some a → RefOk h a)
    (hd : data = hand.bind h.read) :
    Ds.addVariable (h.seeObj D c) m noneValue data =
      ((h.addVariable D m noneValue hand).1.seeObj (h.addVariable D m noneValue hand).2.1 c,
       (h.addVariable D m noneValue hand).2.2) ∧
    (h.addVariable D m noneValue hand).1.sets = h.sets ∧
    (h.addVariable D m noneValue hand).1.dicts = h.dicts ∧
    (h.addVariable D m noneValue hand).2.1.chunks = D.chunks ∧
    Ext h (h.addVariable D m noneValue hand).1 := by
  have final : ∀ (h1 : Heap V) (r : Ref) (a : Arr V), Ext h h1 → h1.vars = h.vars →
      RefOk h1 r → h1.read r = some a →
      h1.sets = h.sets → h1.dicts = h.dicts → ∀ o : VarObj V,
      o = { name := m.name, delayed := D.delayed, dims := m.dims, array := r, fill := m.fill,
            attrs := m.props } →
      ({ h.seeObj D c with vars := Ds.setVar (h.vals D.vars) (valWith o a) } : Ds.Dataset V) =
        ({ h1 with vars := h1.vars ++ [o] } : Heap V).seeObj
          { D with vars := put D.vars (m.name, h1.vars.length) } c ∧
      Ext h { h1 with vars := h1.vars ++ [o] } := by
    intro h1 r a x1 e1 ok rd _ _ o ho
    have x2 : Ext h1 { h1 with vars := h1.vars ++ [o] } :=
      ⟨⟨[], by simp⟩, ⟨[o], rfl⟩, [], by simp⟩
    refine ⟨?_, x1.trans x2⟩
    have hlast : ({ h1 with vars := h1.vars ++ [o] } : Heap V).vars[h1.vars.length]? =
        some o := by
      simp only [List.getElem?_append_right (Nat.le_refl _), Nat.sub_self,
        List.getElem?_cons_zero]
    have hv : ({ h1 with vars := h1.vars ++ [o] } : Heap V).var h1.vars.length =
        some (valWith o a) := by
      have hr : o.array = r := by rw [ho]
      simp only [Heap.var, hlast, Option.bind_some]
      rw [x2.value (by rw [hr]; exact ok.1)]
      simp only [Heap.valueOf, hr, rd, Option.map_some]
      rfl
    have hn : (valWith o a).name = m.name := by rw [ho]; rfl
    have vv : ∀ p ∈ D.vars, Seen { h1 with vars := h1.vars ++ [o] } p := by
      intro p hp
      obtain ⟨y, h3, h4⟩ := seen_of v (hD p hp)
      exact ⟨y, by rw [(x1.trans x2).var v (hD p hp).lt]; exact h3, h4⟩
    simp only [Heap.seeObj]
    rw [vals_put vv (p := (m.name, h1.vars.length)) hv hn, (x1.trans x2).vals v hD]
  simp only [Heap.addVariable, Ds.addVariable, show (h.seeObj D c).dims = D.dims from rfl]
  by_cases hx : ∃ x ∈ m.dims, D.dims.lookup x = none
  · rw [if_pos hx, if_pos hx]
    exact ⟨rfl, rfl, rfl, rfl, .refl h⟩
  · rw [if_neg hx, if_neg hx]
    cases hand with
    | none =>
      subst hd
      simp only [Heap.dataFor, Option.bind_none]
      have main : ∀ x : V, _ := fun x =>
        final { h with bufs := h.bufs ++ [full (Ds.sizes D.dims m.dims) x] }
          (whole h.bufs.length (full (Ds.sizes D.dims m.dims) x)) _
          ⟨⟨_, rfl⟩, ⟨[], by simp⟩, [], by simp⟩ rfl ⟨by simp [whole], inj_whole _ _⟩
          (read_new _ _) rfl rfl _ rfl
      clear final
      cases hf : m.fill with
      | some x =>
        obtain ⟨f1, f2⟩ := main x
        rw [hf] at f1 f2
        exact ⟨Prod.ext f1 rfl, rfl, rfl, rfl, f2⟩
      | none =>
        cases noneValue with
        | error e => exact ⟨rfl, rfl, rfl, rfl, .refl h⟩
        | ok x =>
          obtain ⟨f1, f2⟩ := main x
          rw [hf] at f1 f2
          exact ⟨Prod.ext f1 rfl, rfl, rfl, rfl, f2⟩
    | some r =>
      have ok := hh r rfl
      obtain ⟨a, ha⟩ : ∃ a, h.read r = some a := by
        simp only [Heap.read, List.getElem?_eq_getElem ok.1, Option.map_some]
        exact ⟨_, rfl⟩
      have hsh : a.shape = r.view.shape := by
        obtain ⟨b, _, e⟩ := Option.map_eq_some_iff.1 ha
        rw [← e]
        rfl
      rw [Option.bind_some, ha] at hd
      subst hd
      simp only [Heap.dataFor, hsh]
      by_cases hc : Ds.conflict D.dims m.dims r.view.shape = true
      · rw [if_pos hc, if_pos hc]
        exact ⟨rfl, rfl, rfl, rfl, .refl h⟩
      · rw [if_neg hc, if_neg hc]
        obtain ⟨q, hq⟩ := adopt_some D.delayed ok
        obtain ⟨x1, rd⟩ := adopt_read hq
        obtain ⟨v1, q1, q2, q3, _, _, ok1⟩ := adopt_valid v ok hq
        rw [hq]
        obtain ⟨f1, f2⟩ := final q.1 q.2 a x1 q1 ok1 (rd.trans ha) q2 q3 _ rfl
        exact ⟨Prod.ext f1 rfl, q2, q3, rfl, f2⟩

/-! ### Changes of a variable -/

/-- Two names of a dataset are two variables. -/
theorem ref_ne {h : Heap V} {l : List (String × Nat)} (hl : ∀ p ∈ l, Named h p) {p q : String × Nat}
    (hp : p ∈ l) (hq : q ∈ l) (ne : p.1 ≠ q.1) : p.2 ≠ q.2 := by
  intro e
  obtain ⟨o, h1, h2⟩ := hl p hp
  obtain ⟨o', h3, h4⟩ := hl q hq
  rw [e, h3] at h1
  cases h1
  exact ne (h2.symm.trans h4)

theorem setObj_vals {h h1 : Heap V} (v : Valid h) (x : Ext h h1) (hv : h1.vars = h.vars)
    {l : List (String × Nat)} (hl : ∀ p ∈ l, Named h p) (hn : (l.map (·.1)).Nodup)
    {name : String} {r : Nat} (hr : l.lookup name = some r) {o : VarObj V} {z : Ds.Var V}
    {f : Ds.Var V → Ds.Var V} (hz : h.var r = some z) (hf : h1.valueOf o = some (f z)) :
    (h1.setObj r o).vals l = (h.vals l).map fun v => if v.name = name then f v else v := by
  simp only [Heap.vals, List.map_filterMap]
  refine filterMap_congr' fun p hp => ?_
  obtain ⟨y, h3, h4⟩ := seen_of v (hl p hp)
  have hlt := (hl p hp).lt
  rw [h3, Option.map_some, h4]
  by_cases e : p.1 = name
  · have hp2 : p.2 = r := by
      have := lookup_of_mem hn (k := p.1) (x := p.2) hp
      rw [e, hr] at this
      cases this
      rfl
    rw [hp2, hz] at h3
    cases h3
    rw [hp2] at hlt
    rw [if_pos e, hp2]
    simp only [Heap.var, Heap.setObj, hv, List.getElem?_set_self hlt, Option.bind_some]
    exact hf
  · rw [if_neg e]
    have hm : (name, r) ∈ l := lookup_mem _ _ _ hr
    have ne := ref_ne hl hp hm e
    rw [← h3, ← x.var v hlt]
    simp only [Heap.var, Heap.setObj, List.getElem?_set_ne (fun h => ne h.symm)]
    rfl

theorem fillLoop_other (m : List (String × Nat)) (l : List (String × Nat)) (vars : List (VarObj V))
    {r : Nat} (hr : ∀ p ∈ l, p.2 ≠ r) : (fillLoop m l vars).1[r]? = vars[r]? := by
  induction l generalizing vars with
  | nil => rfl
  | cons p t ih =>
    obtain ⟨n, s⟩ := p
    simp only [fillLoop]
    split
    · rfl
    · split
      · rfl
      · rw [ih _ fun q hq => hr q (List.mem_cons_of_mem _ hq),
          List.getElem?_set_ne (hr (n, s) List.mem_cons_self)]

theorem fillLoop_vals {h : Heap V} (v : Valid h) (m : List (String × Nat))
    {l : List (String × Nat)} (hl : ∀ p ∈ l, Named h p) (hn : (l.map (·.1)).Nodup) :
    fillVars m (h.vals l) =
      ({ h with vars := (fillLoop m l h.vars).1 }.vals l, (fillLoop m l h.vars).2) := by
  induction l generalizing h with
  | nil => rfl
  | cons p t ih =>
    obtain ⟨n, r⟩ := p
    obtain ⟨o, ho, hon⟩ := hl (n, r) List.mem_cons_self
    simp only at ho hon
    obtain ⟨b, hb, hvo⟩ := value_of (v.objs r o ho)
    have hv : h.var r = some (valWith o (through o.array.view b)) := by
      simp only [Heap.var, ho, Option.bind_some, hvo]
    have hne : ∀ q ∈ t, q.2 ≠ r := by
      intro q hq
      refine ref_ne hl (List.mem_cons_of_mem _ hq) (List.mem_cons_self (a := (n, r))) ?_
      intro e
      simp only [List.map_cons, List.nodup_cons] at hn
      exact hn.1 (List.mem_map.2 ⟨q, hq, e⟩)
    rw [vals_cons (p := (n, r)) hv]
    simp only [fillVars, fillLoop, ho, show (valWith o (through o.array.view b)).name = n from hon]
    cases hm : m.lookup n with
    | none =>
      simp only
      rw [show ({ h with vars := h.vars } : Heap V) = h from rfl, vals_cons (p := (n, r)) hv]
    | some a =>
      simp only
      let o' : VarObj V := { o with attrs := a }
      have v1 := v.setObj (o := o') ho rfl (v.objs r o ho)
      have iht := ih v1 (fun q hq => (hl q (List.mem_cons_of_mem _ hq)).setObj ho rfl) (by
        simp only [List.map_cons, List.nodup_cons] at hn
        exact hn.2)
      have hvt : (h.setObj r o').vals t = h.vals t := by
        refine filterMap_congr' fun q hq => ?_
        simp only [Heap.var, Heap.setObj, List.getElem?_set_ne (fun e => hne q hq e.symm)]
        rfl
      rw [hvt] at iht
      have hlt := (List.getElem?_eq_some_iff.1 ho).1
      have hhead : ({ h with vars := (fillLoop m t (h.vars.set r o')).1 } : Heap V).var r =
          some { valWith o (through o.array.view b) with props := a } := by
        simp only [Heap.var, fillLoop_other m t _ hne, List.getElem?_set_self hlt,
          Option.bind_some, Heap.valueOf, Heap.read, o', hb, Option.map_some]
        rfl
      rw [iht]
      simp only
      rw [vals_cons (p := (n, r)) hhead]
      subst hon
      rfl

/-! ### The calls that only add objects -/

theorem construct_ext (h : Heap V) (vars : List (String × Nat)) (attrs : List (String × String))
    (chunks : List (String × Nat)) (limit : Nat) (delayed : Option Bool) :
    Ext h (h.construct vars attrs chunks limit delayed).1 := by
  simp only [Heap.construct]
  split
  · exact .refl h
  · exact ⟨⟨[], by simp⟩, ⟨[], by simp⟩, _, rfl⟩

theorem build_ext (h : Heap V) (l : List (VarObj V)) (attrs : List (String × String))
    (chunks : List (String × Nat)) (limit : Nat) (delayed : Option Bool) :
    Ext h (h.build l attrs chunks limit delayed).1 :=
  Ext.trans (b := (h.allocate l).1) ⟨⟨[], by simp [Heap.allocate]⟩, ⟨l, rfl⟩, [],
    by simp [Heap.allocate]⟩ (construct_ext ..)

theorem derive_ext (h : Heap V) (l : List (VarObj V × Joined V)) (attrs : List (String × String))
    (chunks : List (String × Nat)) (limit : Nat) (delayed : Option Bool) :
    Ext h (h.derive l attrs chunks limit delayed).1 :=
  (joined_ext h l).trans (build_ext ..)

theorem on_ext {h : Heap V} {n : Nat} {f : DsObj → List (String × Nat) → Heap V × Py Res}
    (hf : ∀ d c, h.getDs n = some (d, c) → Ext h (f d c).1) : Ext h (h.on n f).1 := by
  simp only [Heap.on]
  split
  · exact .refl h
  · rename_i d c e
    exact hf d c e

theorem asDs_ext {h : Heap V} {x : Heap V × Py Nat} (g : Ext h x.1) : Ext h (asDs x).1 := by
  rw [asDs_fst]; exact g

theorem setDs_ext {h h1 : Heap V} (g : Ext h h1) (n : Nat) (D : DsObj) : Ext h (h1.setDs n D) :=
  g.trans (.of_eq rfl rfl rfl)

theorem step_ext {h : Heap V} (v : Valid h) {c : Call V} (ht : ¬ Touches c) :
    Ext h (step h c).1 := by
  cases c with
  | array a => exact ⟨⟨_, rfl⟩, ⟨[], by simp [step]⟩, [], by simp [step]⟩
  | write k idx x => exact absurd trivial ht
  | assign n name k => exact absurd trivial ht
  | fill n name => exact absurd trivial ht
  | setChunk n dim x => exact absurd trivial ht
  | fillAttrs n attrs m => exact absurd trivial ht
  | dataset l attrs chunks limit delayed =>
    simp only [step]
    split
    · exact .refl h
    · rename_i h1 l1 e
      exact asDs_ext ((givens_vals v e).1.trans (build_ext ..))
  | values n name =>
    refine on_ext fun d c _ => ?_
    simp only
    split
    · exact .refl h
    · simp only [Heap.values]
      split
      · exact .of_eq rfl rfl rfl
      · split
        · exact .refl h
        · exact ⟨⟨_, rfl⟩, ⟨[], by simp⟩, [], by simp⟩
  | selectVars n names =>
    refine on_ext fun d c _ => asDs_ext ?_
    simp only [Heap.selectVars]
    split
    · exact .refl h
    · exact construct_ext ..
  | byDims n dims predicate => exact on_ext fun d c _ => asDs_ext (construct_ext ..)
  | isel n slices =>
    refine on_ext fun d c _ => asDs_ext ?_
    simp only [Heap.isel]
    split
    · exact .refl h
    · split
      · exact .refl h
      · exact derive_ext ..
  | delete n ixs axis =>
    refine on_ext fun d c _ => asDs_ext ?_
    simp only [Heap.deleteDs]
    split
    · exact .refl h
    · exact derive_ext ..
  | concat n others dim =>
    refine on_ext fun d c _ => ?_
    split
    · exact .refl h
    · refine asDs_ext ?_
      simp only [Heap.concat]
      split
      · exact .refl h
      · split
        · exact .refl h
        · split
          · exact .refl h
          · exact derive_ext ..
  | setForInsertion n chunks limit => exact on_ext fun d c _ => asDs_ext (build_ext ..)
  | compute n =>
    refine on_ext fun d c _ => asDs_ext ?_
    simp only [Heap.compute]
    split
    · exact .refl h
    · exact derive_ext ..
  | rechunk n =>
    refine on_ext fun d c _ => asDs_ext ?_
    simp only [Heap.rechunk]
    split
    · exact .refl h
    · exact build_ext ..
  | pickle n =>
    refine on_ext fun d c _ => asDs_ext ?_
    refine (joined_ext h (h.copied (h.objects d))).trans ?_
    exact ⟨⟨[], by simp [Heap.pickle, Heap.allocate]⟩, ⟨_, rfl⟩, _, rfl⟩
  | merge n other =>
    refine on_ext fun d c _ => on_ext fun o c' _ => ?_
    rw [changed_fst]
    exact setDs_ext (.refl h) _ _
  | rename n names =>
    refine on_ext fun d c e => ?_
    rw [changed_fst]
    obtain ⟨hd, _⟩ := getDs_spec e
    exact setDs_ext (rename_vals v (v.sets n d hd).2 c names).2.2 _ _
  | dropVars n names =>
    refine on_ext fun d c _ => ?_
    rw [changed_fst]
    exact setDs_ext (.refl h) _ _
  | addVariable n m noneValue hand =>
    refine on_ext fun d c e => ?_
    obtain ⟨hd, _⟩ := getDs_spec e
    cases hand with
    | none =>
      simp only
      rw [changed_fst]
      exact setDs_ext (addVariable_vals v (v.sets n d hd).2 c m noneValue (hand := none) nofun
        rfl).2.2.2.2 _ _
    | some k =>
      simp only
      cases hk : h.hands[k]? with
      | none => exact .refl h
      | some r =>
        simp only
        rw [changed_fst]
        exact setDs_ext (addVariable_vals v (v.sets n d hd).2 c m noneValue (hand := some r)
          (fun a e => by cases e; exact v.hands k r hk) rfl).2.2.2.2 _ _
  | copyProperties n other =>
    exact on_ext fun d c _ => on_ext fun o c' _ => setDs_ext (.refl h) _ _

end Verif.Sh
