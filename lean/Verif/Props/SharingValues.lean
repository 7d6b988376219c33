import Verif.Lemmas.SharingCalls
import Verif.Model.Variable

/-!
C77: the methods on objects give what Model/Dataset gives on values, whatever is shared.
-/

namespace Verif

open Nd Sh Spec

variable {V : Type}

/-! ### New datasets -/

/-- `select_vars` -/
theorem C77_select_vars {h : Heap V} (m : Made h) {d : Nat} {s : Ds.Dataset V}
    (hs : h.see d = some s) (names : List String) :
    Builds (step h (.selectVars d names)) (Ds.selectVars s names) := by
  have v := made_valid m
  obtain ⟨D, c, hg, hD, hc, rfl⟩ := see_obj hs
  have hn := (v.sets d D hD).2
  simp only [step, on_see hg]
  refine Makes.asDs ?_
  have r := mapPy_refines (f := h.getObj D) (g := Ds.getVarE (h.vals D.vars)) (A := some)
    (B := fun p : Nat × VarObj V => h.valueOf p.2) names fun name _ => ⟨name, rfl, by
      rcases getObj_value v hn name with ⟨r, o, x, h1, _, h3, h4⟩ | ⟨h1, _, h3⟩
      · exact .inl ⟨(r, o), x, h1, h3, getVarE_of h4⟩
      · exact .inr ⟨_, h1, getVarE_none h3⟩⟩
  simp only [filterMap_some_id] at r
  simp only [Heap.selectVars, Ds.selectVars, Heap.seeObj]
  rcases r with ⟨l, h1, h2⟩ | ⟨e, h1, h2⟩
  · rw [h1, h2]
    have hl : ∀ q ∈ l, h.vars[q.1]? = some q.2 := by
      intro q hq
      obtain ⟨x, _, hx⟩ := mapPy_mem _ _ _ h1 q hq
      exact (getObj_spec hx).2
    have e : h.vals (l.map fun p => (p.2.name, p.1)) = l.filterMap fun p => h.valueOf p.2 := by
      simp only [Heap.vals, List.filterMap_map]
      refine filterMap_congr' fun q hq => ?_
      simp only [Function.comp, Heap.var, hl q hq, Option.bind_some]
    have := construct_makes (h := h) (vars := l.map fun p => (p.2.name, p.1)) (fun p hp => by
      obtain ⟨q, hq, rfl⟩ := List.mem_map.1 hp
      exact seen_of v ⟨q.2, hl q hq, rfl⟩) D.attrs c D.limit none
    rw [e] at this
    exact this
  · rw [h1, h2]
    exact rfl

/-- `select_variables_by_dims` -/
theorem C77_select_by_dims {h : Heap V} (m : Made h) {d : Nat} {s : Ds.Dataset V}
    (hs : h.see d = some s) (dims : List String) (predicate : Bool) :
    Builds (step h (.byDims d dims predicate)) (Ds.selectByDims s dims predicate) := by
  have v := made_valid m
  obtain ⟨D, c, hg, hD, hc, rfl⟩ := see_obj hs
  have hn := (v.sets d D hD).2
  simp only [step, on_see hg]
  refine Makes.asDs ?_
  have e : ∀ l : List (String × Nat), (∀ p ∈ l, Named h p) →
      h.vals (l.filter fun p => (h.vars[p.2]?).any (wanted dims predicate)) =
      (h.vals l).filter fun v => if dims = [] then v.dims.isEmpty == predicate
        else (v.dims.any fun d => decide (d ∈ dims)) == predicate := by
    intro l
    induction l with
    | nil => intro _; rfl
    | cons p t ih =>
      intro hl
      have iht := ih fun q hq => hl q (List.mem_cons_of_mem _ hq)
      obtain ⟨o, h1, h2⟩ := hl p List.mem_cons_self
      obtain ⟨b, h3, h4⟩ := value_of (v.objs p.2 o h1)
      have hv : h.var p.2 = some (valWith o (through o.array.view b)) := by
        simp only [Heap.var, h1, Option.bind_some, h4]
      rw [vals_cons hv]
      simp only [List.filter_cons, h1, Option.any_some]
      have hw : wanted dims predicate o = (if dims = [] then
          (valWith o (through o.array.view b)).dims.isEmpty == predicate
          else ((valWith o (through o.array.view b)).dims.any fun d => decide (d ∈ dims)) ==
            predicate) := rfl
      rw [← hw]
      split
      · rw [vals_cons hv, iht]
      · exact iht
  have := construct_makes (h := h)
    (vars := D.vars.filter fun p => (h.vars[p.2]?).any (wanted dims predicate))
    (fun p hp => seen_of v (hn p (List.mem_filter.1 hp).1)) D.attrs c D.limit none
  rw [e D.vars hn] at this
  exact this

/-- `isel` -/
theorem C77_isel {h : Heap V} (m : Made h) {d : Nat} {s : Ds.Dataset V}
    (hs : h.see d = some s) (slices : List (String × Ix)) :
    Builds (step h (.isel d slices)) (Ds.isel s slices) := by
  have v := made_valid m
  obtain ⟨D, c, hg, hD, hc, rfl⟩ := see_obj hs
  simp only [step, on_see hg]
  refine Makes.asDs ?_
  simp only [Heap.isel, Ds.isel, show (h.seeObj D c).dims = D.dims from rfl]
  by_cases hd : ∃ s ∈ slices, D.dims.lookup s.1 = none
  · rw [if_pos hd, if_pos hd]
    exact rfl
  · rw [if_neg hd, if_neg hd]
    exact derived_makes v D
      (g := fun z : Ds.Var V => z.isel (z.dims.map (Ds.sliceOf slices)))
      (fun o ok => by
        obtain ⟨b, h1, h2⟩ := value_of ok
        rcases iselVar_spec ok (o.dims.map (Ds.sliceOf slices)) with
          ⟨y, x, e1, e2, e3, e4, e5⟩ | ⟨e, e1, e2⟩
        · refine .inl ⟨y, x, e1, e2, e3, e4, fun z hz => ?_⟩
          have := e5 z hz
          rw [h2] at hz
          cases hz
          exact this
        · refine .inr ⟨e, e1, fun z hz => ?_⟩
          have := e2 z hz
          rw [h2] at hz
          cases hz
          exact this) _ _ _ _

/-- `delete` -/
theorem C77_delete {h : Heap V} (m : Made h) {d : Nat} {s : Ds.Dataset V}
    (hs : h.see d = some s) (ixs : Indexer) (axis : String) :
    Builds (step h (.delete d ixs axis)) (Ds.deleteDs s ixs axis) := by
  have v := made_valid m
  obtain ⟨D, c, hg, hD, hc, rfl⟩ := see_obj hs
  simp only [step, on_see hg]
  refine Makes.asDs ?_
  refine derived_makes v D (g := Ds.deleteVar ixs axis) (fun o ok => ?_) _ _ _ _
  obtain ⟨b, h1, h2⟩ := value_of ok
  simp only [Heap.deleteVar, h2, Option.some.injEq, forall_eq']
  cases hw : Ds.deleteVar ixs axis (valWith o (through o.array.view b)) with
  | error e => exact .inr ⟨e, rfl, rfl⟩
  | ok w =>
    refine .inl ⟨(o, .fresh w.array), w, rfl, rfl, nofun, ?_, rfl⟩
    simp only [Ds.deleteVar] at hw
    split at hw
    · cases hw
    · rename_i ax _
      cases ha : delete ax ixs (valWith o (through o.array.view b)).array with
      | error e => rw [ha] at hw; cases hw
      | ok a =>
        rw [ha] at hw
        cases hw
        rfl

/-- `concat` -/
theorem C77_concat {h : Heap V} (m : Made h) {d : Nat} {s : Ds.Dataset V}
    (hs : h.see d = some s) {others : List Nat} (ho : ∀ n ∈ others, n < h.sets.length)
    (dim : String) :
    Builds (step h (.concat d others dim)) (Ds.concat s (seeAll h others) dim) := by
  have v := made_valid m
  obtain ⟨D, c, hg, hD, hc, rfl⟩ := see_obj hs
  simp only [step, on_see hg]
  -- the datasets of the list
  have list : ∀ l : List Nat, (∀ n ∈ l, n < h.sets.length) → ∃ L, l.mapM h.getDs = some L ∧
      seeAll h l = L.map (fun p => h.seeObj p.1 p.2) ∧
      ∀ p ∈ L, ∃ n : Nat, h.sets[n]? = some p.1 := by
    intro l
    induction l with
    | nil => intro _; exact ⟨[], rfl, rfl, nofun⟩
    | cons n t ih =>
      intro hl
      obtain ⟨L, i1, i2, i3⟩ := ih fun x hx => hl x (List.mem_cons_of_mem _ hx)
      have hlt := hl n List.mem_cons_self
      have e := List.getElem?_eq_getElem hlt
      obtain ⟨c', hc'⟩ : ∃ c', h.dicts[(h.sets[n]).chunks]? = some c' :=
        ⟨_, List.getElem?_eq_getElem (v.sets n _ e).1⟩
      have hgd : h.getDs n = some (h.sets[n], c') := by
        simp only [Heap.getDs, e, Option.bind_some, hc', Option.map_some]
      refine ⟨(h.sets[n], c') :: L, ?_, ?_, ?_⟩
      · simp only [List.mapM_cons, hgd, i1]
        rfl
      · simp only [seeAll, List.filterMap_cons, Heap.see, e, Option.bind_some, hc',
          Option.map_some, List.map_cons]
        rw [← i2]
        rfl
      · intro p hp
        rcases List.mem_cons.1 hp with rfl | hp
        · exact ⟨n, e⟩
        · exact i3 p hp
  obtain ⟨L, l1, l2, l3⟩ := list others ho
  rw [l1, l2]
  simp only
  refine Makes.asDs ?_
  simp only [Heap.concat, Ds.concat]
  by_cases e1 : L = []
  · subst e1
    exact rfl
  · have n1 : ¬ (L.map (·.1)).isEmpty = true := by simpa using e1
    have n2 : ¬ L.map (fun p => h.seeObj p.1 p.2) = [] := by simpa using e1
    rw [if_neg n1, if_neg n2]
    have hdel : (((L.map (·.1)).any fun o => o.delayed != D.delayed) = true) ↔
        ∃ o ∈ L.map (fun p => h.seeObj p.1 p.2), o.delayed ≠ (h.seeObj D c).delayed := by
      simp only [List.any_eq_true, List.mem_map, bne_iff_ne, ne_eq]
      constructor
      · rintro ⟨_, ⟨p, hp, rfl⟩, h1⟩
        exact ⟨_, ⟨p, hp, rfl⟩, h1⟩
      · rintro ⟨_, ⟨p, hp, rfl⟩, h1⟩
        exact ⟨_, ⟨p, hp, rfl⟩, h1⟩
    by_cases e2 : ((L.map (·.1)).any fun o => o.delayed != D.delayed) = true
    · rw [if_pos e2, if_pos (hdel.1 e2)]
      exact rfl
    · rw [if_neg e2, if_neg fun e => e2 (hdel.2 e)]
      refine derived_makes v D
        (f := fun (o : VarObj V) => do
          let ws ← Ds.mapPy (fun x => h.getObj x o.name) (L.map (·.1))
          h.concatVar o (ws.map (·.2)) dim)
        (g := fun (v : Ds.Var V) => do
          let ws ← Ds.mapPy (fun o => Ds.getVarE o.vars v.name) (L.map fun p => h.seeObj p.1 p.2)
          Ds.concatVar v ws dim) (fun o ok => ?_) _ _ _ _
      obtain ⟨b, h1, h2⟩ := value_of ok
      have r := mapPy_refines (f := fun (p : DsObj × List (String × Nat)) => h.getObj p.1 o.name)
        (g := fun (s : Ds.Dataset V) => Ds.getVarE s.vars o.name)
        (A := fun p => some (h.seeObj p.1 p.2)) (B := fun p : Nat × VarObj V => h.valueOf p.2) L
        fun p hp => ⟨_, rfl, by
          obtain ⟨n, hn⟩ := l3 p hp
          rcases getObj_value v (v.sets n _ hn).2 o.name with
            ⟨r, o', x, k1, _, k3, k4⟩ | ⟨k1, _, k3⟩
          · exact .inl ⟨(r, o'), x, k1, k3, getVarE_of k4⟩
          · exact .inr ⟨_, k1, getVarE_none k3⟩⟩
      have fm : (L.filterMap fun p => some (h.seeObj p.1 p.2)) =
          L.map fun p => h.seeObj p.1 p.2 := by
        rw [List.filterMap_eq_map']
      rw [fm] at r
      have mp : Ds.mapPy (fun x => h.getObj x o.name) (L.map (·.1)) =
          Ds.mapPy (fun (p : DsObj × List (String × Nat)) => h.getObj p.1 o.name) L := by
        clear r fm l1 l2 l3 hdel e1 e2 n1 n2
        induction L with
        | nil => rfl
        | cons p t ih => simp only [List.map_cons, Ds.mapPy, ih]
      simp only [h2, Option.some.injEq, forall_eq']
      rw [mp, show (valWith o (through o.array.view b)).name = o.name from rfl]
      rcases r with ⟨ws, w1, w2⟩ | ⟨e, w1, w2⟩
      · rw [w1, w2]
        have hok : ∀ x ∈ ws.map (·.2), RefOk h x.array := by
          intro x hx
          obtain ⟨q, hq, rfl⟩ := List.mem_map.1 hx
          obtain ⟨p, hp, e⟩ := mapPy_mem _ _ _ w1 q hq
          exact v.objs _ _ (getObj_spec e).2
        have spec := concatVar_spec ok hok dim
        simp only [h2, Option.some.injEq, forall_eq', List.filterMap_map] at spec
        exact spec
      · rw [w1, w2]
        exact .inr ⟨e, rfl, rfl⟩

/-- `set_for_insertion`: the attributes are dropped. -/
theorem C77_set_for_insertion {h : Heap V} (m : Made h) {d : Nat} {s : Ds.Dataset V}
    (hs : h.see d = some s) (chunks : List (String × Nat)) (limit : Nat) :
    Builds (step h (.setForInsertion d chunks limit))
      (Ds.mk (s.vars.map fun v => { v with props := 0 }) [] chunks limit none) := by
  have v := made_valid m
  obtain ⟨D, c, hg, hD, hc, rfl⟩ := see_obj hs
  simp only [step, on_see hg]
  refine Makes.asDs ?_
  have e := map_vals (h := h) (f := fun o => { o with attrs := 0 })
    (g := fun v => { v with props := 0 }) (fun o => by
      simp only [Heap.valueOf, Option.map_map, Function.comp_def]) (h.objects D)
  rw [objects_vals] at e
  rw [show (h.seeObj D c).vars = h.vals D.vars from rfl, ← e]
  refine build_makes v (fun o ho => ?_) _ _ _ _
  obtain ⟨o', ho', rfl⟩ := List.mem_map.1 ho
  exact objects_valid v D o' ho'

/-- `compute`: the dataset itself when it is in memory. -/
theorem C77_compute {h : Heap V} (m : Made h) {d : Nat} {s : Ds.Dataset V}
    (hs : h.see d = some s) :
    Builds (step h (.compute d))
      (if s.delayed then Ds.mk (s.vars.map fun v => { v with delayed := false }) s.attrs s.chunks
        s.limit (some false) else .ok s) := by
  have v := made_valid m
  obtain ⟨D, c, hg, hD, hc, rfl⟩ := see_obj hs
  simp only [step, on_see hg, Heap.compute]
  refine Makes.asDs ?_
  rw [show (h.seeObj D c).delayed = D.delayed from rfl]
  cases hdl : D.delayed with
  | false => exact ⟨_, hs, rfl⟩
  | true =>
    simp only [Bool.not_true, Bool.false_eq_true, ↓reduceIte]
    have ok : ∀ o ∈ (h.objects D).map fun o => { o with delayed := false }, RefOk h o.array := by
      intro o ho
      obtain ⟨o', ho', rfl⟩ := List.mem_map.1 ho
      exact objects_valid v D o' ho'
    have e := map_vals (h := h) (f := fun o => { o with delayed := false })
      (g := fun v => { v with delayed := false }) (fun o => by
        simp only [Heap.valueOf, Option.map_map, Function.comp_def]) (h.objects D)
    rw [objects_vals, ← copied_vals] at e
    rw [show (h.seeObj D c).vars = h.vals D.vars from rfl, ← e]
    exact derive_makes v (copied_ok ok) (copied_fresh _ _) _ _ _ _

/-- `rechunk`: the same values. -/
theorem C77_rechunk {h : Heap V} (m : Made h) {d : Nat} {s : Ds.Dataset V}
    (hs : h.see d = some s) :
    Builds (step h (.rechunk d)) (if s.delayed then Ds.derive s s.vars none else .ok s) := by
  have v := made_valid m
  obtain ⟨D, c, hg, hD, hc, rfl⟩ := see_obj hs
  simp only [step, on_see hg, Heap.rechunk]
  refine Makes.asDs ?_
  rw [show (h.seeObj D c).delayed = D.delayed from rfl]
  cases hdl : D.delayed with
  | false => exact ⟨_, hs, rfl⟩
  | true =>
    simp only [Bool.not_true, Bool.false_eq_true, ↓reduceIte]
    have := build_makes v (objects_valid v D) D.attrs c D.limit none
    rw [objects_vals] at this
    exact this

/-- `pickle`: an equal dataset. -/
theorem C77_pickle {h : Heap V} (m : Made h) {d : Nat} {s : Ds.Dataset V}
    (hs : h.see d = some s) : Builds (step h (.pickle d)) (.ok s) := by
  have v := made_valid m
  obtain ⟨D, c, hg, hD, hc, rfl⟩ := see_obj hs
  simp only [step, on_see hg]
  refine Makes.asDs ?_
  have e1 := joined_vals (h := h) (l := h.copied (h.objects D))
    fun p hp => (copied_ok (objects_valid v D) p hp).1
  rw [copied_vals, objects_vals, ← allocate_vals] at e1
  simp only [Makes, Heap.pickle, Heap.see, List.getElem?_append_right (Nat.le_refl _),
    Nat.sub_self, List.getElem?_cons_zero, Option.bind_some, Option.map_some]
  refine ⟨_, rfl, ?_⟩
  simp only [Heap.seeObj]
  rw [← e1]
  rfl

/-- The constructor, on arrays that the program holds. -/
theorem C77_dataset {h : Heap V} (m : Made h) {l : List (Sh.Given V)}
    (hl : ∀ g ∈ l, g.hand < h.hands.length) (attrs : List (String × String))
    (chunks : List (String × Nat)) (limit : Nat) (delayed : Option Bool) :
    Builds (step h (.dataset l attrs chunks limit delayed))
      (Ds.mk (l.filterMap (givenVal h)) attrs chunks limit delayed) := by
  have v := made_valid m
  obtain ⟨q, hq⟩ := givens_some v hl
  obtain ⟨v1, _, ok⟩ := givens_valid v hq
  simp only [step, hq]
  rw [← (givens_vals v hq).2]
  exact Makes.asDs (build_makes v1 ok _ _ _ _)

/-! ### Changes in place -/

/-- `merge` -/
theorem C77_merge {h : Heap V} (m : Made h) {d other : Nat} {s o : Ds.Dataset V}
    (hs : h.see d = some s) (ho : h.see other = some o) :
    Becomes (step h (.merge d other)) d (Ds.merge s o) := by
  have v := made_valid m
  obtain ⟨D, c, hg, hD, hc, rfl⟩ := see_obj hs
  obtain ⟨O, c', hg', hO, hc', rfl⟩ := see_obj ho
  simp only [step, on_see hg, on_see hg']
  have e := mergeVars_vals (fun p hp => seen_of v ((v.sets d D hD).2 p hp))
    (fun p hp => seen_of v ((v.sets other O hO).2 p hp))
  have hch : (mergeDs D O).1.chunks = D.chunks := by
    simp only [mergeDs]
    split
    · rfl
    · cases mergeVars D.vars O.vars with
      | mk vs r =>
        cases r with
        | error x => rfl
        | ok u => simp only; split <;> rfl
  have key : Ds.merge (h.seeObj D c) (h.seeObj O c') =
      (h.seeObj (mergeDs D O).1 c, (mergeDs D O).2) := by
    simp only [Ds.merge, mergeDs, show (h.seeObj D c).delayed = D.delayed from rfl,
      show (h.seeObj O c').delayed = O.delayed from rfl,
      show (h.seeObj D c).vars = h.vals D.vars from rfl,
      show (h.seeObj O c').vars = h.vals O.vars from rfl,
      show (h.seeObj D c).dims = D.dims from rfl, show (h.seeObj O c').dims = O.dims from rfl, e]
    by_cases hdl : D.delayed ≠ O.delayed
    · rw [if_pos hdl, if_pos hdl]
    · rw [if_neg hdl, if_neg hdl]
      cases mergeVars D.vars O.vars with
      | mk vs r =>
        cases r with
        | error x => rfl
        | ok u =>
          simp only
          split <;> rfl
  rw [key]
  exact changed_becomes (List.getElem?_eq_some_iff.1 hD).1 (hch ▸ hc)

/-- `rename` -/
theorem C77_rename {h : Heap V} (m : Made h) {d : Nat} {s : Ds.Dataset V}
    (hs : h.see d = some s) (names : List (String × String)) :
    Becomes (step h (.rename d names)) d (Ds.rename s names) := by
  have v := made_valid m
  obtain ⟨D, c, hg, hD, hc, rfl⟩ := see_obj hs
  simp only [step, on_see hg]
  have hn := (v.sets d D hD).2
  obtain ⟨e1, e2, _⟩ := rename_vals v hn c names
  obtain ⟨_, e3, e4, _⟩ := rename_valid v hn names
  rw [e1]
  refine changed_becomes ?_ ?_
  · rw [e2]
    exact (List.getElem?_eq_some_iff.1 hD).1
  · rw [e3, e4]
    exact hc

/-- `drops_vars` -/
theorem C77_drop_vars {h : Heap V} (m : Made h) {d : Nat} {s : Ds.Dataset V}
    (hs : h.see d = some s) (names : List String) :
    Becomes (step h (.dropVars d names)) d (Ds.dropVars s names) := by
  have v := made_valid m
  obtain ⟨D, c, hg, hD, hc, rfl⟩ := see_obj hs
  simp only [step, on_see hg]
  obtain ⟨e1, e2⟩ := dropVars_vals (fun p hp => seen_of v ((v.sets d D hD).2 p hp)) c names
  rw [e1]
  exact changed_becomes (List.getElem?_eq_some_iff.1 hD).1 (by rw [e2]; exact hc)

/-- `add_variable`, with or without an array of the program. -/
theorem C77_add_variable {h : Heap V} (m : Made h) {d : Nat} {s : Ds.Dataset V}
    (hs : h.see d = some s) (x : Ds.VarMeta V) (noneValue : Py V) {hand : Option Nat}
    (hh : ∀ k, hand = some k → k < h.hands.length) :
    Becomes (step h (.addVariable d x noneValue hand)) d
      (Ds.addVariable s x noneValue (hand.bind fun k => (h.hands[k]?).bind h.read)) := by
  have v := made_valid m
  obtain ⟨D, c, hg, hD, hc, rfl⟩ := see_obj hs
  have hn := (v.sets d D hD).2
  have lt := (List.getElem?_eq_some_iff.1 hD).1
  simp only [step, on_see hg]
  cases hand with
  | none =>
    obtain ⟨e1, e2, e3, e4, _⟩ := addVariable_vals v hn c x noneValue (hand := none)
      (data := none) nofun rfl
    simp only [Option.bind_none]
    rw [e1]
    exact changed_becomes (by rw [e2]; exact lt) (by rw [e3, e4]; exact hc)
  | some k =>
    have hk := List.getElem?_eq_getElem (hh k rfl)
    obtain ⟨e1, e2, e3, e4, _⟩ := addVariable_vals v hn c x noneValue (hand := some (h.hands[k]'(hh k rfl)))
      (data := h.read (h.hands[k]'(hh k rfl))) (fun a e => by cases e; exact v.hands k _ hk) rfl
    simp only [Option.bind_some, hk]
    rw [e1]
    exact changed_becomes (by rw [e2]; exact lt) (by rw [e3, e4]; exact hc)

/-- The dataset after a change of one of its variables. -/
theorem see_setObj {h h1 : Heap V} (m : Made h) (x : Ext h h1) (hv : h1.vars = h.vars)
    (hst : h1.sets = h.sets) (hdc : h1.dicts = h.dicts) {d : Nat} {D : DsObj}
    {c : List (String × Nat)} (hD : h.sets[d]? = some D) (hc : h.dicts[D.chunks]? = some c)
    {name : String} {r : Nat} (hr : D.vars.lookup name = some r) {o : VarObj V} {z : Ds.Var V}
    {f : Ds.Var V → Ds.Var V} (hz : h.var r = some z) (hf : h1.valueOf o = some (f z)) :
    (h1.setObj r o).see d = some (withVar (h.seeObj D c) name f) := by
  have v := made_valid m
  have key := setObj_vals v x hv (v.sets d D hD).2
    (made_keys m D (List.mem_of_getElem? hD)) hr hz hf
  simp only [Heap.see]
  rw [show (h1.setObj r o).sets = h.sets from hst, show (h1.setObj r o).dicts = h.dicts from hdc,
    hD, Option.bind_some, hc, Option.map_some]
  simp only [withVar, Heap.seeObj]
  rw [← key]
  rfl

/-- `fill`: the variable holds the fill value everywhere. -/
theorem C77_fill {h : Heap V} (m : Made h) {d : Nat} {s : Ds.Dataset V}
    (hs : h.see d = some s) (name : String) :
    Becomes (step h (.fill d name)) d
      (if (Ds.getVar s.vars name).isSome then (withVar s name Vr.fillVar, .ok ())
       else (s, .error .keyError)) := by
  have v := made_valid m
  obtain ⟨D, c, hg, hD, hc, rfl⟩ := see_obj hs
  have hn := (v.sets d D hD).2
  simp only [step, Heap.onVar, on_see hg, show (h.seeObj D c).vars = h.vals D.vars from rfl]
  rcases getObj_value v hn name with ⟨r, o, x, g1, g2, g3, g4⟩ | ⟨g1, g2, g3⟩
  · rw [g1, g4]
    obtain ⟨hr, ho⟩ := getObj_spec g1
    have hz : h.var r = some x := by simp only [Heap.var, ho, Option.bind_some, g3]
    simp only [Option.isSome_some, ↓reduceIte]
    refine ⟨?_, rfl⟩
    obtain ⟨b, hb, hvo⟩ := value_of g2
    rw [g3] at hvo
    cases hvo
    simp only [Heap.fill]
    cases hf : o.fill with
    | none =>
      simp only
      rw [hs]
      congr 1
      have e : Vr.fillVar (valWith o (through o.array.view b)) =
          valWith o (through o.array.view b) := by
        simp only [Vr.fillVar, valWith, hf]
      have hw : (h.vals D.vars) = (h.vals D.vars).map fun w =>
          if w.name = name then Vr.fillVar w else w := by
        refine (List.map_id' _).symm.trans (List.map_congr_left fun w hw => ?_)
        split
        · rename_i hwn
          obtain ⟨p, hp, hpw⟩ := List.mem_filterMap.1 hw
          obtain ⟨y, y1, y2⟩ := seen_of v (hn p hp)
          rw [hpw] at y1
          cases y1
          have := lookup_of_mem (made_keys m D (List.mem_of_getElem? hD)) (k := p.1) (x := p.2) hp
          rw [← y2, hwn, hr] at this
          cases this
          rw [hpw] at hz
          cases hz
          exact e.symm
        · rfl
      simp only [withVar, Heap.seeObj]
      rw [← hw]
    | some fv =>
      simp only
      refine see_setObj m (h1 := { h with bufs := h.bufs ++ [full o.array.view.shape fv] })
        ⟨⟨_, rfl⟩, ⟨[], by simp⟩, [], by simp⟩ rfl rfl rfl hD hc hr hz ?_
      simp only [Heap.valueOf, read_new, Option.map_some, Vr.fillVar, valWith, hf]
      rfl
  · rw [g1, g3]
    exact ⟨hs, rfl⟩

/-- `values = array`: the variable holds the elements of the array of the program; an array of
another rank is refused. -/
theorem C77_assign {h : Heap V} (m : Made h) {d : Nat} {s : Ds.Dataset V}
    (hs : h.see d = some s) {name : String} {x : Ds.Var V}
    (hx : Ds.getVar s.vars name = some x) {k : Nat} {a : Arr V}
    (ha : (h.hands[k]?).bind h.read = some a) :
    Becomes (step h (.assign d name k)) d
      (if a.shape.length ≠ x.dims.length then (s, .error .valueError)
       else (withVar s name fun w => { w with array := a }, .ok ())) := by
  have v := made_valid m
  obtain ⟨D, c, hg, hD, hc, rfl⟩ := see_obj hs
  have hn := (v.sets d D hD).2
  obtain ⟨rf, hk, hrd⟩ := Option.bind_eq_some_iff.1 ha
  have okr := v.hands k rf hk
  simp only [step, Heap.onVar, on_see hg]
  rcases getObj_value v hn name with ⟨r, o, z, g1, g2, g3, g4⟩ | ⟨g1, g2, g3⟩
  · rw [g1]
    rw [show (h.seeObj D c).vars = h.vals D.vars from rfl, g4] at hx
    cases hx
    obtain ⟨hr, ho⟩ := getObj_spec g1
    have hz : h.var r = some x := by simp only [Heap.var, ho, Option.bind_some, g3]
    have hsh : a.shape = rf.view.shape := by
      obtain ⟨b, _, e⟩ := Option.map_eq_some_iff.1 hrd
      rw [← e]
      rfl
    have hdm : x.dims = o.dims := by
      obtain ⟨b, _, e⟩ := Option.map_eq_some_iff.1 g3
      rw [← e]
    simp only [hk, Heap.assign, hsh, hdm]
    by_cases hl : rf.view.shape.length ≠ o.dims.length
    · rw [if_pos hl, if_pos hl]
      exact ⟨hs, rfl⟩
    · rw [if_neg hl, if_neg hl]
      obtain ⟨q, hq⟩ := adopt_some o.delayed okr
      obtain ⟨x1, rd⟩ := adopt_read hq
      obtain ⟨_, q1, q2, q3, _, _, _⟩ := adopt_valid v okr hq
      rw [hq]
      refine ⟨see_setObj m x1 q1 q2 q3 hD hc hr hz ?_, rfl⟩
      obtain ⟨b, _, e⟩ := Option.map_eq_some_iff.1 g3
      simp only [Heap.valueOf, rd, hrd, Option.map_some, ← e]
  · rw [show (h.seeObj D c).vars = h.vals D.vars from rfl, g3] at hx
    cases hx

/-- `chunks[dim] = n` -/
theorem C77_set_chunk {h : Heap V} {d : Nat} {s : Ds.Dataset V}
    (hs : h.see d = some s) (dim : String) (n : Nat) :
    Becomes (step h (.setChunk d dim n)) d ({ s with chunks := put s.chunks (dim, n) }, .ok ()) := by
  obtain ⟨D, c, hg, hD, hc, rfl⟩ := see_obj hs
  simp only [step, on_see hg]
  refine ⟨?_, rfl⟩
  simp only [Heap.see, hD, Option.bind_some,
    List.getElem?_set_self (List.getElem?_eq_some_iff.1 hc).1, Option.map_some]
  rfl

/-- `fill_attrs` -/
theorem C77_fill_attrs {h : Heap V} (m : Made h) {d : Nat} {s : Ds.Dataset V}
    (hs : h.see d = some s) (attrs : List (String × String)) (vars : List (String × Nat)) :
    Becomes (step h (.fillAttrs d attrs vars)) d
      ({ s with attrs := attrs, vars := (fillVars vars s.vars).1 }, (fillVars vars s.vars).2) := by
  have v := made_valid m
  obtain ⟨D, c, hg, hD, hc, rfl⟩ := see_obj hs
  simp only [step, on_see hg]
  have e := fillLoop_vals v vars (v.sets d D hD).2 (made_keys m D (List.mem_of_getElem? hD))
  rw [show (h.seeObj D c).vars = h.vals D.vars from rfl, e]
  exact changed_becomes (h := { h with vars := (fillLoop vars D.vars h.vars).1 })
    (D := { D with attrs := attrs }) (List.getElem?_eq_some_iff.1 hD).1 hc

/-- `copy_properties`: the chunks and the limit of the other dataset. -/
theorem C77_copy_properties {h : Heap V} {d other : Nat} {s o : Ds.Dataset V}
    (hs : h.see d = some s) (ho : h.see other = some o) :
    Becomes (step h (.copyProperties d other)) d
      ({ s with chunks := o.chunks, limit := o.limit }, .ok ()) := by
  obtain ⟨D, c, hg, hD, hc, rfl⟩ := see_obj hs
  obtain ⟨O, c', hg', hO, hc', rfl⟩ := see_obj ho
  simp only [step, on_see hg, on_see hg']
  exact changed_becomes (r := .ok ()) (D := { D with chunks := O.chunks, limit := O.limit })
    (List.getElem?_eq_some_iff.1 hD).1 hc'

/-- `values`: an array of the elements of the variable. -/
theorem C77_values {h : Heap V} (m : Made h) {d : Nat} {s : Ds.Dataset V}
    (hs : h.see d = some s) (name : String) :
    match Ds.getVar s.vars name with
    | none => step h (.values d name) = (h, .error .keyError)
    | some x => ∃ k a, (step h (.values d name)).2 = .ok (.hand k) ∧
        (step h (.values d name)).1.hands[k]? = some a ∧
        (step h (.values d name)).1.read a = some x.array := by
  have v := made_valid m
  obtain ⟨D, c, hg, hD, hc, rfl⟩ := see_obj hs
  have hn := (v.sets d D hD).2
  simp only [step, Heap.onVar, on_see hg, show (h.seeObj D c).vars = h.vals D.vars from rfl]
  rcases getObj_value v hn name with ⟨r, o, y, g1, g2, g3, g4⟩ | ⟨g1, g2, g3⟩
  · rw [g1, g4]
    obtain ⟨a, ha, e⟩ := Option.map_eq_some_iff.1 g3
    subst e
    simp only [Heap.values]
    split
    · refine ⟨h.hands.length, o.array, rfl, ?_, ?_⟩
      · simp only [List.getElem?_append_right (Nat.le_refl _), Nat.sub_self,
          List.getElem?_cons_zero]
      · exact ha
    · rw [ha]
      refine ⟨h.hands.length, whole h.bufs.length a, rfl, ?_, ?_⟩
      · simp only [List.getElem?_append_right (Nat.le_refl _), Nat.sub_self,
          List.getElem?_cons_zero]
      · exact read_new h a
  · rw [g1, g3]

/-! ### The other datasets -/

/-- A call that is not one of five changes no dataset but the one it is made on. -/
theorem C77_others {h : Heap V} (m : Made h) {c : Call V} (ht : ¬ Touches c) {e : Nat}
    (he : e < h.sets.length) (hne : target c ≠ some e) : (step h c).1.see e = h.see e := by
  have v := made_valid m
  have x := step_ext v ht
  have g := step_grow (DS := fun _ => True) (HS := fun _ => True) h c (fun _ _ => trivial)
    (fun _ _ => trivial)
  refine see_congr ?_ ?_ ?_ ?_
  · rcases g.sets e he with g | g
    · exact g
    · exact absurd g hne
  · intro i hi
    obtain ⟨l, e⟩ := x.dicts
    rw [e, List.getElem?_append_left (v.dict_lt hi)]
  · intro i hi
    obtain ⟨l, e⟩ := x.objs
    rw [e, List.getElem?_append_left (v.var_lt hi)]
  · intro i hi
    obtain ⟨l, e⟩ := x.bufs
    rw [e, List.getElem?_append_left (v.buf_lt hi)]

end Verif
