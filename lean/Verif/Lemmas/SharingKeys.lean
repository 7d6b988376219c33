import Verif.Lemmas.SharingNew

/-!
The names in a dictionary of variables are distinct; the variables that datasets share.
-/

namespace Verif.Sh

open Nd Spec

variable {V : Type}

theorem put_keys {β : Type} (d : List (String × β)) (p : String × β) :
    ∀ k, k ∈ (put d p).map (·.1) ↔ k ∈ d.map (·.1) ∨ k = p.1 := by
  induction d with
  | nil => intro k; simp [put]
  | cons q t ih =>
    intro k
    simp only [put]
    split
    · rename_i e
      simp only [List.map_cons, List.mem_cons, e]
      constructor
      · rintro (h | h)
        · exact .inr h
        · exact .inl (.inr h)
      · rintro ((h | h) | h)
        · exact .inl h
        · exact .inr h
        · exact .inl h
    · simp only [List.map_cons, List.mem_cons, ih k]
      constructor
      · rintro (h | h | h)
        · exact .inl (.inl h)
        · exact .inl (.inr h)
        · exact .inr h
      · rintro ((h | h) | h)
        · exact .inl h
        · exact .inr (.inl h)
        · exact .inr (.inr h)

theorem put_nodup {β : Type} {d : List (String × β)} (hd : (d.map (·.1)).Nodup)
    (p : String × β) : ((put d p).map (·.1)).Nodup := by
  induction d with
  | nil => simp [put]
  | cons q t ih =>
    simp only [List.map_cons, List.nodup_cons] at hd
    simp only [put]
    split
    · rename_i e
      simp only [List.map_cons, List.nodup_cons, ← e]
      exact hd
    · rename_i e
      simp only [List.map_cons, List.nodup_cons, put_keys]
      refine ⟨?_, ih hd.2⟩
      rintro (h | h)
      · exact hd.1 h
      · exact e h

theorem foldl_put_nodup {β : Type} (l : List (String × β)) {acc : List (String × β)}
    (h : (acc.map (·.1)).Nodup) : ((l.foldl put acc).map (·.1)).Nodup := by
  induction l generalizing acc with
  | nil => exact h
  | cons p t ih => exact ih (put_nodup h p)

/-- The names of the variables of a dataset are distinct. -/
def Keys (l : List DsObj) : Prop := ∀ D ∈ l, (D.vars.map (·.1)).Nodup

theorem Keys.add {l : List DsObj} (h : Keys l) {D : DsObj} (hd : (D.vars.map (·.1)).Nodup) :
    Keys (l ++ [D]) := by
  intro x hx
  rcases List.mem_append.1 hx with hx | hx
  · exact h x hx
  · obtain rfl := List.mem_singleton.1 hx
    exact hd

theorem Keys.set {l : List DsObj} (h : Keys l) {D : DsObj} (hd : (D.vars.map (·.1)).Nodup)
    (n : Nat) : Keys (l.set n D) := by
  intro x hx
  rcases List.mem_or_eq_of_mem_set hx with hx | hx
  · exact h x hx
  · exact hx ▸ hd

theorem construct_keys {h : Heap V} (k : Keys h.sets) (vars : List (String × Nat))
    (attrs : List (String × String)) (chunks : List (String × Nat)) (limit : Nat)
    (delayed : Option Bool) : Keys (h.construct vars attrs chunks limit delayed).1.sets := by
  simp only [Heap.construct]
  split
  · exact k
  · exact k.add (foldl_put_nodup _ (by simp))

theorem build_keys {h : Heap V} (k : Keys h.sets) (l : List (VarObj V))
    (attrs : List (String × String)) (chunks : List (String × Nat)) (limit : Nat)
    (delayed : Option Bool) : Keys (h.build l attrs chunks limit delayed).1.sets :=
  construct_keys (h := (h.allocate l).1) k _ _ _ _ _

theorem allocate_names (h : Heap V) (l : List (VarObj V)) :
    (h.allocate l).2.map (·.1) = l.map (·.name) := by
  apply List.ext_getElem
  · simp [Heap.allocate]
  · intro i h1 h2
    simp [Heap.allocate]

theorem derive_keys {h : Heap V} (k : Keys h.sets) (l : List (VarObj V × Joined V))
    (attrs : List (String × String)) (chunks : List (String × Nat)) (limit : Nat)
    (delayed : Option Bool) : Keys (h.derive l attrs chunks limit delayed).1.sets :=
  construct_keys (by simpa only [Heap.allocate, (joined_same h l).2.2.1] using k) _ _ _ _ _

theorem on_keys {h : Heap V} (k : Keys h.sets) {n : Nat}
    {f : DsObj → List (String × Nat) → Heap V × Py Res}
    (hf : ∀ d c, h.sets[n]? = some d → (d.vars.map (·.1)).Nodup → Keys (f d c).1.sets) :
    Keys (h.on n f).1.sets := by
  simp only [Heap.on]
  split
  · exact k
  · rename_i d c e
    have := (getDs_spec e).1
    exact hf d c this (k d (List.mem_of_getElem? this))

theorem asDs_keys {x : Heap V × Py Nat} (k : Keys x.1.sets) : Keys (asDs x).1.sets := by
  rw [asDs_fst]; exact k

theorem adopt_sets {h : Heap V} {b : Bool} {a : Ref} {q : Heap V × Ref}
    (e : h.adopt b a = some q) : q.1.sets = h.sets := by
  simp only [Heap.adopt] at e
  split at e
  · obtain ⟨x, _, e⟩ := Option.map_eq_some_iff.1 e
    subst e
    rfl
  · cases e
    rfl

theorem givens_sets {h : Heap V} {l : List (Given V)} {q : Heap V × List (VarObj V)}
    (e : h.givens l = some q) : q.1.sets = h.sets := by
  induction l generalizing h q with
  | nil =>
    simp only [Heap.givens] at e
    cases e
    rfl
  | cons x t ih =>
    simp only [Heap.givens, Option.bind_eq_some_iff, Option.map_eq_some_iff] at e
    obtain ⟨r, h1, p, h2, q', h3, e⟩ := e
    subst e
    exact (ih h3).trans (adopt_sets h2)

theorem lookup_none_keys {β : Type} {l : List (String × β)} {k : String} :
    l.lookup k = none ↔ k ∉ l.map (·.1) := by
  induction l with
  | nil => simp
  | cons p t ih =>
    rw [lookup_cons]
    split
    · rename_i e
      simp [e]
    · rename_i e
      simp only [ih, List.map_cons, List.mem_cons, not_or]
      exact ⟨fun h => ⟨fun h1 => e h1, h⟩, fun h => h.2⟩

theorem filter_keys {β : Type} {l : List (String × β)} (h : (l.map (·.1)).Nodup)
    (p : String × β → Bool) : ((l.filter p).map (·.1)).Nodup :=
  h.sublist (List.filter_sublist.map _)

theorem mergeVars_keys {a b : List (String × Nat)} (ha : (a.map (·.1)).Nodup) :
    ((mergeVars a b).1.map (·.1)).Nodup := by
  induction b generalizing a with
  | nil => exact ha
  | cons p t ih =>
    simp only [mergeVars]
    split
    · exact ha
    · rename_i e
      refine ih ?_
      simp only [Option.not_isSome_iff_eq_none] at e
      simp only [List.map_append, List.map_cons, List.map_nil]
      rw [List.nodup_append]
      refine ⟨ha, by simp, fun x hx y hy => ?_⟩
      obtain rfl := List.mem_singleton.1 hy
      intro h
      exact lookup_none_keys.1 e (h ▸ hx)

theorem mergeDs_vars (d o : DsObj) :
    (mergeDs d o).1.vars = d.vars ∨ (mergeDs d o).1.vars = (mergeVars d.vars o.vars).1 := by
  simp only [mergeDs]
  split
  · exact .inl rfl
  · cases h : mergeVars d.vars o.vars with
    | mk vs r =>
      cases r with
      | error e => exact .inr rfl
      | ok u =>
        simp only
        split
        · exact .inr rfl
        · exact .inr rfl

theorem rename_keys {h : Heap V} {d : DsObj} (hd : (d.vars.map (·.1)).Nodup)
    (names : List (String × String)) :
    ((h.rename d names).2.1.vars.map (·.1)).Nodup ∧ (h.rename d names).1.sets = h.sets := by
  induction names generalizing h d with
  | nil => exact ⟨hd, rfl⟩
  | cons x t ih =>
    obtain ⟨old, new⟩ := x
    simp only [Heap.rename]
    split
    · exact ⟨hd, rfl⟩
    · rename_i e
      split
      · exact ⟨hd, rfl⟩
      · refine ih ?_
        simp only [Option.not_isSome_iff_eq_none] at e
        simp only [List.map_append, List.map_cons, List.map_nil]
        rw [List.nodup_append]
        refine ⟨filter_keys hd _, by simp, fun x hx y hy => ?_⟩
        obtain rfl := List.mem_singleton.1 hy
        intro h1
        subst h1
        obtain ⟨p, hp, e1⟩ := List.mem_map.1 hx
        exact lookup_none_keys.1 e (List.mem_map.2 ⟨p, (List.mem_filter.1 hp).1, e1⟩)

theorem dropVars_keys {d : DsObj} (hd : (d.vars.map (·.1)).Nodup) (names : List String) :
    ((dropVars d names).1.vars.map (·.1)).Nodup := by
  induction names generalizing d with
  | nil => exact hd
  | cons n t ih =>
    simp only [dropVars]
    split
    · exact hd
    · exact ih (filter_keys hd _)

theorem addVariable_keys {h : Heap V} {d : DsObj} (hd : (d.vars.map (·.1)).Nodup)
    (m : Ds.VarMeta V) (noneValue : Py V) (hand : Option Ref) :
    ((h.addVariable d m noneValue hand).2.1.vars.map (·.1)).Nodup ∧
      (h.addVariable d m noneValue hand).1.sets = h.sets := by
  simp only [Heap.addVariable]
  split
  · exact ⟨hd, rfl⟩
  · split
    · exact ⟨hd, rfl⟩
    · rename_i h1 r e
      refine ⟨put_nodup hd _, ?_⟩
      simp only [Heap.dataFor] at e
      split at e
      · split at e
        · cases e
        · cases e
          rfl
      · split at e
        · cases e
        · split at e
          · cases e
          · rename_i q hq
            cases e
            exact adopt_sets hq

theorem copied_names (h : Heap V) (l : List (VarObj V)) :
    ((h.copied l).map (·.1.name)).Sublist (l.map (·.name)) := by
  induction l with
  | nil => exact List.Sublist.refl _
  | cons o t ih =>
    simp only [Heap.copied, List.filterMap_cons]
    cases h.read o.array with
    | none => exact ih.cons _
    | some a => exact ih.cons_cons _

theorem joined_names (h : Heap V) (l : List (VarObj V × Joined V)) :
    (h.joined l).2.map (·.name) = l.map (·.1.name) := by
  induction l generalizing h with
  | nil => rfl
  | cons p t ih =>
    obtain ⟨o, j⟩ := p
    cases j with
    | same w => simp only [Heap.joined, List.map_cons, ih]
    | fresh a => simp only [Heap.joined, List.map_cons, ih]

theorem objects_names {h : Heap V} {d : DsObj} (hn : ∀ p ∈ d.vars, Named h p) :
    (h.objects d).map (·.name) = d.vars.map (·.1) := by
  simp only [Heap.objects]
  have : ∀ l : List (String × Nat), (∀ p ∈ l, Named h p) →
      (l.filterMap fun p => h.vars[p.2]?).map (·.name) = l.map (·.1) := by
    intro l
    induction l with
    | nil => intro _; rfl
    | cons p t ih =>
      intro hl
      obtain ⟨o, h1, h2⟩ := hl p List.mem_cons_self
      simp only [List.filterMap_cons, h1, List.map_cons, h2,
        ih fun q hq => hl q (List.mem_cons_of_mem _ hq)]
  exact this _ hn

theorem step_keys {h : Heap V} (v : Valid h) (k : Keys h.sets) (c : Call V) :
    Keys (step h c).1.sets := by
  cases c with
  | array a => exact k
  | write j idx x =>
    simp only [step]
    split
    · exact k
    · simp only [Heap.write]
      split
      · split
        · exact k
        · exact k
      · exact k
  | dataset l attrs chunks limit delayed =>
    simp only [step]
    split
    · exact k
    · rename_i h1 l1 e
      refine asDs_keys (construct_keys ?_ _ _ _ _ _)
      have := givens_sets e
      simp only at this
      simpa only [Heap.allocate, this] using k
  | values n name =>
    refine on_keys k fun d c hd hn => ?_
    split
    · exact k
    · simp only [Heap.values]
      split
      · exact k
      · split
        · exact k
        · exact k
  | assign n name j =>
    refine on_keys k fun d c hd hn => ?_
    split
    · exact k
    · split
      · exact k
      · simp only [Heap.assign]
        split
        · exact k
        · split
          · exact k
          · rename_i e
            have := adopt_sets e
            simp only at this
            simpa only [Heap.setObj, this] using k
  | fill n name =>
    refine on_keys k fun d c hd hn => ?_
    split
    · exact k
    · simp only [Heap.fill]
      split
      · exact k
      · exact k
  | setChunk n dim x => exact on_keys k fun d c hd hn => k
  | selectVars n names =>
    refine on_keys k fun d c hd hn => asDs_keys ?_
    simp only [Heap.selectVars]
    split
    · exact k
    · exact construct_keys k _ _ _ _ _
  | byDims n dims predicate =>
    exact on_keys k fun d c hd hn => asDs_keys (construct_keys k _ _ _ _ _)
  | isel n slices =>
    refine on_keys k fun d c hd hn => asDs_keys ?_
    simp only [Heap.isel]
    split
    · exact k
    · split
      · exact k
      · exact derive_keys k _ _ _ _ _
  | delete n ixs axis =>
    refine on_keys k fun d c hd hn => asDs_keys ?_
    simp only [Heap.deleteDs]
    split
    · exact k
    · exact derive_keys k _ _ _ _ _
  | concat n others dim =>
    refine on_keys k fun d c hd hn => ?_
    split
    · exact k
    · refine asDs_keys ?_
      simp only [Heap.concat]
      split
      · exact k
      · split
        · exact k
        · split
          · exact k
          · exact derive_keys k _ _ _ _ _
  | setForInsertion n chunks limit =>
    exact on_keys k fun d c hd hn => asDs_keys (build_keys k _ _ _ _ _)
  | compute n =>
    refine on_keys k fun d c hd hn => asDs_keys ?_
    simp only [Heap.compute]
    split
    · exact k
    · exact derive_keys k _ _ _ _ _
  | rechunk n =>
    refine on_keys k fun d c hd hn => asDs_keys ?_
    simp only [Heap.rechunk]
    split
    · exact k
    · exact build_keys k _ _ _ _ _
  | pickle n =>
    refine on_keys k fun d c hd hn => asDs_keys ?_
    have hk : Keys ((h.joined (h.copied (h.objects d))).1.allocate
        (h.joined (h.copied (h.objects d))).2).1.sets := by
      simpa only [Heap.allocate, (joined_same h _).2.2.1] using k
    refine hk.add ?_
    rw [show ({ d with
        vars := ((h.joined (h.copied (h.objects d))).1.allocate
          (h.joined (h.copied (h.objects d))).2).2,
        chunks := ((h.joined (h.copied (h.objects d))).1.allocate
          (h.joined (h.copied (h.objects d))).2).1.dicts.length } : DsObj).vars =
        ((h.joined (h.copied (h.objects d))).1.allocate
          (h.joined (h.copied (h.objects d))).2).2 from rfl, allocate_names, joined_names]
    refine List.Nodup.sublist (copied_names h _) ?_
    rw [objects_names (v.sets n d hd).2]
    exact hn
  | merge n other =>
    refine on_keys k fun d c hd hn => on_keys k fun o c' hd' hn' => ?_
    rw [changed_fst]
    refine k.set ?_ n
    rcases mergeDs_vars d o with e | e
    · rw [e]; exact hn
    · rw [e]; exact mergeVars_keys hn
  | rename n names =>
    refine on_keys k fun d c hd hn => ?_
    rw [changed_fst]
    obtain ⟨h1, h2⟩ := rename_keys (h := h) hn names
    exact Keys.set (by rw [h2]; exact k) h1 n
  | dropVars n names =>
    refine on_keys k fun d c hd hn => ?_
    rw [changed_fst]
    exact k.set (dropVars_keys hn names) n
  | addVariable n m noneValue hand =>
    refine on_keys k fun d c hd hn => ?_
    split
    · rw [changed_fst]
      obtain ⟨h1, h2⟩ := addVariable_keys (h := h) hn m noneValue none
      exact Keys.set (by rw [h2]; exact k) h1 n
    · split
      · exact k
      · rename_i r hr
        rw [changed_fst]
        obtain ⟨h1, h2⟩ := addVariable_keys (h := h) hn m noneValue (some r)
        exact Keys.set (by rw [h2]; exact k) h1 n
  | fillAttrs n attrs m =>
    refine on_keys k fun d c hd hn => ?_
    rw [changed_fst]
    exact k.set (D := { d with attrs := attrs }) hn n
  | copyProperties n other =>
    exact on_keys k fun d c hd hn => on_keys k fun o c' hd' hn' =>
      k.set (D := { d with chunks := o.chunks, limit := o.limit }) hn n

theorem made_keys {h : Heap V} (m : Made h) : Keys h.sets := by
  obtain ⟨prog, rfl⟩ := m
  have : ∀ (l : List (Call V)) (x : Heap V), Valid x → Keys x.sets → Keys (run x l).sets := by
    intro l
    induction l with
    | nil => intro x _ k; exact k
    | cons c t ih => intro x v k; exact ih _ (step_valid v c) (step_keys v k c)
  exact this prog _ valid_empty (by intro D hD; cases hD)

/-! ### The variables of a dataset, by their names -/

theorem lookup_of_mem {β : Type} {l : List (String × β)} (hn : (l.map (·.1)).Nodup) {k : String}
    {x : β} (h : (k, x) ∈ l) : l.lookup k = some x := by
  induction l with
  | nil => cases h
  | cons p t ih =>
    obtain ⟨k', x'⟩ := p
    simp only [List.map_cons, List.nodup_cons] at hn
    rw [lookup_cons]
    rcases List.mem_cons.1 h with e | h
    · cases e
      simp
    · rw [if_neg]
      · exact ih hn.2 h
      · intro e
        refine hn.1 ?_
        rw [← e]
        exact List.mem_map.2 ⟨(k, x), h, rfl⟩

/-- What the variables of a dictionary show. -/
def Heap.vals (h : Heap V) (l : List (String × Nat)) : List (Ds.Var V) :=
  l.filterMap fun p => h.var p.2

/-- The variable at the place `p.2` shows something, under the name `p.1`. -/
def Seen (h : Heap V) (p : String × Nat) : Prop := ∃ v, h.var p.2 = some v ∧ v.name = p.1

theorem seen_of {h : Heap V} (v : Valid h) {p : String × Nat} (hp : Named h p) : Seen h p := by
  obtain ⟨o, h1, h2⟩ := hp
  have hb := (v.objs p.2 o h1).1
  simp only [Seen, Heap.var, h1, Option.bind_some, Heap.valueOf, Heap.read,
    List.getElem?_eq_getElem hb, Option.map_some]
  exact ⟨_, rfl, h2⟩

theorem vals_cons {h : Heap V} {p : String × Nat} {t : List (String × Nat)} {v : Ds.Var V}
    (e : h.var p.2 = some v) : h.vals (p :: t) = v :: h.vals t := by
  simp only [Heap.vals, List.filterMap_cons, e]

theorem vals_get {h : Heap V} {l : List (String × Nat)} (hl : ∀ p ∈ l, Seen h p)
    (name : String) : Ds.getVar (h.vals l) name = (l.lookup name).bind h.var := by
  induction l with
  | nil => rfl
  | cons p t ih =>
    obtain ⟨v, h1, h2⟩ := hl p List.mem_cons_self
    obtain ⟨k, r⟩ := p
    rw [vals_cons h1, lookup_cons]
    simp only at h1 h2
    by_cases e : name = k
    · subst e
      simp only [Ds.getVar, List.find?_cons, h2, if_true, decide_true, Option.bind_some]
      exact h1.symm
    · have : ¬ v.name = name := fun h => e (h.symm.trans h2)
      simp only [Ds.getVar, List.find?_cons, e, if_false, this, decide_false]
      exact ih fun q hq => hl q (List.mem_cons_of_mem _ hq)

theorem vals_names {h : Heap V} {l : List (String × Nat)} (hl : ∀ p ∈ l, Seen h p) :
    (h.vals l).map (·.name) = l.map (·.1) := by
  induction l with
  | nil => rfl
  | cons p t ih =>
    obtain ⟨v, h1, h2⟩ := hl p List.mem_cons_self
    rw [vals_cons h1, List.map_cons, List.map_cons, h2,
      ih fun q hq => hl q (List.mem_cons_of_mem _ hq)]

theorem Valid.seen {h : Heap V} (v : Valid h) {n : Nat} {D : DsObj} (hd : h.sets[n]? = some D) :
    ∀ p ∈ D.vars, Seen h p := fun p hp => seen_of v ((v.sets n D hd).2 p hp)

theorem mergeVars_spec (a b : List (String × Nat)) (name : String) (x : Nat)
    (h : a.lookup name = some x) : (mergeVars a b).1.lookup name = some x := by
  induction b generalizing a with
  | nil => exact h
  | cons p t ih =>
    simp only [mergeVars]
    split
    · exact h
    · refine ih _ ?_
      rw [List.lookup_append, h]
      rfl

theorem mergeVars_ok {a b vs : List (String × Nat)} (h : mergeVars a b = (vs, .ok ())) :
    vs = a ++ b ∧ ∀ p ∈ b, a.lookup p.1 = none := by
  induction b generalizing a with
  | nil =>
    simp only [mergeVars] at h
    cases h
    simp
  | cons p t ih =>
    simp only [mergeVars] at h
    split at h
    · cases h
    · rename_i e
      simp only [Option.not_isSome_iff_eq_none] at e
      obtain ⟨h1, h2⟩ := ih h
      refine ⟨by rw [h1]; simp, fun q hq => ?_⟩
      rcases List.mem_cons.1 hq with rfl | hq
      · exact e
      · have := h2 q hq
        rw [List.lookup_append] at this
        simpa using (Option.or_eq_none_iff.1 this).1

/-- A call that does not replace the variables of `d` keeps them. -/
theorem step_lookup {h : Heap V} {c : Call V} {d : Nat} {D : DsObj} (hd : h.sets[d]? = some D)
    {name : String} {r : Nat} (hr : D.vars.lookup name = some r)
    (hc : ∀ l, c ≠ .rename d l) (hc' : ∀ l, c ≠ .dropVars d l)
    (hc'' : ∀ m v k, c ≠ .addVariable d m v k) :
    ∃ D', (step h c).1.sets[d]? = some D' ∧ D'.vars.lookup name = some r := by
  have g := step_grow (DS := fun _ => True) (HS := fun _ => True) h c (fun _ _ => trivial)
    fun _ _ => trivial
  have hlt := (List.getElem?_eq_some_iff.1 hd).1
  rcases g.sets d hlt with e | e
  · exact ⟨D, by rw [e, hd], hr⟩
  · have get : ∀ (x : Heap V) (X : DsObj), x.sets = h.sets →
        (x.setDs d X).sets[d]? = some X := by
      intro x X hx
      simp only [Heap.setDs, hx, List.getElem?_set, if_true, hlt]
    cases c with
    | rename n l => cases e; exact absurd rfl (hc l)
    | dropVars n l => cases e; exact absurd rfl (hc' l)
    | addVariable n m v k => cases e; exact absurd rfl (hc'' m v k)
    | merge n other =>
      cases e
      simp only [step, Heap.on]
      split
      · exact ⟨D, hd, hr⟩
      · rename_i X cx hX
        have hX := (getDs_spec hX).1
        rw [hd] at hX
        cases hX
        split
        · exact ⟨D, hd, hr⟩
        · rename_i o co _
          rw [changed_fst]
          refine ⟨_, get h _ rfl, ?_⟩
          rcases mergeDs_vars D o with e | e
          · rw [e]; exact hr
          · rw [e]; exact mergeVars_spec _ _ _ _ hr
    | fillAttrs n attrs m =>
      cases e
      simp only [step, Heap.on]
      split
      · exact ⟨D, hd, hr⟩
      · rename_i X cx hX
        have hX := (getDs_spec hX).1
        rw [hd] at hX
        cases hX
        rw [changed_fst]
        exact ⟨_, get _ _ rfl, hr⟩
    | copyProperties n other =>
      cases e
      simp only [step, Heap.on]
      split
      · exact ⟨D, hd, hr⟩
      · rename_i X cx hX
        have hX := (getDs_spec hX).1
        rw [hd] at hX
        cases hX
        split
        · exact ⟨D, hd, hr⟩
        · exact ⟨_, get _ _ rfl, hr⟩
    | _ => cases e

theorem foldl_put_lookup {β : Type} {k : String} {x : β} (l : List (String × β)) :
    ∀ acc : List (String × β), (∀ y, (k, y) ∈ l → y = x) →
      acc.lookup k = some x ∨ acc.lookup k = none ∧ (k, x) ∈ l →
      (l.foldl put acc).lookup k = some x := by
  have hput : ∀ (d : List (String × β)) (p : String × β) (k : String),
      (put d p).lookup k = if k = p.1 then some p.2 else d.lookup k := by
    intro d p k
    induction d with
    | nil =>
      obtain ⟨a, b⟩ := p
      simp only [put, lookup_cons, List.lookup_nil]
    | cons q t ih =>
      obtain ⟨a, b⟩ := p
      obtain ⟨a', b'⟩ := q
      simp only [put]
      split
      · rename_i e
        simp only [lookup_cons]
        subst e
        split <;> simp_all
      · rename_i e
        simp only [lookup_cons]
        split
        · rename_i e1
          subst e1
          rw [if_neg e]
        · exact ih
  induction l with
  | nil =>
    intro acc _ h
    rcases h with h | h
    · exact h
    · exact absurd h.2 nofun
  | cons p t ih =>
    intro acc hy h
    refine ih _ (fun y h1 => hy y (List.mem_cons_of_mem _ h1)) ?_
    obtain ⟨a, b⟩ := p
    rw [hput]
    simp only
    by_cases e : k = a
    · subst e
      rw [if_pos rfl]
      exact .inl (congrArg some (hy b List.mem_cons_self))
    · rw [if_neg e]
      rcases h with h | ⟨h, h1⟩
      · exact .inl h
      · refine .inr ⟨h, ?_⟩
        rcases List.mem_cons.1 h1 with h1 | h1
        · cases h1; exact absurd rfl e
        · exact h1

/-- The dictionary of a new dataset. -/
theorem construct_sets {h h' : Heap V} {vars : List (String × Nat)}
    {attrs : List (String × String)} {chunks : List (String × Nat)} {limit : Nat}
    {delayed : Option Bool} {n : Nat}
    (e : h.construct vars attrs chunks limit delayed = (h', .ok n)) :
    n = h.sets.length ∧ ∃ D, h'.sets = h.sets ++ [D] ∧ D.vars = vars.foldl put [] := by
  simp only [Heap.construct] at e
  split at e
  · cases e
  · cases e
    exact ⟨rfl, _, rfl, rfl⟩

end Verif.Sh
