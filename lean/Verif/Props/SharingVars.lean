import Verif.Props.Sharing
import Verif.Lemmas.SharingRefine

/-!
C76: variables that datasets share, and elements that are written in place.
-/

namespace Verif

open Nd Sh Spec

variable {V : Type}

/-! ### The same variables -/

theorem mapPy_image {α β : Type} {f : α → Py β} {l : List α} {r : List β}
    (e : Ds.mapPy f l = .ok r) : ∀ x ∈ l, ∃ y ∈ r, f x = .ok y := by
  induction l generalizing r with
  | nil => nofun
  | cons a t ih =>
    simp only [Ds.mapPy] at e
    cases ha : f a with
    | error z => rw [ha] at e; cases e
    | ok y =>
      rw [ha] at e
      cases ht : Ds.mapPy f t with
      | error z => rw [ht] at e; cases e
      | ok ys =>
        rw [ht] at e
        cases e
        intro x hx
        rcases List.mem_cons.1 hx with rfl | hx
        · exact ⟨y, List.mem_cons_self, ha⟩
        · obtain ⟨z, hz, e⟩ := ih ht x hx
          exact ⟨z, List.mem_cons_of_mem _ hz, e⟩

theorem look_eq {h : Heap V} (v : Valid h) {d : Nat} {D : DsObj} (hd : h.sets[d]? = some D)
    (name : String) : look h d name = (D.vars.lookup name).bind h.var := by
  obtain ⟨c, hc⟩ := (List.getElem?_eq_some_iff (i := D.chunks) (l := h.dicts)).2
    ⟨(v.sets d D hd).1, rfl⟩ |> fun e => (⟨_, e⟩ : ∃ c, h.dicts[D.chunks]? = some c)
  simp only [look, Heap.see, hd, Option.bind_some, hc, Option.map_some]
  exact vals_get (v.seen hd) name

/-- `d[name] is e[name]` holds as long as the variable is not taken out of one of the datasets,
and whatever is done in between, by either of them or by any other way, shows in both. -/
theorem C76_shared {h : Heap V} (m : Made h) {d e : Nat} {name : String}
    (s : SharedVar h d e name) (prog : List (Call V))
    (hp : ∀ c ∈ prog, ¬ Replaces d c ∧ ¬ Replaces e c) :
    SharedVar (run h prog) d e name ∧ look (run h prog) d name = look (run h prog) e name ∧
      (look (run h prog) d name).isSome := by
  have keep : SharedVar (run h prog) d e name := by
    clear m
    induction prog generalizing h with
    | nil => exact s
    | cons c t ih =>
      refine ih ?_ fun x hx => hp x (List.mem_cons_of_mem _ hx)
      obtain ⟨r, D, E, h1, h2, h3, h4⟩ := s
      have hc := hp c List.mem_cons_self
      have ne : ∀ d, ¬ Replaces d c → (∀ l, c ≠ .rename d l) ∧ (∀ l, c ≠ .dropVars d l) ∧
          ∀ m v k, c ≠ .addVariable d m v k := by
        intro d hd
        exact ⟨fun l e => hd (by subst e; exact rfl), fun l e => hd (by subst e; exact rfl),
          fun m v k e => hd (by subst e; exact rfl)⟩
      obtain ⟨a1, a2, a3⟩ := ne d hc.1
      obtain ⟨b1, b2, b3⟩ := ne e hc.2
      obtain ⟨D', d1, d2⟩ := step_lookup h1 h3 a1 a2 a3
      obtain ⟨E', e1, e2⟩ := step_lookup h2 h4 b1 b2 b3
      exact ⟨r, D', E', d1, e1, d2, e2⟩
  refine ⟨keep, ?_⟩
  obtain ⟨r, D, E, h1, h2, h3, h4⟩ := keep
  have v := run_valid (made_valid m) prog
  rw [look_eq v h1, look_eq v h2, h3, h4]
  refine ⟨rfl, ?_⟩
  obtain ⟨x, hx, _⟩ := v.seen h1 _ (lookup_mem _ _ _ h3)
  simp only [Option.bind_some, hx, Option.isSome_some]

/-- `select_vars` gives the variables themselves. -/
theorem C76_select_vars {h h' : Heap V} (m : Made h) {d n : Nat} {names : List String}
    (e : step h (.selectVars d names) = (h', .ok (.ds n))) :
    ∀ name ∈ names, SharedVar h' d n name := by
  intro name hname
  have v := made_valid m
  obtain ⟨D, c, hD, _, e⟩ := on_ok e
  obtain ⟨k, e1, e⟩ := asDs_ok e
  cases e1
  simp only [Heap.selectVars] at e
  split at e
  · cases e
  · rename_i l hl
    obtain ⟨hn, N, h1, h2⟩ := construct_sets e
    have named : ∀ q ∈ l, D.vars.lookup q.2.name = some q.1 := by
      intro q hq
      obtain ⟨x, _, hx⟩ := mapPy_mem _ _ _ hl q hq
      obtain ⟨h3, h4⟩ := getObj_spec hx
      obtain ⟨o, h5, h6⟩ := (v.sets d D hD).2 _ (lookup_mem _ _ _ h3)
      simp only at h5 h6
      rw [h4] at h5
      cases h5
      rw [h6]
      exact h3
    obtain ⟨q, hq, hx⟩ : ∃ q ∈ l, h.getObj D name = .ok q := mapPy_image hl name hname
    have h3 := (getObj_spec hx).1
    obtain ⟨o, h5, h6⟩ := (v.sets d D hD).2 _ (lookup_mem _ _ _ h3)
    have hqn : q.2.name = name := by
      simp only at h5 h6
      rw [(getObj_spec hx).2] at h5
      cases h5
      exact h6
    refine ⟨q.1, D, N, ?_, ?_, h3, ?_⟩
    · rw [h1, List.getElem?_append_left (List.getElem?_eq_some_iff.1 hD).1]
      exact hD
    · rw [h1, hn]
      simp
    · rw [h2]
      refine foldl_put_lookup _ _ (fun y hy => ?_) (.inr ⟨rfl, ?_⟩)
      · obtain ⟨q', hq', e⟩ := List.mem_map.1 hy
        injection e with e1 e2
        have := named q' hq'
        rw [e1, h3] at this
        injection this with this
        rw [← e2, this]
      · exact List.mem_map.2 ⟨q, hq, by rw [hqn]⟩

/-- `select_variables_by_dims` gives the variables themselves. -/
theorem C76_select_by_dims {h h' : Heap V} (m : Made h) {d n : Nat} {dims : List String}
    {predicate : Bool} (e : step h (.byDims d dims predicate) = (h', .ok (.ds n))) :
    ∀ name, (look h' n name).isSome → SharedVar h' d n name := by
  intro name hname
  have v := made_valid m
  have v' := made_valid (made_step m e)
  have ks := made_keys m
  obtain ⟨D, c, hD, _, e⟩ := on_ok e
  obtain ⟨k, e1, e⟩ := asDs_ok e
  cases e1
  obtain ⟨hn, N, h1, h2⟩ := construct_sets e
  have hN : h'.sets[n]? = some N := by
    rw [h1, hn]
    simp
  rw [look_eq v' hN] at hname
  cases hr : N.vars.lookup name with
  | none => rw [hr] at hname; cases hname
  | some r =>
    refine ⟨r, D, N, ?_, hN, ?_, hr⟩
    · rw [h1, List.getElem?_append_left (List.getElem?_eq_some_iff.1 hD).1]
      exact hD
    · have hm := lookup_mem _ _ _ hr
      rw [h2] at hm
      rcases foldl_put_mem _ _ _ hm with hm | hm
      · cases hm
      · exact lookup_of_mem (ks D (List.mem_of_getElem? hD)) (List.mem_filter.1 hm).1

/-- `merge` puts the variables of the other dataset themselves into the dataset. -/
theorem C76_merge {h h' : Heap V} (m : Made h) {d o : Nat}
    (e : step h (.merge d o) = (h', .ok .unit)) :
    ∀ name, (look h o name).isSome → SharedVar h' d o name := by
  intro name hname
  have v := made_valid m
  obtain ⟨D, c, hD, _, e⟩ := on_ok e
  obtain ⟨O, c', hO, _, e⟩ := on_ok e
  rw [look_eq v hO] at hname
  cases hr : O.vars.lookup name with
  | none => rw [hr] at hname; cases hname
  | some r =>
    have key : ∃ vs, mergeVars D.vars O.vars = (vs, .ok ()) ∧ (mergeDs D O).1.vars = vs ∧
        h' = h.setDs d (mergeDs D O).1 := by
      have e1 := congrArg Prod.fst e
      have e2 := congrArg Prod.snd e
      rw [changed_fst] at e1
      have e1 : h.setDs d (mergeDs D O).1 = h' := e1
      simp only [mergeDs] at e1 e2 ⊢
      split at e2
      · rename_i hdel
        cases e2
      · rename_i hdel
        rw [if_neg hdel] at e1 ⊢
        generalize mergeVars D.vars O.vars = q at e1 e2 ⊢
        obtain ⟨vs, x⟩ := q
        cases x with
        | error x => cases e2
        | ok u =>
          simp only at e1 e2 ⊢
          split at e2
          · cases e2
          · rename_i hdim
            rw [if_neg hdim] at e1 ⊢
            exact ⟨vs, rfl, rfl, e1.symm⟩
    obtain ⟨vs, k1, k2, k3⟩ := key
    obtain ⟨k4, k5⟩ := mergeVars_ok k1
    have hlt := (List.getElem?_eq_some_iff.1 hD).1
    have none := k5 _ (lookup_mem _ _ _ hr)
    have hdo : d ≠ o := by
      rintro rfl
      rw [hD] at hO
      cases hO
      rw [hr] at none
      cases none
    refine ⟨r, (mergeDs D O).1, O, ?_, ?_, ?_, hr⟩
    · rw [k3]
      simp [Heap.setDs, hlt]
    · rw [k3]
      simp only [Heap.setDs, List.getElem?_set, hdo, if_false]
      exact hO
    · rw [k2, k4, List.lookup_append, none, hr]
      rfl

/-! ### Elements written in place -/

theorem joined_mem (h : Heap V) {l : List (VarObj V × Joined V)} {o : VarObj V} {j : Joined V}
    (hl : (o, j) ∈ l) : ∃ a : Ref, { o with array := a } ∈ (h.joined l).2 ∧
      (∀ w, j = .same w → a = ⟨o.array.buf, w⟩) ∧ ∀ x, j = .fresh x → a.view.shape = x.shape := by
  induction l generalizing h with
  | nil => cases hl
  | cons p t ih =>
    obtain ⟨o', j'⟩ := p
    rcases List.mem_cons.1 hl with e | hl'
    · cases e
      cases j with
      | same w =>
        exact ⟨⟨o.array.buf, w⟩, List.mem_cons_self, fun w' e => by cases e; rfl, nofun⟩
      | fresh x =>
        exact ⟨whole h.bufs.length x, List.mem_cons_self, nofun,
          fun x' e => by cases e; rfl⟩
    · cases j' with
      | same w =>
        obtain ⟨a, h1, h2⟩ := ih h hl'
        exact ⟨a, List.mem_cons_of_mem _ h1, h2⟩
      | fresh x =>
        obtain ⟨a, h1, h2⟩ := ih { h with bufs := h.bufs ++ [x] } hl'
        exact ⟨a, List.mem_cons_of_mem _ h1, h2⟩

/-- The variables of a new dataset, by their names. -/
theorem derive_lookup {h h' : Heap V} (v' : Valid h') {l : List (VarObj V × Joined V)}
    {attrs : List (String × String)} {chunks : List (String × Nat)} {limit : Nat}
    {delayed : Option Bool} {n : Nat}
    (e : h.derive l attrs chunks limit delayed = (h', .ok n)) (hk : (l.map (·.1.name)).Nodup)
    {o : VarObj V} {j : Joined V} (hl : (o, j) ∈ l) :
    ∃ D' r' a, h'.sets[n]? = some D' ∧ D'.vars.lookup o.name = some r' ∧
      h'.vars[r']? = some { o with array := a } ∧
      (∀ w, j = .same w → a = ⟨o.array.buf, w⟩) ∧ (∀ x, j = .fresh x → a.view.shape = x.shape) ∧
      (o.dims ≠ [] → a.view.shape ≠ []) := by
  obtain ⟨a, h1, h2, h3⟩ := joined_mem h hl
  obtain ⟨i, hi, ei⟩ := List.mem_iff_getElem.1 h1
  obtain ⟨hn, D', s1, s2⟩ := construct_sets e
  have hvars := (derive_fresh e).2.2
  have nv : (h.joined l).1.vars.length = h.vars.length := by rw [(joined_same h l).1]
  have hD' : h'.sets[n]? = some D' := by
    rw [s1, hn]
    simp
  have hr : h'.vars[h.vars.length + i]? = some { o with array := a } := by
    rw [hvars, List.getElem?_append_right (by omega), Nat.add_sub_cancel_left,
      List.getElem?_eq_getElem hi, ei]
  have mem : (o.name, h.vars.length + i) ∈ ((h.joined l).1.allocate (h.joined l).2).2 := by
    refine List.mem_mapIdx.2 ⟨i, hi, ?_⟩
    rw [ei, nv]
  have nd : ((((h.joined l).1.allocate (h.joined l).2).2).map (·.1)).Nodup := by
    rw [allocate_names, joined_names]
    exact hk
  have look : D'.vars.lookup o.name = some (h.vars.length + i) := by
    rw [s2]
    refine foldl_put_lookup _ _ (fun y hy => ?_) (.inr ⟨rfl, mem⟩)
    have := lookup_of_mem nd hy
    rw [lookup_of_mem nd mem] at this
    injection this with this
    exact this.symm
  refine ⟨D', h.vars.length + i, a, hD', look, hr, h2, h3, fun hd => ?_⟩
  -- the constructor has checked the axes
  simp only [Heap.derive, Heap.build, Heap.construct] at e
  split at e
  · cases e
  · rename_i dims del hu
    cases e
    obtain ⟨-, -, agree, -, -⟩ := updateDims_spec _ _ _ _ _ hu
    obtain ⟨b, hb⟩ : ∃ b, (h.joined l).1.bufs[a.buf]? = some b := by
      have := (v'.objs _ _ hr).1
      exact ⟨_, List.getElem?_eq_getElem this⟩
    have hm : Sh.valWith o (through a.view b) ∈
        (((h.joined l).1.allocate (h.joined l).2).2.foldl put []).filterMap
          (fun p => ((h.joined l).1.allocate (h.joined l).2).1.var p.2) := by
      refine List.mem_filterMap.2 ⟨(o.name, h.vars.length + i), lookup_mem _ _ _ (s2 ▸ look), ?_⟩
      have hr' : ((h.joined l).1.allocate (h.joined l).2).1.vars[h.vars.length + i]? =
          some { o with array := a } := hr
      simp only [Heap.var, hr', Option.bind_some, Heap.valueOf, Heap.read]
      rw [show ((h.joined l).1.allocate (h.joined l).2).1.bufs[a.buf]? = some b from hb]
      rfl
    obtain ⟨x, hx⟩ := List.exists_mem_of_ne_nil _ hd
    obtain ⟨k, hk', ek⟩ := List.mem_iff_getElem.1 hx
    obtain ⟨s, hs, _⟩ := agree _ hm k x (by rw [← ek]; exact List.getElem?_eq_getElem hk')
    intro hnil
    simp only [Sh.valWith, through, hnil] at hs
    cases hs

/-- An element that is written through the values of a slice, when the variable has no fill
value, is written at the place in the source that the slice designates, and nowhere else. -/
theorem C76_write {h h1 h2 h3 : Heap V} (m : Made h) {d n k : Nat} {slices : List (String × Ix)}
    {name : String} {idx : List Nat} {u : V} {x : Ds.Var V}
    (hx : look h d name = some x) (hf : x.fill = none) (hd : x.delayed = false)
    (hr : x.dims ≠ [])
    (e1 : step h (.isel d slices) = (h1, .ok (.ds n)))
    (e2 : step h1 (.values n name) = (h2, .ok (.hand k)))
    (e3 : step h2 (.write k idx u) = (h3, .ok .unit)) :
    ∃ w p, getitem 0 (x.dims.map (Ds.sliceOf slices)) ⟨x.array.shape, some⟩ = .ok w ∧
      w.get idx = some p ∧
      look h3 d name = some { x with array :=
        ⟨x.array.shape, fun q => if q = p then some u else x.array.get q⟩ } := by
  have v := made_valid m
  have m1 := made_step m e1
  have v1 := made_valid m1
  have m2 := made_step m1 e2
  have m3 := made_step m2 e3
  have v3 := made_valid m3
  obtain ⟨D, c, hD, hc, e1⟩ := on_ok e1
  obtain ⟨n', en, e1⟩ := asDs_ok e1
  cases en
  -- the variable of the source
  rw [look_eq v hD] at hx
  cases hl : D.vars.lookup name with
  | none => rw [hl] at hx; cases hx
  | some r =>
    rw [hl] at hx
    simp only [Option.bind_some, Heap.var, Option.bind_eq_some_iff] at hx
    obtain ⟨o, ho, hx⟩ := hx
    simp only [Heap.valueOf, Heap.read, Option.map_map, Option.map_eq_some_iff] at hx
    obtain ⟨b, hb, hx⟩ := hx
    simp only [Function.comp] at hx
    subst hx
    simp only at hf hd hr ⊢
    obtain ⟨o', ho', hon⟩ := (v.sets d D hD).2 _ (lookup_mem _ _ _ hl)
    simp only at ho' hon
    rw [ho] at ho'
    cases ho'
    -- the variable of the slice
    simp only [Heap.isel] at e1
    split at e1
    · cases e1
    · split at e1
      · cases e1
      · rename_i l hls
        have hmem : o ∈ h.objects D :=
          List.mem_filterMap.2 ⟨(name, r), lookup_mem _ _ _ hl, ho⟩
        obtain ⟨⟨o1, j⟩, hj, hoj⟩ := mapPy_image hls o hmem
        have names : (l.map (·.1.name)).Nodup := by
          have hobj : ∀ (ls : List (VarObj V)) (l : List (VarObj V × Joined V)),
              Ds.mapPy (fun (o : VarObj V) => h.iselVar o (o.dims.map (Ds.sliceOf slices))) ls
                = .ok l → l.map (·.1.name) = ls.map (·.name) := by
            intro ls
            induction ls with
            | nil => intro l e; cases e; rfl
            | cons a t ih =>
              intro l e
              simp only [Ds.mapPy] at e
              cases ha : h.iselVar a (a.dims.map (Ds.sliceOf slices)) with
              | error z => rw [ha] at e; cases e
              | ok y =>
                rw [ha] at e
                cases ht : Ds.mapPy (fun (o : VarObj V) =>
                    h.iselVar o (o.dims.map (Ds.sliceOf slices))) t with
                | error z => rw [ht] at e; cases e
                | ok ys =>
                  rw [ht] at e
                  cases e
                  have : y.1 = a := by
                    simp only [Heap.iselVar] at ha
                    cases hg : getitem 0 (a.dims.map (Ds.sliceOf slices)) a.array.view with
                    | error z => rw [hg] at ha; cases ha
                    | ok w =>
                      rw [hg] at ha
                      have ha : (if w.shape = [] then _ else _ : Py (VarObj V × Joined V)) =
                        .ok y := ha
                      split at ha
                      · split at ha
                        · cases ha
                        · cases ha; rfl
                      · cases ha; rfl
                  simp only [List.map_cons, this, ih ys ht]
          rw [hobj _ _ hls, objects_names (v.sets d D hD).2]
          exact made_keys m D (List.mem_of_getElem? hD)
        obtain ⟨N, r', a, hN, hr', hvr', ja, jb, jc⟩ := derive_lookup v1 e1 names hj
        simp only [Heap.iselVar] at hoj
        cases hg : getitem 0 (o.dims.map (Ds.sliceOf slices)) o.array.view with
        | error z => rw [hg] at hoj; cases hoj
        | ok w' =>
          rw [hg] at hoj
          have hoj : (if w'.shape = [] then _ else _ : Py (VarObj V × Joined V)) =
            .ok (o1, j) := hoj
          have shared : o1 = o ∧ a = ⟨o.array.buf, w'⟩ := by
            split at hoj
            · rename_i hs
              rw [hb] at hoj
              cases hoj
              exact absurd ((jb _ rfl).trans hs) (jc hr)
            · cases hoj
              exact ⟨rfl, ja _ rfl⟩
          obtain ⟨rfl, rfl⟩ := shared
          obtain ⟨fr, fb, fv⟩ := derive_fresh e1
          -- the values
          obtain ⟨N', c', hN', _, e2⟩ := on_ok e2
          rw [hN] at hN'
          cases hN'
          rw [hon] at hr'
          split at e2
          · cases e2
          · rename_i r1 o2 hg2
            obtain ⟨g1, g2⟩ := getObj_spec hg2
            rw [hr'] at g1
            cases g1
            rw [hvr'] at g2
            cases g2
            simp only [Heap.values, hf, hd, Option.isNone_none, Bool.not_false, Bool.and_self,
              if_true] at e2
            injection e2 with e2 e2'
            injection e2' with e2'
            injection e2' with e2'
            subst e2 e2'
            -- the element
            simp only [step, List.getElem?_append_right (Nat.le_refl _), Nat.sub_self,
              List.getElem?_cons_zero] at e3
            simp only [Heap.write] at e3
            split at e3
            · split at e3
              · rename_i p' b' hp' hb'
                cases e3
                have hlt := (v.objs r o1 ho).1
                have hbb : h1.bufs[o1.array.buf]? = some b := by
                  obtain ⟨t, ht⟩ := fr.nbufs
                  rw [ht, List.getElem?_append_left hlt]
                  exact hb
                rw [hbb] at hb'
                cases hb'
                have nat := getitem_through 0 (o1.dims.map (Ds.sliceOf slices))
                  ⟨o1.array.view.shape, some⟩ o1.array.view
                rw [show through ⟨o1.array.view.shape, some⟩ o1.array.view = o1.array.view from rfl,
                  hg] at nat
                cases hw : getitem 0 (o1.dims.map (Ds.sliceOf slices))
                    (⟨o1.array.view.shape, some⟩ : Arr (List Nat)) with
                | error z => rw [hw] at nat; cases nat
                | ok w =>
                  rw [hw] at nat
                  injection nat with nat
                  subst nat
                  simp only [through, Option.bind_eq_some_iff] at hp'
                  obtain ⟨p, hp, hpp⟩ := hp'
                  refine ⟨w, p, hw, hp, ?_⟩
                  have hD3 : h1.sets[d]? = some D := by
                    rw [fr.old_set (List.getElem?_eq_some_iff.1 hD).1]
                    exact hD
                  rw [look_eq v3 (D := D) hD3, hl]
                  have ho3 : h1.vars[r]? = some o1 := by
                    rw [fv, List.getElem?_append_left (List.getElem?_eq_some_iff.1 ho).1]
                    exact ho
                  have hlt1 := (List.getElem?_eq_some_iff.1 hbb).1
                  simp only [Option.bind_some, Heap.var, ho3, Heap.valueOf, Heap.read,
                    List.getElem?_set, if_true, hlt1, Option.map_some]
                  refine congrArg some ?_
                  simp only [through, store, Ds.Var.mk.injEq, Arr.mk.injEq, true_and, and_true]
                  funext q
                  by_cases hq : q = p
                  · subst hq
                    simp only [hpp, Option.bind_some, if_true]
                  · simp only [hq, if_false]
                    cases hv : o1.array.view.get q with
                    | none => rfl
                    | some q' =>
                      simp only [Option.bind_some]
                      rw [if_neg]
                      rintro rfl
                      exact hq ((v.objs r o1 ho).2.inj _ _ _ hv hpp)
              · cases e3
            · cases e3

/-- The values of a variable that has a fill value or is delayed have no memory in common with any
dataset: what is written through them is seen nowhere else. -/
theorem C76_values_copy {h h1 : Heap V} (m : Made h) {d k : Nat} {name : String} {x : Ds.Var V}
    (hx : look h d name = some x) (hc : x.fill ≠ none ∨ x.delayed = true)
    (e1 : step h (.values d name) = (h1, .ok (.hand k))) :
    (∀ e, UnsharedHand h1 k e) ∧
      (∀ e idx u, (step h1 (.write k idx u)).1.see e = h.see e) ∧
      ∀ (j : Nat) a idx u, h.hands[j]? = some a →
        (step h1 (.write k idx u)).1.read a = h.read a := by
  have v := made_valid m
  obtain ⟨D, c, hD, _, e1⟩ := on_ok e1
  rw [look_eq v hD] at hx
  split at e1
  · cases e1
  · rename_i r o hg
    obtain ⟨g1, g2⟩ := getObj_spec hg
    rw [g1] at hx
    simp only [Option.bind_some, Heap.var, g2, Heap.valueOf, Heap.read, Option.map_map,
      Option.map_eq_some_iff] at hx
    obtain ⟨b, hb, hx⟩ := hx
    simp only [Function.comp] at hx
    subst hx
    have hn : ¬ (o.fill.isNone && !o.delayed) = true := by
      rcases hc with hc | hc
      · cases hf : o.fill with
        | none => exact absurd hf hc
        | some f => simp
      · have : o.delayed = true := hc
        simp [this]
    have hread : h.read o.array = some (through o.array.view b) := by
      simp only [Heap.read, hb, Option.map_some]
    simp only [Heap.values, hn, if_false, Bool.false_eq_true, hread] at e1
    injection e1 with e1 e2
    injection e2 with e2
    injection e2 with e2
    subst e1 e2
    have lt : ∀ (e b' : Nat), HasBuf h e b' → b' < h.bufs.length := by
      rintro e b' ⟨r', o', _, ho', rfl⟩
      exact (v.objs r' o' ho').1
    refine ⟨?_, ?_, ?_⟩
    · intro e a ha hbuf
      simp only [List.getElem?_append_right (Nat.le_refl _), Nat.sub_self,
        List.getElem?_cons_zero, Option.some.injEq] at ha
      subst ha
      exact Nat.lt_irrefl _ (lt e _ hbuf)
    · intro e idx u
      have key : ∀ h2 : Heap V, h2.sets = h.sets → h2.dicts = h.dicts →
          h2.vars = h.vars → (∀ i, i < h.bufs.length → h2.bufs[i]? = h.bufs[i]?) →
          h2.see e = h.see e := by
        intro h2 a1 a2 a3 a4
        exact see_congr (by rw [a1]) (fun _ _ => by rw [a2]) (fun _ _ => by rw [a3])
          fun b' hb' => a4 _ (lt e b' hb')
      simp only [step, List.getElem?_append_right (Nat.le_refl _), Nat.sub_self,
        List.getElem?_cons_zero, Heap.write]
      split
      · split
        · refine key _ rfl rfl rfl fun i hi => ?_
          simp only [whole, List.getElem?_set, Nat.ne_of_gt hi, if_false,
            List.getElem?_append_left hi]
        · exact key _ rfl rfl rfl fun i hi => List.getElem?_append_left hi
      · exact key _ rfl rfl rfl fun i hi => List.getElem?_append_left hi
    · intro j a idx u ha
      have hi := (v.hands j a ha).1
      simp only [step, List.getElem?_append_right (Nat.le_refl _), Nat.sub_self,
        List.getElem?_cons_zero, Heap.write]
      split
      · split
        · simp only [Heap.read, whole, List.getElem?_set, Nat.ne_of_gt hi, if_false,
            List.getElem?_append_left hi]
        · simp only [Heap.read, List.getElem?_append_left hi]
      · simp only [Heap.read, List.getElem?_append_left hi]

end Verif
