import Verif.Props.SharingValues

/-!
Programs on objects and programs on values.
-/

namespace Verif.Sh

open Nd Spec

variable {V : Type}

/-! ### What the calls keep -/

/-- A constructor: one more dataset, at the end, or none. -/
def Appends (h : Heap V) (x : Heap V × Py Nat) : Prop :=
  x.1.hands = h.hands ∧
    match x.2 with
    | .ok n => n = h.sets.length ∧ x.1.sets.length = h.sets.length + 1
    | .error _ => x.1.sets.length = h.sets.length

/-- The same, for a call. -/
def AppendsR (h : Heap V) (x : Heap V × Py Res) : Prop :=
  x.1.hands = h.hands ∧
    match x.2 with
    | .ok (.ds n) => n = h.sets.length ∧ x.1.sets.length = h.sets.length + 1
    | .ok _ => False
    | .error _ => x.1.sets.length = h.sets.length

theorem Appends.asDs {h : Heap V} {x : Heap V × Py Nat} (a : Appends h x) :
    AppendsR h (asDs x) := by
  obtain ⟨h1, r⟩ := x
  cases r with
  | ok n => exact a
  | error e => exact a

theorem Appends.error (h : Heap V) (e : PyErr) : Appends h (h, .error e) := ⟨rfl, rfl⟩

theorem AppendsR.error (h : Heap V) (e : PyErr) : AppendsR h (h, .error e) := ⟨rfl, rfl⟩

theorem construct_appends (h : Heap V) (vars : List (String × Nat))
    (attrs : List (String × String)) (chunks : List (String × Nat)) (limit : Nat)
    (delayed : Option Bool) : Appends h (h.construct vars attrs chunks limit delayed) := by
  simp only [Heap.construct]
  split
  · exact .error h _
  · exact ⟨rfl, rfl, by simp⟩

theorem Appends.of_eq {h h1 : Heap V} {x : Heap V × Py Nat} (hs : h1.sets = h.sets)
    (hh : h1.hands = h.hands) (a : Appends h1 x) : Appends h x := by
  obtain ⟨a1, a2⟩ := a
  refine ⟨a1.trans hh, ?_⟩
  rw [← hs]
  exact a2

theorem build_appends (h : Heap V) (l : List (VarObj V)) (attrs : List (String × String))
    (chunks : List (String × Nat)) (limit : Nat) (delayed : Option Bool) :
    Appends h (h.build l attrs chunks limit delayed) :=
  Appends.of_eq (h1 := (h.allocate l).1) rfl rfl (construct_appends ..)

theorem derive_appends (h : Heap V) (l : List (VarObj V × Joined V))
    (attrs : List (String × String)) (chunks : List (String × Nat)) (limit : Nat)
    (delayed : Option Bool) : Appends h (h.derive l attrs chunks limit delayed) := by
  obtain ⟨_, _, h3, h4, _⟩ := joined_same h l
  exact Appends.of_eq h3 h4 (build_appends ..)

theorem on_appends {h : Heap V} {n : Nat} {f : DsObj → List (String × Nat) → Heap V × Py Res}
    (hf : ∀ d c, AppendsR h (f d c)) : AppendsR h (h.on n f) := by
  simp only [Heap.on]
  split
  · exact .error h _
  · exact hf _ _

theorem dataset_appends (h : Heap V) (l : List (Given V)) (attrs : List (String × String))
    (chunks : List (String × Nat)) (limit : Nat) (delayed : Option Bool) :
    AppendsR h (step h (.dataset l attrs chunks limit delayed)) := by
  simp only [step]
  split
  · exact .error h _
  · rename_i h1 l1 e
    obtain ⟨_, _, h3, h4, _⟩ := givens_same e
    exact (Appends.of_eq h3 h4 (build_appends ..)).asDs

theorem selectVars_appends (h : Heap V) (n : Nat) (names : List String) :
    AppendsR h (step h (.selectVars n names)) := by
  refine on_appends fun d c => Appends.asDs ?_
  simp only [Heap.selectVars]
  split
  · exact .error h _
  · exact construct_appends ..

theorem byDims_appends (h : Heap V) (n : Nat) (dims : List String) (predicate : Bool) :
    AppendsR h (step h (.byDims n dims predicate)) :=
  on_appends fun _ _ => (construct_appends ..).asDs

theorem isel_appends (h : Heap V) (n : Nat) (slices : List (String × Ix)) :
    AppendsR h (step h (.isel n slices)) := by
  refine on_appends fun d c => Appends.asDs ?_
  simp only [Heap.isel]
  split
  · exact .error h _
  · split
    · exact .error h _
    · exact derive_appends ..

theorem delete_appends (h : Heap V) (n : Nat) (ixs : Indexer) (axis : String) :
    AppendsR h (step h (.delete n ixs axis)) := by
  refine on_appends fun d c => Appends.asDs ?_
  simp only [Heap.deleteDs]
  split
  · exact .error h _
  · exact derive_appends ..

theorem concat_appends (h : Heap V) (n : Nat) (others : List Nat) (dim : String) :
    AppendsR h (step h (.concat n others dim)) := by
  refine on_appends fun d c => ?_
  split
  · exact .error h _
  · refine Appends.asDs ?_
    simp only [Heap.concat]
    split
    · exact .error h _
    · split
      · exact .error h _
      · split
        · exact .error h _
        · exact derive_appends ..

theorem setForInsertion_appends (h : Heap V) (n : Nat) (chunks : List (String × Nat))
    (limit : Nat) : AppendsR h (step h (.setForInsertion n chunks limit)) :=
  on_appends fun _ _ => (build_appends ..).asDs

theorem pickle_appends (h : Heap V) (n : Nat) : AppendsR h (step h (.pickle n)) := by
  refine on_appends fun d c => Appends.asDs ?_
  obtain ⟨_, _, h3, h4, _⟩ := joined_same h (h.copied (h.objects d))
  refine ⟨h4, ?_, ?_⟩
  · exact congrArg List.length h3
  · simp only [Heap.pickle, Heap.allocate, List.length_append, List.length_cons, List.length_nil,
      h3]

/-- A change in place. -/
def Keeps (h : Heap V) (x : Heap V × Py Res) : Prop :=
  x.1.sets.length = h.sets.length ∧ x.1.hands = h.hands

theorem Keeps.error (h : Heap V) (r : Py Res) : Keeps h (h, r) := ⟨rfl, rfl⟩

theorem on_keeps {h : Heap V} {n : Nat} {f : DsObj → List (String × Nat) → Heap V × Py Res}
    (hf : ∀ d c, Keeps h (f d c)) : Keeps h (h.on n f) := by
  simp only [Heap.on]
  split
  · exact .error h _
  · exact hf _ _

theorem changed_keeps {h h1 : Heap V} (hs : h1.sets = h.sets) (hh : h1.hands = h.hands) (n : Nat)
    (D : DsObj) (r : Py Unit) : Keeps h (h1.changed n D r) := by
  constructor
  · rw [changed_fst]
    simp only [Heap.setDs, List.length_set, hs]
  · rw [changed_fst]
    exact hh

theorem rename_keeps (h : Heap V) (D : DsObj) (names : List (String × String)) :
    (h.rename D names).1.sets = h.sets ∧ (h.rename D names).1.hands = h.hands := by
  induction names generalizing h D with
  | nil => exact ⟨rfl, rfl⟩
  | cons x t ih =>
    obtain ⟨old, new⟩ := x
    simp only [Heap.rename]
    split
    · exact ⟨rfl, rfl⟩
    · split
      · exact ⟨rfl, rfl⟩
      · exact ih _ _

theorem dataFor_keeps {h : Heap V} {D : DsObj} {m : Ds.VarMeta V} {noneValue : Py V}
    {hand : Option Ref} {q : Heap V × Ref} (e : h.dataFor D m noneValue hand = .ok q) :
    q.1.sets = h.sets ∧ q.1.hands = h.hands := by
  simp only [Heap.dataFor] at e
  split at e
  · split at e
    · cases e
    · cases e
      exact ⟨rfl, rfl⟩
  · split at e
    · cases e
    · split at e
      · cases e
      · rename_i p hp
        cases e
        exact ⟨adopt_sets hp, adopt_hands hp⟩

theorem addVariable_keeps (h : Heap V) (D : DsObj) (m : Ds.VarMeta V) (noneValue : Py V)
    (hand : Option Ref) :
    (h.addVariable D m noneValue hand).1.sets = h.sets ∧
      (h.addVariable D m noneValue hand).1.hands = h.hands := by
  simp only [Heap.addVariable]
  split
  · exact ⟨rfl, rfl⟩
  · split
    · exact ⟨rfl, rfl⟩
    · rename_i h1 r e
      exact dataFor_keeps e

/-! ### The value that is shown -/

theorem hand_read {h h1 : Heap V} (v : Valid h) (hb : ∃ l, h1.bufs = h.bufs ++ l) {k : Nat} :
    (h.hands[k]?).bind h1.read = (h.hands[k]?).bind h.read := by
  cases e : h.hands[k]? with
  | none => rfl
  | some r =>
    obtain ⟨l, hb⟩ := hb
    simp only [Option.bind_some, Heap.read, hb,
      List.getElem?_append_left (v.hands k r e).1]

theorem see_ge {h : Heap V} {n : Nat} (hn : h.sets.length ≤ n) : h.see n = none := by
  simp only [Heap.see, List.getElem?_eq_none hn, Option.bind_none]

theorem see_lt {h : Heap V} {n : Nat} {s : Ds.Dataset V} (e : h.see n = some s) :
    n < h.sets.length := by
  obtain ⟨D, c, _, hD, _⟩ := see_obj e
  exact (List.getElem?_eq_some_iff.1 hD).1

theorem getDs_see {h : Heap V} {n : Nat} (e : h.see n = none) : h.getDs n = none := by
  cases hg : h.getDs n with
  | none => rfl
  | some p =>
    obtain ⟨h1, h2⟩ := getDs_spec hg
    simp only [Heap.see, h1, Option.bind_some, h2, Option.map_some] at e
    cases e

theorem on_none {h : Heap V} {n : Nat} (e : h.see n = none)
    (f : DsObj → List (String × Nat) → Heap V × Py Res) : h.on n f = (h, .error .nameError) := by
  simp only [Heap.on, getDs_see e]

theorem new_depicts {h : Heap V} {w : World V} (m : Made h) (dep : Depicts h w) {c : Call V}
    (ht : ¬ Touches c) (htg : target c = none) (app : AppendsR h (step h c))
    {y : Py (Ds.Dataset V)} (b : Builds (step h c) y) :
    Depicts (step h c).1 (w.new y).1 ∧ (step h c).2 = (w.new y).2 := by
  have v := made_valid m
  have hands : ∀ k : Nat, ((step h c).1.hands[k]?).bind (step h c).1.read = w.arrays[k]? := by
    intro k
    rw [app.1, hand_read v (step_ext v ht).bufs, dep.hand]
  have old : ∀ n, n < h.sets.length → (step h c).1.see n = w.sets[n]? := by
    intro n hn
    rw [C77_others m ht hn (by rw [htg]; nofun), dep.set]
  obtain ⟨a1, a2⟩ := app
  generalize hx : step h c = x at *
  obtain ⟨h1, r⟩ := x
  cases r with
  | error e =>
    simp only [Builds] at b
    subst b
    simp only at a1 a2 hands old
    refine ⟨⟨a2.trans dep.sets, by rw [a1]; exact dep.hands, fun n => ?_, hands⟩, rfl⟩
    by_cases hn : n < h.sets.length
    · exact old n hn
    · rw [see_ge (by simp only [a2]; omega)]
      simp only [World.new]
      rw [List.getElem?_eq_none (by rw [← dep.sets]; omega)]
  | ok res =>
    cases res with
    | unit => exact b.elim
    | hand k => exact b.elim
    | ds n =>
      obtain ⟨s, b1, b2⟩ := b
      subst b2
      simp only at a1 a2 b1 hands old
      obtain ⟨rfl, a2⟩ := a2
      refine ⟨⟨?_, by rw [a1]; exact dep.hands, fun n => ?_, hands⟩, ?_⟩
      · simp only [World.new, List.length_append, List.length_cons, List.length_nil, a2, dep.sets]
      · simp only [World.new]
        by_cases hn : n < h.sets.length
        · rw [old n hn, List.getElem?_append_left (by rw [← dep.sets]; exact hn)]
        · by_cases he : n = h.sets.length
          · subst he
            rw [b1, dep.sets, List.getElem?_append_right (Nat.le_refl _), Nat.sub_self,
              List.getElem?_cons_zero]
          · rw [see_ge (by simp only [a2]; omega), List.getElem?_eq_none]
            simp only [List.length_append, List.length_cons, List.length_nil, ← dep.sets]
            omega
      · simp only [World.new, dep.sets]

theorem change_depicts {h : Heap V} {w : World V} (m : Made h) (dep : Depicts h w)
    {x : Heap V × Py Res} (kp : Keeps h x) {n : Nat} (hn : n < h.sets.length)
    {y : Ds.Dataset V × Py Unit} (b : Becomes x n y)
    (oth : ∀ e, e < h.sets.length → e ≠ n → x.1.see e = h.see e)
    (hb : ∃ l, x.1.bufs = h.bufs ++ l) :
    Depicts x.1 (w.change n y).1 ∧ x.2 = (w.change n y).2 := by
  have v := made_valid m
  obtain ⟨s, r⟩ := y
  obtain ⟨b1, b2⟩ := b
  simp only at b1 b2
  have fst : (w.change n (s, r)).1 = { w with sets := w.sets.set n s } := by
    cases r <;> rfl
  refine ⟨⟨?_, ?_, fun e => ?_, fun k => ?_⟩, ?_⟩
  · rw [fst]
    simp only [List.length_set, kp.1, dep.sets]
  · rw [fst, kp.2]
    exact dep.hands
  · rw [fst]
    simp only
    by_cases he : e = n
    · subst he
      rw [b1, List.getElem?_set_self (by rw [← dep.sets]; exact hn)]
    · rw [List.getElem?_set_ne (fun h => he h.symm), ← dep.set]
      by_cases hlt : e < h.sets.length
      · exact oth e hlt he
      · rw [see_ge (by rw [kp.1]; omega), see_ge (by omega)]
  · rw [fst, kp.2, hand_read v hb, dep.hand]
  · cases r with
    | ok u => exact b2
    | error e => exact b2

/-! ### The other datasets, when a variable or a dictionary is changed -/

theorem setObj_others {h h1 : Heap V} (v : Valid h) (x : Ext h h1) (hv : h1.vars = h.vars)
    (hs : h1.sets = h.sets) (hd : h1.dicts = h.dicts) {r : Nat} {o : VarObj V} {e : Nat}
    (he : ¬ HasVar h e r) : (h1.setObj r o).see e = h.see e := by
  refine see_congr (by rw [← hs]; rfl) (fun c _ => by rw [← hd]; rfl) (fun i hi => ?_)
    (fun b hb => x.buf (v.buf_lt hb))
  have ne : r ≠ i := fun e => he (e ▸ hi)
  simp only [Heap.setObj, List.getElem?_set_ne ne, hv]

theorem store_through {w : Arr (List Nat)} (hw : Inj w) {idx p : List Nat}
    (hp : w.get idx = some p) (b : Arr V) (v : V) :
    through w (store b p v) = store (through w b) idx v := by
  simp only [through, store, Arr.mk.injEq, true_and]
  funext q
  by_cases hq : q = idx
  · subst hq
    rw [if_pos rfl, hp, Option.bind_some, if_pos rfl]
  · rw [if_neg hq]
    cases hg : w.get q with
    | none => rfl
    | some x =>
      have : x ≠ p := fun e => hq (hw.inj _ _ _ hg (e ▸ hp))
      rw [Option.bind_some, Option.bind_some, if_neg this]

theorem world_none {w : World V} {n : Nat} (e : w.sets[n]? = none)
    (f : Ds.Dataset V → World V × Py Res) : w.on n f = (w, .error .nameError) := by
  simp only [World.on, e]

theorem world_some {w : World V} {n : Nat} {s : Ds.Dataset V} (e : w.sets[n]? = some s)
    (f : Ds.Dataset V → World V × Py Res) : w.on n f = f s := by
  simp only [World.on, e]

theorem mapM_see {h : Heap V} {w : World V} (dep : Depicts h w) (l : List Nat) :
    match l.mapM fun k => w.sets[k]? with
    | none => l.mapM h.getDs = none
    | some L => L = seeAll h l ∧ ∀ n ∈ l, n < h.sets.length := by
  induction l with
  | nil => exact ⟨rfl, nofun⟩
  | cons n t ih =>
    cases hn : w.sets[n]? with
    | none =>
      have : h.see n = none := (dep.set n).trans hn
      simp only [List.mapM_cons, hn, Option.bind_eq_bind, Option.bind_none, getDs_see this]
    | some s =>
      have hs : h.see n = some s := (dep.set n).trans hn
      obtain ⟨D, c, hg, _⟩ := see_obj hs
      cases ht : t.mapM fun k => w.sets[k]? with
      | none =>
        rw [ht] at ih
        simp only at ih
        simp only [List.mapM_cons, hn, ht, Option.bind_eq_bind, Option.bind_some,
          Option.bind_none, hg, ih]
      | some L =>
        rw [ht] at ih
        simp only at ih
        simp only [List.mapM_cons, hn, ht, Option.bind_eq_bind, Option.bind_some, Option.pure_def]
        refine ⟨?_, ?_⟩
        · rw [ih.1]
          simp only [seeAll, List.filterMap_cons, hs]
        · intro k hk
          rcases List.mem_cons.1 hk with rfl | hk
          · exact see_lt hs
          · exact ih.2 k hk

theorem given_eq {h : Heap V} {w : World V} (dep : Depicts h w) (g : Given V) :
    givenVal h g = w.given g := by
  simp only [givenVal, World.given, dep.hand]

theorem mapM_given {h : Heap V} {w : World V} (dep : Depicts h w)
    (l : List (Given V)) :
    match l.mapM w.given with
    | none => h.givens l = none
    | some L => L = l.filterMap (givenVal h) ∧ ∀ g ∈ l, g.hand < h.hands.length := by
  have lt : ∀ g : Given V, ∀ x, w.given g = some x → g.hand < h.hands.length := by
    intro g x hx
    simp only [World.given, Option.map_eq_some_iff] at hx
    obtain ⟨a, ha, _⟩ := hx
    rw [dep.hands]
    exact (List.getElem?_eq_some_iff.1 ha).1
  cases hm : l.mapM w.given with
  | none =>
    simp only
    cases hg : h.givens l with
    | none => rfl
    | some q =>
      exfalso
      -- each array exists, hence each value
      have all : ∀ (l : List (Given V)) (h1 : Heap V) (q : Heap V × List (VarObj V)),
          h1.hands = h.hands → h1.givens l = some q → ∀ g ∈ l, g.hand < h.hands.length := by
        intro l
        induction l with
        | nil => intro _ _ _ _ g hg; cases hg
        | cons g t ih =>
          intro h1 q hh e g' hg'
          simp only [Heap.givens, Option.bind_eq_some_iff, Option.map_eq_some_iff] at e
          obtain ⟨r, hr, p, hp, q', hq, _⟩ := e
          rcases List.mem_cons.1 hg' with rfl | hg'
          · rw [hh] at hr
            exact (List.getElem?_eq_some_iff.1 hr).1
          · exact ih p.1 q' ((adopt_hands hp).trans hh) hq g' hg'
      have some : ∀ l : List (Given V), (∀ g ∈ l, g.hand < h.hands.length) →
          l.mapM w.given ≠ none := by
        intro l
        induction l with
        | nil => intro _ e; cases e
        | cons g t ih =>
          intro hl e
          have hlt := hl g List.mem_cons_self
          rw [dep.hands] at hlt
          simp only [List.mapM_cons, World.given, List.getElem?_eq_getElem hlt, Option.map_some,
            Option.bind_eq_bind, Option.bind_some, Option.pure_def] at e
          cases ht : t.mapM w.given with
          | none => exact ih (fun x hx => hl x (List.mem_cons_of_mem _ hx)) ht
          | some L =>
            rw [ht] at e
            cases e
      exact some l (all l h q rfl hg) hm
  | some L =>
    simp only
    have key : ∀ (l : List (Given V)) (L : List (Ds.Var V)), l.mapM w.given = some L →
        L = l.filterMap (givenVal h) ∧ ∀ g ∈ l, g.hand < h.hands.length := by
      intro l
      induction l with
      | nil => intro L e; cases e; exact ⟨rfl, nofun⟩
      | cons g t ih =>
        intro L e
        cases hg : w.given g with
        | none => simp only [List.mapM_cons, hg, Option.bind_eq_bind, Option.bind_none] at e; cases e
        | some x =>
          cases ht : t.mapM w.given with
          | none =>
            simp only [List.mapM_cons, hg, ht, Option.bind_eq_bind, Option.bind_some,
              Option.bind_none] at e
            cases e
          | some L' =>
            simp only [List.mapM_cons, hg, ht, Option.bind_eq_bind, Option.bind_some,
              Option.pure_def, Option.some.injEq] at e
            obtain ⟨i1, i2⟩ := ih L' ht
            refine ⟨?_, ?_⟩
            · rw [← e, i1]
              simp only [List.filterMap_cons, given_eq dep g, hg]
            · intro k hk
              rcases List.mem_cons.1 hk with rfl | hk
              · exact lt k x hg
              · exact i2 k hk
    exact key l L hm

end Verif.Sh
