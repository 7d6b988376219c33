import Verif.Lemmas.SharingKeys
import Verif.Spec.SharingValues

/-!
The objects that a call makes show the values of Model/Dataset.
-/

namespace Verif.Sh

open Nd Spec

variable {V : Type}

/-! ### More objects -/

/-- More buffers, variables and dictionaries. -/
structure Ext (h h' : Heap V) : Prop where
  bufs : ∃ l, h'.bufs = h.bufs ++ l
  objs : ∃ l, h'.vars = h.vars ++ l
  dicts : ∃ l, h'.dicts = h.dicts ++ l

theorem Ext.refl (h : Heap V) : Ext h h :=
  ⟨⟨[], by simp⟩, ⟨[], by simp⟩, ⟨[], by simp⟩⟩

theorem Ext.trans {a b c : Heap V} (x : Ext a b) (y : Ext b c) : Ext a c := by
  obtain ⟨⟨l1, e1⟩, ⟨l2, e2⟩, l3, e3⟩ := x
  obtain ⟨⟨k1, f1⟩, ⟨k2, f2⟩, k3, f3⟩ := y
  exact ⟨⟨l1 ++ k1, by rw [f1, e1, List.append_assoc]⟩, ⟨l2 ++ k2, by rw [f2, e2, List.append_assoc]⟩,
    ⟨l3 ++ k3, by rw [f3, e3, List.append_assoc]⟩⟩

theorem Ext.of_eq {h h' : Heap V} (h1 : h'.bufs = h.bufs) (h2 : h'.vars = h.vars)
    (h3 : h'.dicts = h.dicts) : Ext h h' :=
  ⟨⟨[], by simp [h1]⟩, ⟨[], by simp [h2]⟩, ⟨[], by simp [h3]⟩⟩

theorem Ext.buf {h h' : Heap V} (x : Ext h h') {b : Nat} (hb : b < h.bufs.length) :
    h'.bufs[b]? = h.bufs[b]? := by
  obtain ⟨l, e⟩ := x.bufs
  rw [e, List.getElem?_append_left hb]

theorem Ext.read {h h' : Heap V} (x : Ext h h') {r : Ref} (hr : r.buf < h.bufs.length) :
    h'.read r = h.read r := by
  simp only [Heap.read, x.buf hr]

theorem Ext.value {h h' : Heap V} (x : Ext h h') {o : VarObj V}
    (hr : o.array.buf < h.bufs.length) : h'.valueOf o = h.valueOf o := by
  simp only [Heap.valueOf, x.read hr]

theorem Ext.named {h h' : Heap V} (x : Ext h h') {p : String × Nat} (hp : Named h p) :
    Named h' p := by
  obtain ⟨l, e⟩ := x.objs
  obtain ⟨o, h1, h2⟩ := hp
  exact ⟨o, by rw [e, List.getElem?_append_left (List.getElem?_eq_some_iff.1 h1).1]; exact h1, h2⟩

theorem Ext.var {h h' : Heap V} (x : Ext h h') (v : Valid h) {r : Nat}
    (hr : r < h.vars.length) : h'.var r = h.var r := by
  obtain ⟨l, e⟩ := x.objs
  simp only [Heap.var, e, List.getElem?_append_left hr]
  rw [List.getElem?_eq_getElem hr]
  exact x.value (v.objs r _ (List.getElem?_eq_getElem hr)).1

theorem Named.lt {h : Heap V} {p : String × Nat} (hp : Named h p) : p.2 < h.vars.length := by
  obtain ⟨o, h1, _⟩ := hp
  exact (List.getElem?_eq_some_iff.1 h1).1

theorem filterMap_congr' {α β : Type} {f g : α → Option β} {l : List α}
    (h : ∀ x ∈ l, f x = g x) : l.filterMap f = l.filterMap g := by
  induction l with
  | nil => rfl
  | cons a t ih =>
    simp only [List.filterMap_cons, h a List.mem_cons_self,
      ih fun x hx => h x (List.mem_cons_of_mem _ hx)]

theorem Ext.vals {h h' : Heap V} (x : Ext h h') (v : Valid h) {l : List (String × Nat)}
    (hl : ∀ p ∈ l, Named h p) : h'.vals l = h.vals l :=
  filterMap_congr' fun p hp => x.var v (hl p hp).lt

/-! ### Constructors -/

theorem vals_put {h : Heap V} {l : List (String × Nat)} {p : String × Nat} {v : Ds.Var V}
    (hl : ∀ q ∈ l, Seen h q) (hv : h.var p.2 = some v) (hn : v.name = p.1) :
    h.vals (put l p) = Ds.setVar (h.vals l) v := by
  induction l with
  | nil =>
    simp only [put, Heap.vals, List.filterMap_cons, hv, List.filterMap_nil, Ds.setVar]
  | cons q t ih =>
    obtain ⟨w, h1, h2⟩ := hl q List.mem_cons_self
    rw [vals_cons h1]
    simp only [put, Ds.setVar]
    by_cases e : q.1 = p.1
    · rw [if_pos e, if_pos (h2.trans (e.trans hn.symm)), vals_cons hv]
    · rw [if_neg e, if_neg (fun e' => e (h2.symm.trans (e'.trans hn))), vals_cons h1,
        ih fun x hx => hl x (List.mem_cons_of_mem _ hx)]

theorem put_seen {h : Heap V} {l : List (String × Nat)} {p : String × Nat}
    (hl : ∀ q ∈ l, Seen h q) (hp : Seen h p) : ∀ q ∈ put l p, Seen h q := by
  intro q hq
  rcases put_mem l p q hq with hq | hq
  · exact hl q hq
  · exact hq ▸ hp

theorem vals_foldl {h : Heap V} (l : List (String × Nat)) (hl : ∀ q ∈ l, Seen h q) :
    ∀ acc : List (String × Nat), (∀ q ∈ acc, Seen h q) →
      h.vals (l.foldl put acc) = (h.vals l).foldl Ds.setVar (h.vals acc) := by
  induction l with
  | nil => intro acc _; rfl
  | cons p t ih =>
    intro acc hacc
    obtain ⟨v, h1, h2⟩ := hl p List.mem_cons_self
    rw [List.foldl_cons, ih (fun x hx => hl x (List.mem_cons_of_mem _ hx)) _
      (put_seen hacc ⟨v, h1, h2⟩), vals_put hacc h1 h2, vals_cons h1, List.foldl_cons]

/-- A constructor makes the dataset `y`. -/
def Makes (x : Heap V × Py Nat) (y : Py (Ds.Dataset V)) : Prop :=
  match x.2 with
  | .ok n => ∃ s, x.1.see n = some s ∧ y = .ok s
  | .error e => y = .error e

theorem Makes.asDs {x : Heap V × Py Nat} {y : Py (Ds.Dataset V)} (m : Makes x y) :
    Builds (asDs x) y := by
  obtain ⟨h, r⟩ := x
  cases r with
  | ok n => exact m
  | error e => exact m

theorem construct_makes {h : Heap V} {vars : List (String × Nat)} (hv : ∀ p ∈ vars, Seen h p)
    (attrs : List (String × String)) (chunks : List (String × Nat)) (limit : Nat)
    (delayed : Option Bool) : Makes (h.construct vars attrs chunks limit delayed)
      (Ds.mk (h.vals vars) attrs chunks limit delayed) := by
  have e : h.vals (vars.foldl put []) = (h.vals vars).foldl Ds.setVar [] :=
    vals_foldl vars hv [] nofun
  simp only [Heap.construct, Ds.mk]
  rw [show ((vars.foldl put []).filterMap fun p => h.var p.2) =
    (h.vals vars).foldl Ds.setVar [] from e]
  cases hu : Ds.updateDims [] delayed ((h.vals vars).foldl Ds.setVar []) with
  | error x => exact rfl
  | ok q =>
    obtain ⟨dims, del⟩ := q
    simp only [Makes, Heap.see, List.getElem?_append_right (Nat.le_refl _), Nat.sub_self,
      List.getElem?_cons_zero, Option.bind_some, Option.map_some]
    refine ⟨_, rfl, ?_⟩
    rw [← e]
    rfl

theorem vals_mapIdx {h : Heap V} (l : List (VarObj V)) : ∀ base : Nat,
    (∀ i, h.vars[base + i]? = l[i]?) →
    h.vals (l.mapIdx fun i o => (o.name, base + i)) = l.filterMap h.valueOf := by
  induction l with
  | nil => intro _ _; rfl
  | cons o t ih =>
    intro base hb
    have h0 : h.vars[base]? = some o := hb 0
    have ht := ih (base + 1) fun i => by
      have := hb (i + 1)
      rw [show base + (i + 1) = base + 1 + i by omega] at this
      exact this
    simp only [List.mapIdx_cons, Heap.vals, List.filterMap_cons, Heap.var, Nat.add_zero, h0,
      Option.bind_some]
    have e : (fun (i : Nat) (o : VarObj V) => (o.name, base + (i + 1))) =
        fun i o => (o.name, base + 1 + i) := by
      funext i o
      rw [show base + (i + 1) = base + 1 + i by omega]
    rw [e]
    simp only [Heap.vals, Heap.var] at ht
    rw [ht]

theorem allocate_vals (h : Heap V) (l : List (VarObj V)) :
    (h.allocate l).1.vals (h.allocate l).2 = l.filterMap h.valueOf := by
  refine (vals_mapIdx (h := (h.allocate l).1) l h.vars.length fun i => ?_).trans rfl
  simp only [Heap.allocate, List.getElem?_append_right (Nat.le_add_right _ _),
    Nat.add_sub_cancel_left]

theorem build_makes {h : Heap V} (v : Valid h) {l : List (VarObj V)}
    (ok : ∀ o ∈ l, RefOk h o.array) (attrs : List (String × String))
    (chunks : List (String × Nat)) (limit : Nat) (delayed : Option Bool) :
    Makes (h.build l attrs chunks limit delayed)
      (Ds.mk (l.filterMap h.valueOf) attrs chunks limit delayed) := by
  rw [← allocate_vals h l]
  refine construct_makes (fun p hp => ?_) _ _ _ _
  exact seen_of (v.addVars l ok) (allocate_named h l p hp)

/-- A variable with the elements `a`. -/
def valWith (o : VarObj V) (a : Arr V) : Ds.Var V where
  name := o.name
  delayed := o.delayed
  dims := o.dims
  array := a
  fill := o.fill
  props := o.attrs

/-- What a new variable shows. -/
def joinedVal (h : Heap V) (p : VarObj V × Joined V) : Option (Ds.Var V) :=
  match p.2 with
  | .fresh a => some (valWith p.1 a)
  | .same w => (h.bufs[p.1.array.buf]?).map fun b => valWith p.1 (through w b)

theorem joined_ext (h : Heap V) (l : List (VarObj V × Joined V)) : Ext h (h.joined l).1 := by
  obtain ⟨h1, h2, _, _, h5⟩ := joined_same h l
  exact ⟨h5, ⟨[], by simp [h1]⟩, [], by simp [h2]⟩

theorem joined_vals {h : Heap V} {l : List (VarObj V × Joined V)}
    (ok : ∀ p ∈ l, p.1.array.buf < h.bufs.length) :
    (h.joined l).2.filterMap (h.joined l).1.valueOf = l.filterMap (joinedVal h) := by
  induction l generalizing h with
  | nil => rfl
  | cons p t ih =>
    obtain ⟨o, j⟩ := p
    have ho := ok _ List.mem_cons_self
    simp only at ho
    cases j with
    | same w =>
      have iht := ih fun p hp => ok p (List.mem_cons_of_mem _ hp)
      have e : (h.joined t).1.valueOf { o with array := ⟨o.array.buf, w⟩ } =
          joinedVal h (o, .same w) := by
        simp only [Heap.valueOf, Heap.read, (joined_ext h t).buf ho, joinedVal, valWith,
          Option.map_map, Function.comp_def]
      simp only [Heap.joined, List.filterMap_cons, e, iht]
    | fresh a =>
      have iht := ih (h := { h with bufs := h.bufs ++ [a] }) fun p hp =>
        Nat.lt_of_lt_of_le (ok p (List.mem_cons_of_mem _ hp)) (by simp)
      have e : ({ h with bufs := h.bufs ++ [a] }.joined t).1.valueOf
          { o with array := whole h.bufs.length a } = some (valWith o a) := by
        have hb := (joined_ext { h with bufs := h.bufs ++ [a] } t).buf (b := h.bufs.length)
          (by simp)
        simp only [List.getElem?_append_right (Nat.le_refl _), Nat.sub_self,
          List.getElem?_cons_zero] at hb
        simp only [Heap.valueOf, Heap.read, whole, hb, Option.map_some, valWith]
        rfl
      have e2 : t.filterMap (joinedVal { h with bufs := h.bufs ++ [a] }) =
          t.filterMap (joinedVal h) := by
        refine filterMap_congr' fun p hp => ?_
        simp only [joinedVal]
        rw [List.getElem?_append_left (ok p (List.mem_cons_of_mem _ hp))]
      simp only [Heap.joined, List.filterMap_cons, e, iht, e2, joinedVal]

theorem derive_makes {h : Heap V} (v : Valid h) {l : List (VarObj V × Joined V)}
    (ok : ∀ p ∈ l, RefOk h p.1.array) (inj : ∀ p ∈ l, ∀ w, p.2 = .same w → Inj w)
    (attrs : List (String × String)) (chunks : List (String × Nat)) (limit : Nat)
    (delayed : Option Bool) :
    Makes (h.derive l attrs chunks limit delayed)
      (Ds.mk (l.filterMap (joinedVal h)) attrs chunks limit delayed) := by
  obtain ⟨v1, h1, h2⟩ := v.joined l ok inj
  rw [← joined_vals fun p hp => (ok p hp).1]
  exact build_makes v1 h2 _ _ _ _

/-! ### Lists -/

/-- The same list comprehension on objects and on values. -/
theorem mapPy_refines {α β α' β' : Type} {f : α → Py β} {g : α' → Py β'} {A : α → Option α'}
    {B : β → Option β'} (l : List α)
    (hf : ∀ a ∈ l, ∃ a', A a = some a' ∧
      ((∃ b b', f a = .ok b ∧ B b = some b' ∧ g a' = .ok b') ∨
        ∃ e, f a = .error e ∧ g a' = .error e)) :
    (∃ r, Ds.mapPy f l = .ok r ∧ Ds.mapPy g (l.filterMap A) = .ok (r.filterMap B)) ∨
      ∃ e, Ds.mapPy f l = .error e ∧ Ds.mapPy g (l.filterMap A) = .error e := by
  induction l with
  | nil => exact .inl ⟨[], rfl, rfl⟩
  | cons a t ih =>
    obtain ⟨a', ha, h1⟩ := hf a List.mem_cons_self
    simp only [List.filterMap_cons, ha, Ds.mapPy]
    rcases h1 with ⟨b, b', h1, h2, h3⟩ | ⟨e, h1, h2⟩
    · rw [h1, h3]
      rcases ih fun x hx => hf x (List.mem_cons_of_mem _ hx) with ⟨r, h4, h5⟩ | ⟨e, h4, h5⟩
      · rw [h4, h5]
        exact .inl ⟨b :: r, rfl, by simp only [List.filterMap_cons, h2]; rfl⟩
      · rw [h4, h5]
        exact .inr ⟨e, rfl, rfl⟩
    · rw [h1, h2]
      exact .inr ⟨e, rfl, rfl⟩

/-- The dataset object `D`, with its chunks, as a value. -/
def Heap.seeObj (h : Heap V) (D : DsObj) (c : List (String × Nat)) : Ds.Dataset V where
  dims := D.dims
  vars := h.vals D.vars
  attrs := D.attrs
  chunks := c
  limit := D.limit
  delayed := D.delayed

theorem see_obj {h : Heap V} {d : Nat} {s : Ds.Dataset V} (e : h.see d = some s) :
    ∃ D c, h.getDs d = some (D, c) ∧ h.sets[d]? = some D ∧ h.dicts[D.chunks]? = some c ∧
      s = h.seeObj D c := by
  simp only [Heap.see, Option.bind_eq_some_iff, Option.map_eq_some_iff] at e
  obtain ⟨D, h1, c, h2, h3⟩ := e
  exact ⟨D, c, by simp only [Heap.getDs, h1, Option.bind_some, h2, Option.map_some], h1, h2,
    h3.symm⟩

theorem on_see {h : Heap V} {d : Nat} {D : DsObj} {c : List (String × Nat)}
    (e : h.getDs d = some (D, c)) (f : DsObj → List (String × Nat) → Heap V × Py Res) :
    h.on d f = f D c := by
  simp only [Heap.on, e]

theorem objects_vals (h : Heap V) (D : DsObj) :
    (h.objects D).filterMap h.valueOf = h.vals D.vars := by
  simp only [Heap.objects, List.filterMap_filterMap]
  rfl

theorem value_of {h : Heap V} {o : VarObj V} (ok : RefOk h o.array) :
    ∃ b, h.bufs[o.array.buf]? = some b ∧ h.valueOf o = some (valWith o (through o.array.view b)) := by
  refine ⟨_, List.getElem?_eq_getElem ok.1, ?_⟩
  simp only [Heap.valueOf, Heap.read, List.getElem?_eq_getElem ok.1, Option.map_some]
  rfl

theorem getObj_value {h : Heap V} (v : Valid h) {D : DsObj} (hD : ∀ p ∈ D.vars, Named h p)
    (name : String) :
    (∃ r o x, h.getObj D name = .ok (r, o) ∧ RefOk h o.array ∧ h.valueOf o = some x ∧
      Ds.getVar (h.vals D.vars) name = some x) ∨
    h.getObj D name = .error .keyError ∧ D.vars.lookup name = none ∧
      Ds.getVar (h.vals D.vars) name = none := by
  have hg := vals_get (fun p hp => seen_of v (hD p hp)) name
  cases hl : D.vars.lookup name with
  | none =>
    rw [hl] at hg
    exact .inr ⟨by simp only [Heap.getObj, hl, Option.bind_none], rfl, hg⟩
  | some r =>
    obtain ⟨o, h1, h2⟩ := hD _ (lookup_mem _ _ _ hl)
    simp only at h1
    obtain ⟨b, h3, h4⟩ := value_of (v.objs r o h1)
    rw [hl] at hg
    simp only [Option.bind_some, Heap.var, h1] at hg
    exact .inl ⟨r, o, _, by simp only [Heap.getObj, hl, Option.bind_some, h1, Option.map_some],
      v.objs r o h1, h4, by rw [hg, h4]⟩

end Verif.Sh
