import Verif.Lemmas.SharingValid

/-!
What a new dataset refers to.
-/

namespace Verif.Sh

open Nd Spec

variable {V : Type}

/-- A dataset that was just made of the variables `vars`. -/
structure NewDs (h h' : Heap V) (n : Nat) (vars : List (String × Nat)) : Prop where
  place : n = h.sets.length
  bufs : h'.bufs = h.bufs
  objs : h'.vars = h.vars
  hands : h'.hands = h.hands
  dicts : ∃ c, h'.dicts = h.dicts ++ [c]
  sets : ∃ D, h'.sets = h.sets ++ [D] ∧ D.chunks = h.dicts.length ∧ ∀ p ∈ D.vars, p ∈ vars

theorem construct_new {h h' : Heap V} {vars : List (String × Nat)}
    {attrs : List (String × String)} {chunks : List (String × Nat)} {limit : Nat}
    {delayed : Option Bool} {n : Nat}
    (e : h.construct vars attrs chunks limit delayed = (h', .ok n)) : NewDs h h' n vars := by
  simp only [Heap.construct] at e
  split at e
  · cases e
  · cases e
    exact ⟨rfl, rfl, rfl, rfl, ⟨_, rfl⟩, _, rfl, rfl, fun p hp =>
      (foldl_put_mem vars [] p hp).resolve_left nofun⟩

theorem asDs_ok {x : Heap V × Py Nat} {h' : Heap V} {r : Res} (e : asDs x = (h', .ok r)) :
    ∃ n, r = .ds n ∧ x = (h', .ok n) := by
  obtain ⟨y, z⟩ := x
  cases z with
  | error z => simp only [asDs] at e; cases e
  | ok z =>
    simp only [asDs] at e
    cases e
    exact ⟨z, rfl, rfl⟩

theorem on_ok {h h' : Heap V} {n : Nat} {f : DsObj → List (String × Nat) → Heap V × Py Res}
    {r : Res} (e : h.on n f = (h', .ok r)) :
    ∃ d c, h.sets[n]? = some d ∧ h.dicts[d.chunks]? = some c ∧ f d c = (h', .ok r) := by
  simp only [Heap.on] at e
  split at e
  · cases e
  · rename_i d c hd
    exact ⟨d, c, (getDs_spec hd).1, (getDs_spec hd).2, e⟩

/-- A new dataset of new variables. -/
structure Fresh (h h' : Heap V) (n : Nat) : Prop where
  place : n = h.sets.length
  hands : h'.hands = h.hands
  nbufs : ∃ l, h'.bufs = h.bufs ++ l
  objs : ∃ l, h'.vars = h.vars ++ l
  ndicts : ∃ c, h'.dicts = h.dicts ++ [c]
  sets : ∃ D, h'.sets = h.sets ++ [D] ∧ D.chunks = h.dicts.length ∧
    ∀ p ∈ D.vars, h.vars.length ≤ p.2

theorem joined_same (h : Heap V) (l : List (VarObj V × Joined V)) :
    (h.joined l).1.vars = h.vars ∧ (h.joined l).1.dicts = h.dicts ∧
      (h.joined l).1.sets = h.sets ∧ (h.joined l).1.hands = h.hands ∧
      ∃ t, (h.joined l).1.bufs = h.bufs ++ t := by
  induction l generalizing h with
  | nil => exact ⟨rfl, rfl, rfl, rfl, [], by simp [Heap.joined]⟩
  | cons p t ih =>
    obtain ⟨o, j⟩ := p
    cases j with
    | same w => exact ih h
    | fresh a =>
      obtain ⟨h1, h2, h3, h4, u, h5⟩ := ih { h with bufs := h.bufs ++ [a] }
      exact ⟨h1, h2, h3, h4, a :: u, by
        simp only [Heap.joined, h5, List.append_assoc, List.singleton_append]⟩

theorem build_fresh {h h' : Heap V} {l : List (VarObj V)} {attrs : List (String × String)}
    {chunks : List (String × Nat)} {limit : Nat} {delayed : Option Bool} {n : Nat}
    (e : h.build l attrs chunks limit delayed = (h', .ok n)) :
    Fresh h h' n ∧ h'.bufs = h.bufs ∧ h'.vars = h.vars ++ l := by
  have k := construct_new e
  obtain ⟨D, h1, h2, h3⟩ := k.sets
  refine ⟨⟨k.place, k.hands, ⟨[], by simp [k.bufs, Heap.allocate]⟩, ⟨l, k.objs⟩, k.dicts,
    D, h1, h2, fun p hp => mapIdx_ge l h.vars.length (·.name) p (h3 p hp)⟩, k.bufs, k.objs⟩

theorem derive_fresh {h h' : Heap V} {l : List (VarObj V × Joined V)}
    {attrs : List (String × String)} {chunks : List (String × Nat)} {limit : Nat}
    {delayed : Option Bool} {n : Nat}
    (e : h.derive l attrs chunks limit delayed = (h', .ok n)) :
    Fresh h h' n ∧ h'.bufs = (h.joined l).1.bufs ∧ h'.vars = h.vars ++ (h.joined l).2 := by
  obtain ⟨f, h1, h2⟩ := build_fresh e
  obtain ⟨j1, j2, j3, j4, t, j5⟩ := joined_same h l
  obtain ⟨D, d1, d2, d3⟩ := f.sets
  refine ⟨⟨f.place.trans (by rw [j3]), f.hands.trans j4, ⟨t, h1.trans j5⟩,
    ⟨(h.joined l).2, ?_⟩, ?_, D, ?_, ?_, ?_⟩, h1, ?_⟩
  · rw [h2, j1]
  · obtain ⟨c, hc⟩ := f.ndicts
    exact ⟨c, by rw [hc, j2]⟩
  · rw [d1, j3]
  · rw [d2, j2]
  · rw [← j1]; exact d3
  · rw [h2, j1]

/-- The buffers of variables that are all made anew. -/
theorem joined_fresh (h : Heap V) (l : List (VarObj V × Joined V))
    (hl : ∀ p ∈ l, ∃ a, p.2 = .fresh a) :
    ∀ o ∈ (h.joined l).2, h.bufs.length ≤ o.array.buf := by
  induction l generalizing h with
  | nil => nofun
  | cons p t ih =>
    obtain ⟨o, j⟩ := p
    obtain ⟨a, rfl⟩ : ∃ a, j = .fresh a := hl _ List.mem_cons_self
    intro x hx
    rcases List.mem_cons.1 hx with rfl | hx
    · exact Nat.le_refl _
    · have := ih { h with bufs := h.bufs ++ [a] }
        (fun p hp => hl p (List.mem_cons_of_mem _ hp)) x hx
      simp only [List.length_append, List.length_singleton] at this
      omega

section
variable {h h' : Heap V} {n : Nat}

theorem Fresh.size (f : Fresh h h' n) : h'.sets.length = h.sets.length + 1 := by
  obtain ⟨D, h1, _, _⟩ := f.sets
  simp [h1]

theorem Fresh.old_set (f : Fresh h h' n) {e : Nat} (he : e < h.sets.length) :
    h'.sets[e]? = h.sets[e]? := by
  obtain ⟨D, h1, _, _⟩ := f.sets
  rw [h1, List.getElem?_append_left he]

theorem Fresh.old_var (f : Fresh h h' n) {e r : Nat} (he : e < h.sets.length) :
    HasVar h' e r ↔ HasVar h e r := by
  simp only [HasVar, f.old_set he]

theorem Fresh.old_dict (f : Fresh h h' n) {e c : Nat} (he : e < h.sets.length) :
    HasDict h' e c ↔ HasDict h e c := by
  simp only [HasDict, f.old_set he]

theorem Fresh.new_var (f : Fresh h h' n) {r : Nat} (hr : HasVar h' n r) :
    h.vars.length ≤ r := by
  obtain ⟨D, h1, _, h3⟩ := f.sets
  obtain ⟨D', name, e, hp⟩ := hr
  rw [h1, f.place, List.getElem?_append_right (Nat.le_refl _), Nat.sub_self] at e
  cases e
  exact h3 _ hp

theorem Fresh.new_dict (f : Fresh h h' n) {c : Nat} (hr : HasDict h' n c) :
    c = h.dicts.length := by
  obtain ⟨D, h1, h2, _⟩ := f.sets
  obtain ⟨D', e, hp⟩ := hr
  rw [h1, f.place, List.getElem?_append_right (Nat.le_refl _), Nat.sub_self] at e
  cases e
  rw [← hp, h2]

theorem Valid.var_lt (v : Valid h) {e r : Nat} (hr : HasVar h e r) : r < h.vars.length := by
  obtain ⟨D, name, h1, h2⟩ := hr
  obtain ⟨o, h3, _⟩ := (v.sets e D h1).2 _ h2
  exact (List.getElem?_eq_some_iff.1 h3).1

theorem Valid.dict_lt (v : Valid h) {e c : Nat} (hc : HasDict h e c) : c < h.dicts.length := by
  obtain ⟨D, h1, h2⟩ := hc
  exact h2 ▸ (v.sets e D h1).1

theorem Valid.buf_lt (v : Valid h) {e b : Nat} (hb : HasBuf h e b) : b < h.bufs.length := by
  obtain ⟨r, o, _, h1, h2⟩ := hb
  exact h2 ▸ (v.objs r o h1).1

theorem Fresh.separate (f : Fresh h h' n) (v : Valid h) {e : Nat} (he : e < h.sets.length) :
    Separate h' n e := by
  constructor
  · intro r hr hr'
    have := f.new_var hr
    have := v.var_lt ((f.old_var he).1 hr')
    omega
  · intro c hc hc'
    have := f.new_dict hc
    have := v.dict_lt ((f.old_dict he).1 hc')
    omega

theorem Fresh.old_buf (f : Fresh h h' n) (v : Valid h) {e b : Nat} (he : e < h.sets.length)
    (hb : HasBuf h' e b) : HasBuf h e b := by
  obtain ⟨r, o, hr, ho, e1⟩ := hb
  have hr := (f.old_var he).1 hr
  obtain ⟨l, hl⟩ := f.objs
  rw [hl, List.getElem?_append_left (v.var_lt hr)] at ho
  exact ⟨r, o, hr, ho, e1⟩

/-- A dataset on new buffers is apart from the datasets and the arrays before it. -/
theorem Fresh.apart (f : Fresh h h' n) (v : Valid h)
    (hb : ∀ b, HasBuf h' n b → h.bufs.length ≤ b) :
    (∀ e, e < h.sets.length → Unshared h' n e) ∧
      ∀ k, k < h.hands.length → UnsharedHand h' k n := by
  constructor
  · intro e he
    refine ⟨f.separate v he, fun b h1 h2 => ?_⟩
    have := hb b h1
    have := v.buf_lt (f.old_buf v he h2)
    omega
  · intro k hk a ha h1
    rw [f.hands] at ha
    have := hb _ h1
    have := (v.hands k a ha).1
    omega

theorem see_fresh (f : Fresh h h' n) (v : Valid h) {e : Nat} (he : e < h.sets.length) :
    h'.see e = h.see e := by
  refine see_congr (f.old_set he) ?_ ?_ ?_
  · intro c hc
    obtain ⟨x, hx⟩ := f.ndicts
    rw [hx, List.getElem?_append_left (v.dict_lt hc)]
  · intro r hr
    obtain ⟨x, hx⟩ := f.objs
    rw [hx, List.getElem?_append_left (v.var_lt hr)]
  · intro b hb
    obtain ⟨x, hx⟩ := f.nbufs
    rw [hx, List.getElem?_append_left (v.buf_lt hb)]

end

theorem separate_symm {h : Heap V} {d e : Nat} (s : Separate h d e) : Separate h e d :=
  ⟨fun r h1 h2 => s.1 r h2 h1, fun c h1 h2 => s.2 c h2 h1⟩

theorem apart_symm {h : Heap V} {d e : Nat} (s : Unshared h d e) : Unshared h e d :=
  ⟨separate_symm s.1, fun r h1 h2 => s.2 r h2 h1⟩

/-! ### Which calls make new variables -/

theorem pickle_fresh {h h' : Heap V} {d : DsObj} {chunks : List (String × Nat)} {n : Nat}
    (e : h.pickle d chunks = (h', .ok n)) :
    Fresh h h' n ∧ ∀ b, HasBuf h' n b → h.bufs.length ≤ b := by
  obtain ⟨j1, j2, j3, j4, t, j5⟩ := joined_same h (h.copied (h.objects d))
  have jf := joined_fresh h (h.copied (h.objects d)) fun p hp => by
    obtain ⟨o', _, e⟩ := List.mem_filterMap.1 hp
    obtain ⟨a, _, e⟩ := Option.map_eq_some_iff.1 e
    subst e
    exact ⟨a, rfl⟩
  simp only [Heap.pickle, Heap.allocate] at e
  generalize h.joined (h.copied (h.objects d)) = q at *
  obtain ⟨e1, e2⟩ := Prod.mk.inj e
  injection e2 with e2
  subst e1 e2
  have hv := fun p hp => mapIdx_ge q.2 q.1.vars.length (fun o => o.name) p hp
  rw [j1] at hv
  have f : Fresh h { q.1 with
      vars := q.1.vars ++ q.2, dicts := q.1.dicts ++ [chunks],
      sets := q.1.sets ++ [{ d with
        vars := q.2.mapIdx fun i o => (o.name, q.1.vars.length + i),
        chunks := q.1.dicts.length }] } q.1.sets.length := by
    refine ⟨by rw [j3], j4, ⟨t, j5⟩, ⟨q.2, by simp only [j1]⟩, ⟨chunks, by simp only [j2]⟩, ?_⟩
    exact ⟨_, by simp only [j3]; rfl, by simp only [j2], by rw [j1]; exact hv⟩
  refine ⟨f, ?_⟩
  rintro b ⟨r, o, hr, ho, rfl⟩
  have hr := f.new_var hr
  rcases append_some ho with ho | ho
  · rw [j1] at ho
    have := (List.getElem?_eq_some_iff.1 ho).1
    omega
  · exact jf o ho

theorem derive_apart {h h' : Heap V} {l : List (VarObj V × Joined V)}
    {attrs : List (String × String)} {chunks : List (String × Nat)} {limit : Nat}
    {delayed : Option Bool} {n : Nat}
    (hl : ∀ p ∈ l, ∃ a, p.2 = .fresh a)
    (e : h.derive l attrs chunks limit delayed = (h', .ok n)) :
    Fresh h h' n ∧ ∀ b, HasBuf h' n b → h.bufs.length ≤ b := by
  obtain ⟨f, h1, h2⟩ := derive_fresh e
  refine ⟨f, ?_⟩
  rintro b ⟨r, o, hr, ho, rfl⟩
  have hr := f.new_var hr
  rw [h2] at ho
  rcases append_some ho with ho | ho
  · have := (List.getElem?_eq_some_iff.1 ho).1
    omega
  · exact joined_fresh h l hl o ho

end Verif.Sh
