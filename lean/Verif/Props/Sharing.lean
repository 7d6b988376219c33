import Verif.Lemmas.SharingNew

/-!
C76: datasets that share variables, memory or dictionaries.
-/

namespace Verif

open Nd Sh Spec

variable {V : Type}

namespace Spec

/-- The calls that copy the elements. -/
def Copies : Call V → Prop
  | .pickle _ => True
  | .delete _ _ _ => True
  | .compute _ => True
  | _ => False

/-- The calls that make new variables, which may be on the memory of others. -/
def Remakes : Call V → Prop
  | .isel _ _ => True
  | .concat _ _ _ => True
  | .setForInsertion _ _ _ => True
  | .rechunk _ => True
  | .dataset _ _ _ _ _ => True
  | _ => False

/-- The call takes variables out of the dataset `d`, or puts other ones in their place. -/
def Replaces (d : Nat) : Call V → Prop
  | .rename n _ => n = d
  | .dropVars n _ => n = d
  | .addVariable n _ _ _ => n = d
  | _ => False

/-- `d[name] is e[name]` -/
def SharedVar (h : Heap V) (d e : Nat) (name : String) : Prop :=
  ∃ r D E, h.sets[d]? = some D ∧ h.sets[e]? = some E ∧ D.vars.lookup name = some r ∧
    E.vars.lookup name = some r

/-- The variable `name` of the dataset `d`, as a program sees it. -/
def look (h : Heap V) (d : Nat) (name : String) : Option (Ds.Var V) :=
  (h.see d).bind fun D => Ds.getVar D.vars name

end Spec

/-! ### Datasets that have nothing in common -/

/-- A program that names only datasets and arrays with which the dataset `e` has nothing in
common, and those it makes itself, does not change what `e` shows. -/
theorem C76_frame {h : Heap V} (m : Made h) {e : Nat} (he : e < h.sets.length)
    {D K : Nat → Prop} (hd : ∀ n, D n → Unshared h n e) (hk : ∀ k, K k → UnsharedHand h k e)
    {prog : List (Call V)} (cf : NamesOnly h D K prog) : (run h prog).see e = h.see e := by
  have v := made_valid m
  have nd : ¬ D e := fun h1 => (hd e h1).1.2 _ ⟨_, List.getElem?_eq_getElem he, rfl⟩
    ⟨_, List.getElem?_eq_getElem he, rfl⟩
  have old : ∀ n, D n ∨ h.sets.length ≤ n → ∀ x, h.sets[n]? = some x → D n := by
    intro n hn x hx
    rcases hn with hn | hn
    · exact hn
    · rw [List.getElem?_eq_none hn] at hx
      cases hx
  obtain ⟨s, h1, h2⟩ := safe_run (D := D) (K := K) (PV := HasVar h e) (PC := HasDict h e)
    (PB := HasBuf h e) (fun r => v.var_lt) (fun r => v.dict_lt) (fun r => v.buf_lt) prog h
    { nbufs := Nat.le_refl _, nvars := Nat.le_refl _, ndicts := Nat.le_refl _
      nsets := Nat.le_refl _, nhands := Nat.le_refl _
      noVar := fun n hn r ⟨X, q, h1, h2⟩ => (hd n (old n hn X h1)).1.1 r ⟨X, q, h1, h2⟩
      noDict := fun n hn r ⟨X, h1, h2⟩ => (hd n (old n hn X h1)).1.2 r ⟨X, h1, h2⟩
      noBuf := fun n hn b ⟨r, o, ⟨X, q, h1, h2⟩, h3, h4⟩ =>
        (hd n (old n hn X h1)).2 b ⟨r, o, ⟨X, q, h1, h2⟩, h3, h4⟩
      noHand := fun k hk' a ha => by
        rcases hk' with hk' | hk'
        · exact hk k hk' a ha
        · rw [List.getElem?_eq_none hk'] at ha
          cases ha
      vars := fun _ _ => rfl
      dicts := fun _ _ => rfl } cf
  exact see_congr (h1 e he nd) s.dicts s.vars fun b hb => h2 b (v.buf_lt hb) (.inl hb)

/-- A program that writes nothing in place: datasets that have no variable and no dictionary in
common do not change each other, even on the same memory. -/
theorem C76_rebinding {h : Heap V} (m : Made h) {e : Nat} (he : e < h.sets.length)
    {D K : Nat → Prop} (hd : ∀ n, D n → Separate h n e)
    {prog : List (Call V)} (cf : NamesOnly h D K prog) (hw : ∀ c ∈ prog, ¬ InPlace c) :
    (run h prog).see e = h.see e := by
  have v := made_valid m
  have nd : ¬ D e := fun h1 => (hd e h1).2 _ ⟨_, List.getElem?_eq_getElem he, rfl⟩
    ⟨_, List.getElem?_eq_getElem he, rfl⟩
  have old : ∀ n, D n ∨ h.sets.length ≤ n → ∀ x, h.sets[n]? = some x → D n := by
    intro n hn x hx
    rcases hn with hn | hn
    · exact hn
    · rw [List.getElem?_eq_none hn] at hx
      cases hx
  obtain ⟨s, h1, h2⟩ := safe_run (D := D) (K := K) (PV := HasVar h e) (PC := HasDict h e)
    (PB := fun _ => False) (fun r => v.var_lt) (fun r => v.dict_lt) (fun r h => h.elim) prog h
    { nbufs := Nat.le_refl _, nvars := Nat.le_refl _, ndicts := Nat.le_refl _
      nsets := Nat.le_refl _, nhands := Nat.le_refl _
      noVar := fun n hn r ⟨X, q, h1, h2⟩ => (hd n (old n hn X h1)).1 r ⟨X, q, h1, h2⟩
      noDict := fun n hn r ⟨X, h1, h2⟩ => (hd n (old n hn X h1)).2 r ⟨X, h1, h2⟩
      noBuf := fun _ _ _ _ h => h
      noHand := fun _ _ _ _ h => h
      vars := fun _ _ => rfl
      dicts := fun _ _ => rfl } cf
  exact see_congr (h1 e he nd) s.dicts s.vars fun b hb => h2 b (v.buf_lt hb) (.inr hw)

/-! ### Derived datasets -/

/-- The claim: a new dataset does not depend on the program that goes on with the others, nor
they on it. -/
def C76_full : Prop :=
  ∀ (h : Heap Nat), Made h → ∀ c h' n, step h c = (h', .ok (.ds n)) → h.sets.length ≤ n →
    ∀ prog,
      (∀ e, e < h.sets.length → NamesOnly h' (· = n) (fun _ => False) prog →
        (run h' prog).see e = h.see e) ∧
      (NamesOnly h' (· < h.sets.length) (· < h.hands.length) prog →
        (run h' prog).see n = h'.see n)

theorem made_step {h h' : Heap V} (m : Made h) {c : Call V} {r : Py Res}
    (e : step h c = (h', r)) : Made h' := by
  obtain ⟨prog, rfl⟩ := m
  refine ⟨prog ++ [c], ?_⟩
  have : ∀ (l : List (Call V)) (x : Heap V), run x (l ++ [c]) = (step (run x l) c).1 := by
    intro l
    induction l with
    | nil => intro x; rfl
    | cons a t ih => intro x; exact ih _
  rw [this, e]

theorem copies_fresh {h h' : Heap V} {c : Call V} (hc : Copies c) {n : Nat}
    (e : step h c = (h', .ok (.ds n))) (hn : h.sets.length ≤ n) :
    Fresh h h' n ∧ ∀ b, HasBuf h' n b → h.bufs.length ≤ b := by
  cases c with
  | pickle d =>
    obtain ⟨D, ch, _, _, e⟩ := on_ok e
    obtain ⟨k, e1, e⟩ := asDs_ok e
    cases e1
    exact pickle_fresh e
  | delete d ixs axis =>
    obtain ⟨D, ch, _, _, e⟩ := on_ok e
    obtain ⟨k, e1, e⟩ := asDs_ok e
    cases e1
    simp only [Heap.deleteDs] at e
    split at e
    · cases e
    · rename_i l hl
      refine derive_apart (fun p hp => ?_) e
      obtain ⟨o, _, ho⟩ := mapPy_mem _ _ _ hl p hp
      simp only [Heap.deleteVar] at ho
      split at ho
      · cases ho
      · rename_i x _
        cases h1 : Ds.deleteVar ixs axis x with
        | error x => rw [h1] at ho; cases ho
        | ok w => rw [h1] at ho; cases ho; exact ⟨_, rfl⟩
  | compute d =>
    obtain ⟨D, ch, hD, _, e⟩ := on_ok e
    obtain ⟨k, e1, e⟩ := asDs_ok e
    cases e1
    simp only [Heap.compute] at e
    split at e
    · cases e
      have := (List.getElem?_eq_some_iff.1 hD).1
      omega
    · refine derive_apart (fun p hp => ?_) e
      obtain ⟨o', _, e⟩ := List.mem_filterMap.1 hp
      obtain ⟨a, _, e⟩ := Option.map_eq_some_iff.1 e
      subst e
      exact ⟨a, rfl⟩
  | _ => exact hc.elim

theorem givens_same {h : Heap V} {l : List (Given V)} {q : Heap V × List (VarObj V)}
    (e : h.givens l = some q) : q.1.vars = h.vars ∧ q.1.dicts = h.dicts ∧ q.1.sets = h.sets ∧
      q.1.hands = h.hands ∧ ∃ t, q.1.bufs = h.bufs ++ t := by
  induction l generalizing h q with
  | nil =>
    simp only [Heap.givens] at e
    cases e
    exact ⟨rfl, rfl, rfl, rfl, [], by simp⟩
  | cons x t ih =>
    simp only [Heap.givens, Option.bind_eq_some_iff, Option.map_eq_some_iff] at e
    obtain ⟨r, h1, p, h2, q', h3, e⟩ := e
    subst e
    obtain ⟨i1, i2, i3, i4, u, i5⟩ := ih h3
    simp only [Heap.adopt] at h2
    split at h2
    · obtain ⟨a, _, e⟩ := Option.map_eq_some_iff.1 h2
      subst e
      exact ⟨i1, i2, i3, i4, a :: u, by simp [i5]⟩
    · cases h2
      exact ⟨i1, i2, i3, i4, u, i5⟩

theorem remakes_fresh {h h' : Heap V} {c : Call V} (hc : Remakes c) {n : Nat}
    (e : step h c = (h', .ok (.ds n))) (hn : h.sets.length ≤ n) : Fresh h h' n := by
  cases c with
  | isel d slices =>
    obtain ⟨D, ch, _, _, e⟩ := on_ok e
    obtain ⟨k, e1, e⟩ := asDs_ok e
    cases e1
    simp only [Heap.isel] at e
    split at e
    · cases e
    · split at e
      · cases e
      · exact (derive_fresh e).1
  | concat d others dim =>
    obtain ⟨D, ch, _, _, e⟩ := on_ok e
    split at e
    · cases e
    · obtain ⟨k, e1, e⟩ := asDs_ok e
      cases e1
      simp only [Heap.concat] at e
      split at e
      · cases e
      · split at e
        · cases e
        · split at e
          · cases e
          · exact (derive_fresh e).1
  | setForInsertion d chunks limit =>
    obtain ⟨D, ch, _, _, e⟩ := on_ok e
    obtain ⟨k, e1, e⟩ := asDs_ok e
    cases e1
    exact (build_fresh e).1
  | rechunk d =>
    obtain ⟨D, ch, hD, _, e⟩ := on_ok e
    obtain ⟨k, e1, e⟩ := asDs_ok e
    cases e1
    simp only [Heap.rechunk] at e
    split at e
    · cases e
      have := (List.getElem?_eq_some_iff.1 hD).1
      omega
    · exact (build_fresh e).1
  | dataset l attrs chunks limit delayed =>
    simp only [step] at e
    split at e
    · cases e
    · rename_i h1 l1 hg
      obtain ⟨k, e1, e⟩ := asDs_ok e
      cases e1
      obtain ⟨f, h2, h3⟩ := build_fresh e
      obtain ⟨i1, i2, i3, i4, t, i5⟩ := givens_same hg
      simp only at i1 i2 i3 i4 i5
      obtain ⟨D, d1, d2, d3⟩ := f.sets
      obtain ⟨c, hc⟩ := f.ndicts
      exact ⟨f.place.trans (by rw [i3]), f.hands.trans i4, ⟨t, by rw [h2, i5]⟩,
        ⟨l1, by rw [h3, i1]⟩, ⟨c, by rw [hc, i2]⟩, D, by rw [d1, i3], by rw [d2, i2],
        by rw [← i1]; exact d3⟩
  | _ => exact hc.elim

/-- Copies are independent: nothing that is done with the new dataset changes another one, and
nothing that is done with the others and with the arrays of the program changes it. -/
theorem C76_copies_partial {h h' : Heap V} (m : Made h) {c : Call V} (hc : Copies c) {n : Nat}
    (e : step h c = (h', .ok (.ds n))) (hn : h.sets.length ≤ n) (prog : List (Call V)) :
    (∀ e, e < h.sets.length → NamesOnly h' (· = n) (fun _ => False) prog →
      (run h' prog).see e = h.see e) ∧
    (NamesOnly h' (· < h.sets.length) (· < h.hands.length) prog →
      (run h' prog).see n = h'.see n) := by
  have v := made_valid m
  have m' := made_step m e
  obtain ⟨f, hb⟩ := copies_fresh hc e hn
  obtain ⟨h1, h2⟩ := f.apart v hb
  have size := f.size
  constructor
  · intro e he cf
    rw [C76_frame m' (by omega) (D := (· = n)) (K := fun _ => False)
      (fun k hk => hk ▸ h1 e he) nofun cf]
    exact see_fresh f v he
  · intro cf
    have := f.place
    exact C76_frame m' (by omega) (fun k hk => apart_symm (h1 k hk)) (fun k hk => h2 k hk) cf

/-- New variables on the same memory are independent as long as no element is written in
place. -/
theorem C76_slices_partial {h h' : Heap V} (m : Made h) {c : Call V} (hc : Remakes c) {n : Nat}
    (e : step h c = (h', .ok (.ds n))) (hn : h.sets.length ≤ n) (prog : List (Call V))
    (hw : ∀ c ∈ prog, ¬ InPlace c) :
    (∀ e, e < h.sets.length → NamesOnly h' (· = n) (fun _ => True) prog →
      (run h' prog).see e = h.see e) ∧
    (NamesOnly h' (· < h.sets.length) (fun _ => True) prog →
      (run h' prog).see n = h'.see n) := by
  have v := made_valid m
  have m' := made_step m e
  have f := remakes_fresh hc e hn
  have size := f.size
  constructor
  · intro e he cf
    rw [C76_rebinding m' (by omega) (D := (· = n)) (K := fun _ => True)
      (fun k hk => hk ▸ f.separate v he) cf hw]
    exact see_fresh f v he
  · intro cf
    have := f.place
    exact C76_rebinding m' (by omega) (fun k hk => separate_symm (f.separate v hk)) cf hw

end Verif
