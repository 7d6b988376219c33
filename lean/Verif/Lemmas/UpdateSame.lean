import Verif.Lemmas.Update

/-! Loading two contents that differ only by the values of some variables. -/

namespace Verif

open Spec Nd Ds Upd

variable {P V : Type} {names : List String}

/-- Two outcomes: the same exception, or related values. -/
def SamePy {α : Type} (R : α → α → Prop) : Py α → Py α → Prop
  | .ok a, .ok b => R a b
  | .error e, .error e' => e = e'
  | _, _ => False

/-- Related lists. -/
def SameList {α : Type} (R : α → α → Prop) : List α → List α → Prop
  | [], [] => True
  | a :: t, b :: u => R a b ∧ SameList R t u
  | _, _ => False

theorem SamePy.bind {α β : Type} {R : α → α → Prop} {S : β → β → Prop} {x y : Py α}
    {f g : α → Py β} (h : SamePy R x y) (hf : ∀ a b, R a b → SamePy S (f a) (g b)) :
    SamePy S (x >>= f) (y >>= g) := by
  cases x <;> cases y <;> simp only [SamePy] at h
  · subst h; rfl
  · exact hf _ _ h

theorem samePy_mapPy {α β : Type} {S : β → β → Prop} {f g : α → Py β} (l : List α)
    (hf : ∀ a, SamePy S (f a) (g a)) : SamePy (SameList S) (mapPy f l) (mapPy g l) := by
  induction l with
  | nil => trivial
  | cons a t ih =>
    simp only [mapPy]
    refine (hf a).bind fun x y hxy => ih.bind fun xs ys h => ?_
    exact ⟨hxy, h⟩

theorem samePy_mapPy2 {α β : Type} {R : α → α → Prop} {S : β → β → Prop} {f g : α → Py β}
    {l m : List α} (hl : SameList R l m) (hf : ∀ a b, R a b → SamePy S (f a) (g b)) :
    SamePy (SameList S) (mapPy f l) (mapPy g m) := by
  induction l generalizing m with
  | nil => cases m with
    | nil => trivial
    | cons _ _ => exact hl.elim
  | cons a t ih =>
    cases m with
    | nil => exact hl.elim
    | cons b u =>
      simp only [mapPy]
      refine (hf a b hl.1).bind fun x y hxy => (ih hl.2).bind fun xs ys h => ?_
      exact ⟨hxy, h⟩

theorem sameVars_list {a b : List (Var V)} :
    SameVars names a b ↔ SameList (SameVar names) a b := by
  induction a generalizing b with
  | nil => cases b <;> rfl
  | cons v t ih =>
    cases b with
    | nil => rfl
    | cons w u => exact and_congr Iff.rfl ih

theorem sameVars_setVar2 {a b : List (Var V)} {v w : Var V} (h : SameVars names a b)
    (hv : SameVar names v w) : SameVars names (setVar a v) (setVar b w) := by
  induction a generalizing b with
  | nil => cases b with
    | nil => exact ⟨hv, trivial⟩
    | cons _ _ => exact h.elim
  | cons x t ih =>
    cases b with
    | nil => exact h.elim
    | cons y u =>
      simp only [setVar]
      by_cases hn : x.name = v.name
      · have : y.name = w.name := by rw [← h.1.1, ← hv.1]; exact hn
        rw [if_pos hn, if_pos this]
        exact ⟨hv, h.2⟩
      · have : ¬ y.name = w.name := by rw [← h.1.1, ← hv.1]; exact hn
        rw [if_neg hn, if_neg this]
        exact ⟨h.1, ih h.2⟩

theorem sameVars_foldl {a b acc acc' : List (Var V)} (h : SameVars names a b)
    (ha : SameVars names acc acc') :
    SameVars names (a.foldl setVar acc) (b.foldl setVar acc') := by
  induction a generalizing b acc acc' with
  | nil => cases b with
    | nil => exact ha
    | cons _ _ => exact h.elim
  | cons x t ih =>
    cases b with
    | nil => exact h.elim
    | cons y u =>
      simp only [List.foldl_cons]
      exact ih h.2 (sameVars_setVar2 ha h.1)

theorem sameVars_updateDims {a b : List (Var V)} (h : SameVars names a b)
    (dims : List (String × Nat)) (del : Option Bool) :
    updateDims dims del a = updateDims dims del b := by
  induction a generalizing b dims del with
  | nil => cases b with
    | nil => rfl
    | cons _ _ => exact h.elim
  | cons x t ih =>
    cases b with
    | nil => exact h.elim
    | cons y u =>
      obtain ⟨⟨h1, h2, h3, h4, h5, h6, h7⟩, h⟩ := h
      simp only [updateDims, h2, h3, h6, ih h]

theorem sameDs_mk {a b : List (Var V)} (h : SameVars names a b) (attrs : List (String × String))
    (chunks : List (String × Nat)) (limit : Nat) (del : Option Bool) :
    SamePy (SameDs names) (mk a attrs chunks limit del) (mk b attrs chunks limit del) := by
  have hf := sameVars_foldl h (acc := []) (acc' := []) trivial
  simp only [mk]
  rw [sameVars_updateDims hf]
  cases updateDims [] del (b.foldl setVar []) with
  | error e => rfl
  | ok r => exact ⟨rfl, rfl, rfl, rfl, rfl, hf⟩

theorem sameVars_filter_map {a b : List (Var V)} (h : SameVars names a b)
    (q : String → Bool) (del : Bool) :
    SameVars names ((a.filter fun v => q v.name).map fun v => { v with delayed := del })
      ((b.filter fun v => q v.name).map fun v => { v with delayed := del }) := by
  induction a generalizing b with
  | nil => cases b with
    | nil => trivial
    | cons _ _ => exact h.elim
  | cons x t ih =>
    cases b with
    | nil => exact h.elim
    | cons y u =>
      have hn := h.1.1
      cases hq : q x.name with
      | true =>
        have hq' : q y.name = true := by rw [← hn]; exact hq
        rw [List.filter_cons_of_pos (by simpa using hq), List.filter_cons_of_pos (by simpa using hq')]
        obtain ⟨⟨h1, h2, h3, h4, h5, h6, h7⟩, h⟩ := h
        exact ⟨⟨h1, rfl, h3, h4, h5, h6, h7⟩, ih h⟩
      | false =>
        have hq' : q y.name = false := by rw [← hn]; exact hq
        rw [List.filter_cons_of_neg (by simp [hq]), List.filter_cons_of_neg (by simp [hq'])]
        exact ih h.2

theorem sameDs_openGroup {a b : List (Var V)} (h : SameVars names a b) (del : Bool)
    (sel : Option (List String)) :
    SamePy (SameDs names) (openGroup del sel a) (openGroup del sel b) :=
  sameDs_mk (sameVars_filter_map h (fun n => match sel with
    | none => true
    | some l => decide (n ∈ l)) del) _ _ _ _

theorem sameDs_openPart {st st' : Store P V} (h : SameStore names st st') (del : Bool)
    (sel : Option (List String)) (p : P) :
    SamePy (SameDs names) (openPart del sel st p) (openPart del sel st' p) := by
  have h := h p
  simp only [openPart]
  cases hs : st p <;> cases hs' : st' p <;> simp only [hs, hs'] at h ⊢
  · trivial
  · exact sameDs_openGroup h del sel

theorem sameVars_isSome {a b : List (Var V)} (h : SameVars names a b) (n : String) :
    (getVar a n).isSome = (getVar b n).isSome := by
  rcases h.getVar n with ⟨h1, h2⟩ | ⟨v, w, h1, h2, _⟩ <;> rw [h1, h2] <;> rfl

theorem sameVars_append {a b c d : List (Var V)} (h : SameVars names a b)
    (h2 : SameVars names c d) : SameVars names (a ++ c) (b ++ d) := by
  induction a generalizing b with
  | nil => cases b with
    | nil => exact h2
    | cons _ _ => exact h.elim
  | cons x t ih =>
    cases b with
    | nil => exact h.elim
    | cons y u => exact ⟨h.1, ih h.2⟩

theorem sameVars_mergeVars {a b c d : List (Var V)} (h : SameVars names a b)
    (h2 : SameVars names c d) :
    SameVars names (mergeVars a c).1 (mergeVars b d).1 ∧ (mergeVars a c).2 = (mergeVars b d).2 := by
  induction c generalizing a b d with
  | nil => cases d with
    | nil => exact ⟨h, rfl⟩
    | cons _ _ => exact h2.elim
  | cons x t ih =>
    cases d with
    | nil => exact h2.elim
    | cons y u =>
      simp only [mergeVars]
      rw [sameVars_isSome h x.name, h2.1.1]
      split
      · exact ⟨h, rfl⟩
      · exact ih (sameVars_append h ⟨h2.1, trivial⟩) h2.2

theorem sameDs_mergeInto {a b c d : Dataset V} (h : SameDs names a b) (h2 : SameDs names c d) :
    SamePy (SameDs names) (mergeInto a c) (mergeInto b d) := by
  obtain ⟨a1, a2, a3, a4, a5, a6⟩ := h
  obtain ⟨b1, b2, b3, b4, b5, b6⟩ := h2
  obtain ⟨m1, m2⟩ := sameVars_mergeVars a6 b6
  simp only [mergeInto, merge]
  rw [a5, b5]
  by_cases hd : b.delayed = d.delayed
  · simp only [hd, ne_eq, not_true_eq_false, if_false]
    cases hx : mergeVars a.vars c.vars with
    | mk x1 x2 =>
      cases hy : mergeVars b.vars d.vars with
      | mk y1 y2 =>
        rw [hx, hy] at m1 m2
        simp only at m1 m2
        subst m2
        cases x2 with
        | error e => rfl
        | ok u =>
          simp only [a1, b1]
          split
          · next h =>
            split at h
            · cases h
            · next hc =>
              cases h
              rw [if_neg hc]
              exact ⟨rfl, by simp [a2, b2], a3, a4, rfl, m1⟩
          · next h =>
            split at h
            · next hc => cases h; rw [if_pos hc]; rfl
            · cases h
  · simp [hd]
    rfl

theorem sameDs_loadDataset [DecidableEq P] {st st' : Store P V} (h : SameStore names st st')
    (c : Cfg P V) (p : P) :
    SamePy (SameDs names) (loadDataset c st p) (loadDataset c st' p) := by
  simp only [loadDataset]
  refine (sameDs_openPart h c.delayed c.sel p).bind fun a b hab => ?_
  cases c.imm with
  | none => exact hab
  | some iv =>
    refine (sameDs_openGroup (SameVars.refl names iv) c.delayed c.sel).bind fun x y hxy => ?_
    exact sameDs_mergeInto hab hxy

theorem concatGet_congr {ax : Nat} {l : List (Arr V)} : ∀ {m : List (Arr V)}, l = m →
    concatGet ax l = concatGet ax m := by
  rintro m rfl; rfl

/-- Related arrays: the same shape. -/
def SameShape (a b : Arr V) : Prop := a.shape = b.shape

theorem sameShape_concatenate {ax : Nat} {l m : List (Arr V)} (h : SameList SameShape l m) :
    SamePy SameShape (concatenate ax l) (concatenate ax m) := by
  cases l with
  | nil => cases m with
    | nil => rfl
    | cons _ _ => exact h.elim
  | cons a t =>
    cases m with
    | nil => exact h.elim
    | cons b u =>
      have hs : a.shape = b.shape := h.1
      have hall : ∀ {t u : List (Arr V)}, SameList SameShape t u →
          t.filterMap (·.shape[ax]?) = u.filterMap (·.shape[ax]?) ∧
          ∀ q : List Nat → Prop, (∀ x ∈ t, q x.shape) ↔ (∀ x ∈ u, q x.shape) := by
        intro t
        induction t with
        | nil =>
          intro u h
          cases u with
          | nil => exact ⟨rfl, fun q => Iff.rfl⟩
          | cons _ _ => exact h.elim
        | cons x t ih =>
          intro u h
          cases u with
          | nil => exact h.elim
          | cons y u =>
            have hxy : x.shape = y.shape := h.1
            obtain ⟨i1, i2⟩ := ih h.2
            refine ⟨by simp [List.filterMap_cons, hxy, i1], fun q => ?_⟩
            simp only [List.mem_cons, forall_eq_or_imp, hxy]
            exact and_congr Iff.rfl (i2 q)
      have h1 := (hall h).1
      have h2 := (hall h.2).2 fun s => s.length = b.shape.length ∧
        s.eraseIdx ax = b.shape.eraseIdx ax
      simp only [concatenate, hs]
      rw [h1]
      by_cases hc : ax < b.shape.length ∧
          ∀ x ∈ u, x.shape.length = b.shape.length ∧ x.shape.eraseIdx ax = b.shape.eraseIdx ax
      · rw [if_pos hc, if_pos ⟨hc.1, h2.2 hc.2⟩]
        exact rfl
      · rw [if_neg hc, if_neg fun hx => hc ⟨hx.1, h2.1 hx.2⟩]
        exact rfl

theorem sameList_shapes {l m : List (Var V)} (h : SameVars names l m) :
    SameList SameShape (l.map (·.array)) (m.map (·.array)) := by
  induction l generalizing m with
  | nil => cases m with
    | nil => trivial
    | cons _ _ => exact h.elim
  | cons a t ih =>
    cases m with
    | nil => exact h.elim
    | cons b u => exact ⟨h.1.2.2.2.2.2.1, ih h.2⟩

theorem sameList_arrays {l m : List (Var V)} (h : SameVars names l m)
    (hn : ∀ v ∈ l, v.name ∉ names) : l.map (·.array) = m.map (·.array) := by
  induction l generalizing m with
  | nil => cases m with
    | nil => rfl
    | cons _ _ => exact h.elim
  | cons a t ih =>
    cases m with
    | nil => exact h.elim
    | cons b u =>
      rw [List.map_cons, List.map_cons, h.1.2.2.2.2.2.2 (hn a (by simp)),
        ih h.2 fun v hv => hn v (by simp [hv])]

theorem sameVars_kind {l m : List (Var V)} (h : SameVars names l m) (b : Bool) :
    (∃ o ∈ l, o.delayed ≠ b) ↔ (∃ o ∈ m, o.delayed ≠ b) := by
  induction l generalizing m with
  | nil => cases m with
    | nil => exact Iff.rfl
    | cons _ _ => exact h.elim
  | cons x t ih =>
    cases m with
    | nil => exact h.elim
    | cons y u =>
      simp only [List.mem_cons, exists_eq_or_imp, h.1.2.1]
      exact or_congr Iff.rfl (ih h.2)

theorem sameVar_concatVar {v w : Var V} {l m : List (Var V)} (h : SameVar names v w)
    (hl : SameVars names l m) (hn : ∀ x ∈ l, x.name = v.name) (dim : String) :
    SamePy (SameVar names) (concatVar v l dim) (concatVar w m dim) := by
  have hnil : l = [] ↔ m = [] := by
    cases l <;> cases m <;> simp_all [SameVars]
  simp only [concatVar]
  by_cases h1 : l = []
  · rw [if_pos h1, if_pos (hnil.1 h1)]; rfl
  rw [if_neg h1, if_neg fun hc => h1 (hnil.2 hc)]
  by_cases h2 : ∃ o ∈ l, o.delayed ≠ v.delayed
  · have h2' : ∃ o ∈ m, o.delayed ≠ w.delayed := by
      rw [← h.2.1]; exact (sameVars_kind hl _).1 h2
    rw [if_pos h2, if_pos h2']; rfl
  have h2' : ¬ ∃ o ∈ m, o.delayed ≠ w.delayed := by
    rw [← h.2.1]; exact fun hc => h2 ((sameVars_kind hl _).2 hc)
  rw [if_neg h2, if_neg h2', ← h.2.2.1]
  cases v.dims.idxOf? dim with
  | none => exact h
  | some ax =>
    have hcat := sameShape_concatenate (ax := ax)
      (show SameList SameShape (v.array :: l.map (·.array)) (w.array :: m.map (·.array)) from
        ⟨h.2.2.2.2.2.1, sameList_shapes hl⟩)
    have heq : v.name ∉ names → (v.array :: l.map (·.array)) = (w.array :: m.map (·.array)) := by
      intro hv
      rw [h.2.2.2.2.2.2 hv, sameList_arrays hl fun x hx => by rw [hn x hx]; exact hv]
    cases hx : concatenate ax (v.array :: l.map (·.array)) with
    | error e =>
      cases hy : concatenate ax (w.array :: m.map (·.array)) with
      | error e' =>
        rw [hx, hy] at hcat
        have hcat : e = e' := hcat
        subst hcat
        simp only [hx, hy]
        cases e <;> first | exact h | rfl
      | ok b => rw [hx, hy] at hcat; exact hcat.elim
    | ok a =>
      cases hy : concatenate ax (w.array :: m.map (·.array)) with
      | error e' => rw [hx, hy] at hcat; exact hcat.elim
      | ok b =>
        rw [hx, hy] at hcat
        simp only [hx, hy]
        obtain ⟨a1, a2, a3, a4, a5, a6, a7⟩ := h
        refine ⟨a1, a2, rfl, a4, a5, hcat, fun hv => ?_⟩
        have := heq hv
        rw [this, hy] at hx
        cases hx
        rfl

theorem samePy_getVarE {a b : List (Var V)} (h : SameVars names a b) (n : String) :
    SamePy (fun x y => SameVar names x y ∧ x.name = n) (getVarE a n) (getVarE b n) := by
  unfold getVarE
  rcases h.getVar n with ⟨h1, h2⟩ | ⟨v, w, h1, h2, h3⟩
  · rw [h1, h2]; rfl
  · rw [h1, h2]; exact ⟨h3, (getVar_some _ _ _ h1).2⟩

theorem sameList_kind {l m : List (Dataset V)} (h : SameList (SameDs names) l m) (b : Bool) :
    (∃ o ∈ l, o.delayed ≠ b) ↔ (∃ o ∈ m, o.delayed ≠ b) := by
  induction l generalizing m with
  | nil => cases m with
    | nil => exact Iff.rfl
    | cons _ _ => exact h.elim
  | cons x t ih =>
    cases m with
    | nil => exact h.elim
    | cons y u =>
      simp only [List.mem_cons, exists_eq_or_imp, h.1.2.2.2.2.1]
      exact or_congr Iff.rfl (ih h.2)

theorem sameList_and {α : Type} {R : α → α → Prop} {Q : α → Prop} {l m : List α}
    (h : SameList (fun x y => R x y ∧ Q x) l m) : SameList R l m ∧ ∀ x ∈ l, Q x := by
  induction l generalizing m with
  | nil => cases m with
    | nil => exact ⟨trivial, by simp⟩
    | cons _ _ => exact h.elim
  | cons x t ih =>
    cases m with
    | nil => exact h.elim
    | cons y u =>
      obtain ⟨i1, i2⟩ := ih h.2
      exact ⟨⟨h.1.1, i1⟩, by
        intro z hz
        rcases List.mem_cons.1 hz with rfl | hz
        · exact h.1.2
        · exact i2 z hz⟩

theorem sameDs_concat {a b : Dataset V} {l m : List (Dataset V)} (h : SameDs names a b)
    (hl : SameList (SameDs names) l m) (dim : String) :
    SamePy (SameDs names) (concat a l dim) (concat b m dim) := by
  obtain ⟨a1, a2, a3, a4, a5, a6⟩ := h
  have hnil : l = [] ↔ m = [] := by
    cases l <;> cases m <;> simp_all [SameList]
  simp only [concat]
  by_cases h1 : l = []
  · rw [if_pos h1, if_pos (hnil.1 h1)]; rfl
  rw [if_neg h1, if_neg fun hc => h1 (hnil.2 hc), a5]
  by_cases h2 : ∃ o ∈ l, o.delayed ≠ b.delayed
  · rw [if_pos h2, if_pos ((sameList_kind hl _).1 h2)]; rfl
  rw [if_neg h2, if_neg fun hc => h2 ((sameList_kind hl _).2 hc)]
  refine SamePy.bind (R := SameList (SameVar names))
    (samePy_mapPy2 (sameVars_list.1 a6) fun v w hvw => ?_) fun xs ys hxy => ?_
  · rw [← hvw.1]
    refine SamePy.bind (samePy_mapPy2 hl fun o o' ho => samePy_getVarE ho.2.2.2.2.2 v.name)
      fun ws ws' hws => ?_
    obtain ⟨g1, g2⟩ := sameList_and hws
    exact sameVar_concatVar hvw (sameVars_list.2 g1) g2 dim
  · simp only [derive]
    rw [a2, a3, a4]
    exact sameDs_mk (sameVars_list.2 hxy) _ _ _ _

theorem sameDs_joinGroups {l m : List (Dataset V)} (h : SameList (SameDs names) l m)
    (dim : String) : SamePy (SameDs names) (joinGroups dim l) (joinGroups dim m) := by
  match l, m, h with
  | [], [], _ => rfl
  | [_], [_], h => exact h.1
  | _ :: _ :: _, _ :: _ :: _, h => exact sameDs_concat h.1 h.2 dim
  | [_], _ :: _ :: _, h => exact h.2.elim
  | _ :: _ :: _, [_], h => exact h.2.elim

variable [DecidableEq P]

theorem samePy_calcSlice (dim : String) (p : P) {l m : List (Dataset V)} (ps : List P)
    (h : SameList (SameDs names) l m) (start : Nat) (last : Nat × Nat) :
    calcSlice dim p start last (l.zip ps) = calcSlice dim p start last (m.zip ps) := by
  induction l generalizing m ps start last with
  | nil => cases m with
    | nil => rfl
    | cons _ _ => exact h.elim
  | cons x t ih =>
    cases m with
    | nil => exact h.elim
    | cons y u =>
      cases ps with
      | nil => rfl
      | cons q ps =>
        simp only [List.zip_cons_cons, calcSlice]
        rw [h.1.1]
        split
        · rfl
        · split
          · rfl
          · exact ih ps h.2 _ _

theorem sameDs_loadOverlap {st st' : Store P V} (h : SameStore names st st')
    (c : Cfg P V) (p : P) :
    SamePy (fun x y => SameDs names x.1 y.1 ∧ x.2 = y.2) (loadOverlap c st p)
      (loadOverlap c st' p) := by
  simp only [loadOverlap]
  cases window c.parts c.depth p with
  | error e => rfl
  | ok ps =>
    refine (samePy_mapPy ps fun q => sameDs_openPart h c.delayed c.sel q).bind
      fun gs gs' hgs => ?_
    rw [samePy_calcSlice c.dim p ps hgs]
    cases calcSlice c.dim p 0 (0, 0) (gs'.zip ps) with
    | error e => rfl
    | ok ind =>
      refine SamePy.bind (R := Eq) (x := .ok ind) (y := .ok ind) rfl fun i j hij => ?_
      subst hij
      refine SamePy.bind (sameDs_joinGroups hgs c.dim) fun z z' hzz => ?_
      cases c.imm with
      | none => exact ⟨hzz, rfl⟩
      | some iv =>
        refine SamePy.bind (sameDs_openPart h c.delayed c.sel p) fun o o' ho => ?_
        exact SamePy.bind (sameDs_mergeInto hzz ho) fun x y hxy => ⟨hxy, rfl⟩

theorem trimArray_same {a b : Dataset V} (h : SameDs names a b) (dim : String)
    (ind : Nat × Nat) (n : String) (x : Arr V) :
    trimArray a dim ind n x = trimArray b dim ind n x := by
  unfold trimArray
  rcases h.2.2.2.2.2.getVar n with ⟨h1, h2⟩ | ⟨v, w, h1, h2, h3⟩
  · rw [h1, h2]
  · rw [h1, h2]; simp only [h3.2.2.1]

/-- A callback that ignores some variables gives the same arrays whatever their values. -/
theorem items_same {st st' : Store P V} (h : SameStore names st st') (c : Cfg P V)
    (f : Callback V (Dict V)) (hf : Ignores f names) (p : P) :
    items c f st p = items c f st' p := by
  simp only [items]
  split
  · have hl := sameDs_loadDataset h c p
    cases hx : loadDataset c st p <;> cases hy : loadDataset c st' p <;>
      rw [hx, hy] at hl
    · have hl := show _ = _ from hl
      subst hl; rfl
    · exact hl.elim
    · exact hl.elim
    · simp only [bind, Except.bind, hf _ _ none hl]
  · have hl := sameDs_loadOverlap h c p
    cases hx : loadOverlap c st p <;> cases hy : loadOverlap c st' p <;>
      rw [hx, hy] at hl
    · have hl := show _ = _ from hl
      subst hl; rfl
    · exact hl.elim
    · exact hl.elim
    · next x y =>
      obtain ⟨x1, x2⟩ := x
      obtain ⟨y1, y2⟩ := y
      obtain ⟨h1, h2⟩ := hl
      simp only at h1 h2
      subst h2
      simp only [bind, Except.bind, hf _ _ _ h1, trimArray_same h1]

/-- Without overlap, the arrays to write depend on the partition only. -/
theorem items_local {st st' : Store P V} (c : Cfg P V) (hc : c.depth = 0)
    (f : Callback V (Dict V)) (p : P) (h : st p = st' p) :
    items c f st p = items c f st' p := by
  simp only [items, hc, if_true, loadDataset, openPart, h]

end Verif
