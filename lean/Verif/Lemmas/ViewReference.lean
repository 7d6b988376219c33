import Verif.Spec.ViewReference
import Verif.Props.ViewLoad

/-! Lemmas about what a view shows of its reference. -/

namespace Verif

open Spec Nd Ds Upd Vw

variable {D P V H : Type}

theorem mapPy_getVar {f : Var V → Py (Var V)} (hf : ∀ v w, f v = .ok w → w.name = v.name)
    {l r : List (Var V)} (h : mapPy f l = .ok r) (n : String) :
    (getVar l n = none ∧ getVar r n = none) ∨
    ∃ v w, getVar l n = some v ∧ getVar r n = some w ∧ f v = .ok w := by
  induction l generalizing r with
  | nil => simp only [mapPy] at h; cases h; exact .inl ⟨rfl, rfl⟩
  | cons v t ih =>
    simp only [mapPy, bind, Except.bind] at h
    split at h
    · cases h
    · next w hw =>
      split at h
      · cases h
      · next ws hws =>
        cases h
        rw [getVar_cons, getVar_cons, hf v w hw]
        by_cases hn : v.name = n
        · rw [if_pos hn, if_pos hn]; exact .inr ⟨v, w, rfl, rfl, hw⟩
        · rw [if_neg hn, if_neg hn]; exact ih hws

theorem concatVar_name {v w : Var V} {l : List (Var V)} {dim : String}
    (h : concatVar v l dim = .ok w) : w.name = v.name := by
  unfold concatVar at h
  split at h
  · cases h
  · split at h
    · cases h
    · split at h
      · cases h; rfl
      · split at h
        · cases h; rfl
        · cases h; rfl
        · cases h

theorem mapPy_names {f : Var V → Py (Var V)} (hf : ∀ v w, f v = .ok w → w.name = v.name)
    {l r : List (Var V)} (h : mapPy f l = .ok r) : r.map (·.name) = l.map (·.name) := by
  induction l generalizing r with
  | nil => simp only [mapPy] at h; cases h; rfl
  | cons v t ih =>
    simp only [mapPy, bind, Except.bind] at h
    split at h
    · cases h
    · next w hw =>
      split at h
      · cases h
      · next ws hws =>
        cases h
        rw [List.map_cons, List.map_cons, ih hws, hf v w hw]

theorem mk_vars_of_nodup {vars : List (Var V)} {attrs chunks limit del} {ds : Dataset V}
    (hn : (vars.map (·.name)).Nodup) (h : mk vars attrs chunks limit del = .ok ds) :
    ds.vars = vars := by
  rw [(mk_spec _ _ _ _ _ _ h).2.1, foldl_setVar_id _ [] (by simpa using hn)]
  rfl

/-- The variables of joined datasets, one name at a time. -/
theorem joinGroups_getVar {dim : String} {n : String} : ∀ {gs hs : List (Dataset V)}
    {z y : Dataset V}, gs.map (fun g => getVar g.vars n) = hs.map (fun g => getVar g.vars n) →
    (∀ g ∈ gs, (g.vars.map (·.name)).Nodup) → (∀ g ∈ hs, (g.vars.map (·.name)).Nodup) →
    joinGroups dim gs = .ok z → joinGroups dim hs = .ok y → getVar z.vars n = getVar y.vars n
  | [], _, z, y, _, _, _, h, _ => by simp only [joinGroups] at h; cases h
  | _ :: _, [], z, y, _, _, _, _, h => by simp only [joinGroups] at h; cases h
  | [g], [h], z, y, e, _, _, hz, hy => by
    simp only [joinGroups] at hz hy
    cases hz; cases hy
    simpa using e
  | [g], h :: h' :: t, _, _, e, _, _, _, _ => by simp at e
  | g :: g' :: t, [h], _, _, e, _, _, _, _ => by simp at e
  | g :: g' :: t, h :: h' :: u, z, y, e, ng, nh, hz, hy => by
    have key : ∀ {a : Dataset V} {l : List (Dataset V)} {z : Dataset V},
        (a.vars.map (·.name)).Nodup → concat a l dim = .ok z →
        (getVar a.vars n = none ∧ getVar z.vars n = none) ∨ ∃ v w ws, getVar a.vars n = some v ∧
          getVar z.vars n = some w ∧ mapPy (fun o => getVarE o.vars n) l = .ok ws ∧
          concatVar v ws dim = .ok w := by
      intro a l z ha hc
      unfold concat at hc
      split at hc
      · cases hc
      split at hc
      · cases hc
      simp only [bind, Except.bind] at hc
      split at hc
      · cases hc
      next vars hv =>
      have hname : ∀ v w : Var V, (do
          let ws ← mapPy (fun o => getVarE o.vars v.name) l
          concatVar v ws dim : Py (Var V)) = .ok w → w.name = v.name := by
        intro v w hw
        simp only [bind, Except.bind] at hw
        split at hw
        · cases hw
        · exact concatVar_name hw
      have hnames := mapPy_names hname hv
      have hzv : z.vars = vars := mk_vars_of_nodup (by rw [hnames]; exact ha) hc
      rw [hzv]
      rcases mapPy_getVar hname hv n with h1 | ⟨v, w, h1, h2, h3⟩
      · exact .inl h1
      · have hvn := (getVar_some _ _ _ h1).2
        rw [hvn] at h3
        simp only [bind, Except.bind] at h3
        split at h3
        · cases h3
        · next ws hws => exact .inr ⟨v, w, ws, h1, h2, hws, h3⟩
    have hws : ∀ (l m : List (Dataset V)), l.map (fun g => getVar g.vars n) =
        m.map (fun g => getVar g.vars n) →
        mapPy (fun o => getVarE o.vars n) l = mapPy (fun o => getVarE o.vars n) m := by
      intro l
      induction l with
      | nil => intro m hm; cases m with
        | nil => rfl
        | cons _ _ => simp at hm
      | cons a t ih => intro m hm; cases m with
        | nil => simp at hm
        | cons b u =>
          simp only [List.map_cons, List.cons.injEq] at hm
          have := ih u hm.2
          simp only [mapPy, getVarE, bind, Except.bind, hm.1] at this ⊢
          rw [this]
    simp only [List.map_cons, List.cons.injEq] at e
    have hz' := key (ng g (by simp)) hz
    have hy' := key (nh h (by simp)) hy
    have hw := hws (g' :: t) (h' :: u) (by simp only [List.map_cons, e.2.1, e.2.2])
    rcases hz' with ⟨a1, a2⟩ | ⟨v, w, ws, a1, a2, a3, a4⟩
    · rcases hy' with ⟨b1, b2⟩ | ⟨v', w', ws', b1, b2, b3, b4⟩
      · rw [a2, b2]
      · rw [e.1, b1] at a1; cases a1
    · rcases hy' with ⟨b1, b2⟩ | ⟨v', w', ws', b1, b2, b3, b4⟩
      · rw [e.1, b1] at a1; cases a1
      · rw [e.1, b1] at a1; cases a1
        rw [hw, b3] at a3; cases a3
        rw [b4] at a4; cases a4
        rw [a2, b2]

theorem addArray_vars {v : Var V} {zds z : Dataset V} (hz : addArray zds v = .ok z) :
    z.vars = setVar zds.vars ⟨v.name, zds.delayed, v.dims, v.array, v.fill, v.props⟩ := by
  unfold addArray Ds.addVariable at hz
  simp only at hz
  split at hz
  · next r hr =>
    split at hr
    · cases hr
    · split at hr
      · cases hr
      · next a ha =>
        split at ha
        · cases ha
        · cases ha
          cases hz
          cases hr
          rfl
  · cases hz

theorem addArrays_getVar {W : List (Var V)} {zds g : Dataset V} (h : addArrays zds W = .ok g)
    (n : String) (hn : n ∉ W.map (·.name)) : getVar g.vars n = getVar zds.vars n := by
  induction W generalizing zds with
  | nil => simp only [addArrays] at h; cases h; rfl
  | cons v t ih =>
    simp only [addArrays, bind, Except.bind] at h
    split at h
    · cases h
    · next z hz =>
      simp only [List.map_cons, List.mem_cons, not_or] at hn
      rw [ih h hn.2]
      have hvars := addArray_vars hz
      rw [hvars, getVar_setVar, if_neg (fun e => hn.1 e.symm)]

theorem addArrays_nodup {W : List (Var V)} {zds g : Dataset V} (h : addArrays zds W = .ok g)
    (hn : (zds.vars.map (·.name)).Nodup) : (g.vars.map (·.name)).Nodup := by
  induction W generalizing zds with
  | nil => simp only [addArrays] at h; cases h; exact hn
  | cons v t ih =>
    simp only [addArrays, bind, Except.bind] at h
    split at h
    · cases h
    · next z hz =>
      refine ih h ?_
      rw [addArray_vars hz]
      exact setVar_nodup _ _ hn

theorem openArrays_names {del : Bool} {part : Option (Part V H)} {names : List String}
    {W : List (Var V)} (h : mapPy (openArray del part) names = .ok W) : W.map (·.name) = names := by
  induction names generalizing W with
  | nil => simp only [mapPy] at h; cases h; rfl
  | cons n t ih =>
    simp only [mapPy, bind, Except.bind] at h
    split at h
    · cases h
    · next v hv =>
      split at h
      · cases h
      · next ws hws =>
        cases h
        rw [List.map_cons, ih hws]
        congr 1
        unfold openArray at hv
        split at hv
        · cases hv
        · simp only [bind, Except.bind, getVarE] at hv
          split at hv
          · cases hv
          · next v' hv' =>
            split at hv'
            · cases hv'
            · next w hw => cases hv'; cases hv; exact (getVar_some _ _ _ hw).2

/-- The dataset of a partition and the one of the reference have the same variables of the
reference. -/
theorem loadOne_ref {e : Env D V H} {st : State D P V H} (hr : RefParts e st) {del : Bool}
    {sel : Option (List String)} {p : P} {g o : Dataset V}
    (hg : loadOne e del (selectNames e.refMeta sel) (selectNames st.metas sel)
      (st.files e.refDir p) (st.files e.base p) [] = .ok g)
    (ho : openPart del sel (refStore e st) p = .ok o) :
    (g.vars.map (·.name)).Nodup ∧ (o.vars.map (·.name)).Nodup ∧
    ∀ n, n ∉ st.metas.map (·.name) → getVar g.vars n = getVar o.vars n := by
  unfold loadOne at hg
  unfold openPart refStore at ho
  cases hf : st.files e.refDir p with
  | none => rw [hf] at ho; simp at ho
  | some r =>
    simp only [hf, Option.map_some, bind, Except.bind] at hg ho
    have hsame : openGroup del (some (selectNames e.refMeta sel)) r.vars =
        openGroup del sel r.vars := by
      unfold openGroup
      congr 2
      apply List.filter_congr
      intro v hv
      obtain ⟨m, hm, hmn⟩ := (hr.refs p r hf v hv).1
      rw [Bool.eq_iff_iff]
      simp only [decide_eq_true_eq]
      rw [mem_selectNames]
      cases sel with
      | none => simp only [iff_true]; exact ⟨⟨m, hm, hmn⟩, fun l hl => by cases hl⟩
      | some l =>
        simp only [decide_eq_true_eq]
        constructor
        · rintro ⟨_, h⟩; exact h l rfl
        · intro h; exact ⟨⟨m, hm, hmn⟩, fun l' hl => by cases hl; exact h⟩
    rw [hsame, ho] at hg
    simp only at hg
    have hcon := (mk_spec _ _ _ _ _ _ ho).1
    split at hg
    · next hd =>
      have hnil : o.vars = [] := by
        cases hv : o.vars with
        | nil => rfl
        | cons v t =>
          have hvm : v ∈ o.vars := by rw [hv]; exact List.mem_cons_self
          have := mk_names ho v hvm
          obtain ⟨w, hw, rfl⟩ := List.mem_map.1 this
          have hdims := (hr.refs p r hf w (List.mem_filter.1 hw).1).2
          obtain ⟨d, ds, hds⟩ := List.exists_cons_of_ne_nil hdims
          obtain ⟨k, _, e2⟩ := hcon.sizes _ hvm 0 d (by simp [hds])
          rw [hd] at e2
          simp at e2
      split at hg
      · cases hg
      · next W hW =>
        have hc2 := (mk_spec _ _ _ _ _ _ hg).1
        refine ⟨hc2.names, hcon.names, fun n hn => ?_⟩
        rw [hnil]
        show _ = none
        rw [getVar_none]
        intro hm
        obtain ⟨v, hv, rfl⟩ := List.mem_map.1 hm
        have hv' := mk_names hg v hv
        have : v.name ∈ W.map (·.name) := List.mem_map_of_mem hv'
        rw [openArrays_names hW] at this
        obtain ⟨⟨m, hm, hmn⟩, _⟩ := (mem_selectNames _ _ _).1 this
        exact hn (List.mem_map.2 ⟨m, hm, hmn⟩)
    · split at hg
      · cases hg
      · next W hW =>
        split at hg
        · cases hg
        · next z hz =>
          simp only [if_true] at hg
          cases hg
          refine ⟨addArrays_nodup hz hcon.names, hcon.names, fun n hn => ?_⟩
          refine addArrays_getVar hz n ?_
          rw [openArrays_names hW]
          intro hm
          obtain ⟨⟨m, hm, hmn⟩, _⟩ := (mem_selectNames _ _ _).1 hm
          exact hn (List.mem_map.2 ⟨m, hm, hmn⟩)

end Verif
