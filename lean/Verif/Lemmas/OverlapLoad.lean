import Verif.Lemmas.Overlap
import Verif.Spec.Overlap

/-! Helper lemmas: loads with overlap succeed on uniform partitions. -/

namespace Verif

open Spec Nd Ds Upd

variable {P V : Type}

theorem mapPy_exists {α β : Type} (f : α → Py β) (l : List α)
    (h : ∀ x ∈ l, ∃ y, f x = .ok y) : ∃ r, mapPy f l = .ok r := by
  induction l with
  | nil => exact ⟨[], rfl⟩
  | cons x t ih =>
    obtain ⟨y, hy⟩ := h x (by simp)
    obtain ⟨r, hr⟩ := ih fun z hz => h z (by simp [hz])
    exact ⟨y :: r, by simp only [mapPy, bind, Except.bind, hy, hr]⟩

theorem lookup_sizes (l : List String) (size : String → Nat) (d : String) :
    (l.map fun d => (d, size d)).lookup d = if d ∈ l then some (size d) else none := by
  induction l with
  | nil => simp
  | cons e t ih =>
    rw [List.map_cons, lookup_cons, ih]
    by_cases h : d = e
    · subst h; simp
    · simp [h]

/-- A dataset of variables whose shapes are given by the sizes of the dimensions. -/
theorem mk_sized (vars : List (Var V)) (attrs : List (String × String))
    (chunks : List (String × Nat)) (limit : Nat) (b : Bool) (size : String → Nat)
    (hn : (vars.map (·.name)).Nodup) (hk : ∀ v ∈ vars, v.delayed = b)
    (h : ∀ v ∈ vars, v.array.shape = v.dims.map size) :
    ∃ dims, mk vars attrs chunks limit (some b) =
      .ok { dims, vars, attrs, chunks, limit, delayed := b } ∧
      ∀ d n, dims.lookup d = some n → d ∈ vars.flatMap (·.dims) ∧ n = size d := by
  obtain ⟨dims, h1, h2⟩ := mk_ok vars attrs chunks limit b
    ((vars.flatMap (·.dims)).map fun d => (d, size d)) hn hk (by
      intro v hv i d hd
      refine ⟨size d, by rw [h v hv, List.getElem?_map, hd]; rfl, ?_⟩
      rw [lookup_sizes, if_pos]
      exact List.mem_flatMap.2 ⟨v, hv, List.mem_of_getElem? hd⟩)
  refine ⟨dims, h1, fun d n hd => ?_⟩
  have := h2 d n hd
  rw [lookup_sizes] at this
  split at this
  · next hm => exact ⟨hm, by simpa using this.symm⟩
  · cases this

/-- Opening a partition succeeds. -/
theorem openPart_ok {dim : String} {size : P → Nat} {other : String → Nat} {st : Store P V}
    (hu : Uniform dim size other st) (del : Bool) (sel : Option (List String)) {q : P}
    {vars : List (Var V)} (hq : st q = some vars) :
    ∃ g, openPart del sel st q = .ok g ∧
      (∀ w ∈ g.vars, w.array.shape = w.dims.map fun d => if d = dim then size q else other d) ∧
      ∀ d n, g.dims.lookup d = some n → n = if d = dim then size q else other d := by
  have key : ∀ L : List (Var V), (∀ w ∈ L, ∃ v ∈ vars, w = { v with delayed := del }) →
      (L.map (·.name)).Nodup → ∃ g, mk L [] [] 0 (some del) = .ok g ∧
      (∀ w ∈ g.vars, w.array.shape = w.dims.map fun d => if d = dim then size q else other d) ∧
      ∀ d n, g.dims.lookup d = some n → n = if d = dim then size q else other d := by
    intro L hL hn
    have hs : ∀ w ∈ L,
        w.array.shape = w.dims.map fun d => if d = dim then size q else other d := by
      intro w hw
      obtain ⟨v, hv, rfl⟩ := hL w hw
      exact hu.shapes q vars hq v hv
    obtain ⟨dims, h1, h2⟩ := mk_sized L [] [] 0 del
      (fun d => if d = dim then size q else other d) hn
      (fun w hw => by obtain ⟨v, _, rfl⟩ := hL w hw; rfl) hs
    exact ⟨_, h1, hs, fun d n hd => (h2 d n hd).2⟩
  unfold openPart
  rw [hq]
  refine key _ ?_ ?_
  · intro w hw
    obtain ⟨v, hv, rfl⟩ := List.mem_map.1 hw
    exact ⟨v, (List.mem_filter.1 hv).1, rfl⟩
  · rw [List.map_map]
    exact (List.Sublist.map _ List.filter_sublist).nodup (hu.good.1 q vars hq).1

/-- Shapes that agree outside an axis. -/
theorem erase_sizes (dims : List String) (hnd : dims.Nodup) (dim : String) (ax : Nat)
    (hax : dims[ax]? = some dim) (m n : Nat) (other : String → Nat) :
    (dims.map fun d => if d = dim then m else other d).eraseIdx ax =
      (dims.map fun d => if d = dim then n else other d).eraseIdx ax := by
  induction dims generalizing ax with
  | nil => rfl
  | cons d t ih =>
    rw [List.nodup_cons] at hnd
    cases ax with
    | zero =>
      simp only [List.getElem?_cons_zero, Option.some.injEq] at hax
      subst hax
      simp only [List.map_cons, List.eraseIdx_cons_zero]
      apply List.map_congr_left
      intro e he
      have : e ≠ d := by rintro rfl; exact hnd.1 he
      simp [this]
    | succ ax =>
      simp only [List.map_cons, List.eraseIdx_cons_succ]
      have : d ≠ dim := by
        rintro rfl
        exact hnd.1 (List.mem_of_getElem? (by simpa using hax))
      rw [if_neg this, if_neg this, ih hnd.2 ax (by simpa using hax)]

theorem set_sizes (dims : List String) (hnd : dims.Nodup) (dim : String) (ax : Nat)
    (hax : dims[ax]? = some dim) (m n : Nat) (other : String → Nat) :
    (dims.map fun d => if d = dim then m else other d).set ax n =
      dims.map fun d => if d = dim then n else other d := by
  induction dims generalizing ax with
  | nil => rfl
  | cons d t ih =>
    rw [List.nodup_cons] at hnd
    cases ax with
    | zero =>
      simp only [List.getElem?_cons_zero, Option.some.injEq] at hax
      subst hax
      simp only [List.map_cons, List.set_cons_zero, if_true]
      congr 1
      apply List.map_congr_left
      intro e he
      have : e ≠ d := by rintro rfl; exact hnd.1 he
      simp [this]
    | succ ax =>
      simp only [List.map_cons, List.set_cons_succ]
      have : d ≠ dim := by
        rintro rfl
        exact hnd.1 (List.mem_of_getElem? (by simpa using hax))
      rw [if_neg this, if_neg this, ih hnd.2 ax (by simpa using hax)]

/-- Arrays whose shapes agree outside an axis are concatenated. -/
theorem concatenate_sizes {ax : Nat} {dim : String} {dims : List String} (hnd : dims.Nodup)
    (hax : dims[ax]? = some dim) (other : String → Nat) (arrays : List (Arr V))
    (sizes : List Nat) (hne : arrays ≠ []) (hlen : arrays.length = sizes.length)
    (h : ∀ (i : Nat) a n, arrays[i]? = some a → sizes[i]? = some n →
      a.shape = dims.map fun d => if d = dim then n else other d) :
    concatenate ax arrays = .ok
      { shape := dims.map fun d => if d = dim then sizes.sum else other d
        get := concatGet ax arrays } := by
  have hsum : arrays.filterMap (·.shape[ax]?) = sizes := by
    clear hne
    induction arrays generalizing sizes with
    | nil => cases sizes with
      | nil => rfl
      | cons _ _ => simp at hlen
    | cons a t ih =>
      cases sizes with
      | nil => simp at hlen
      | cons n u =>
        have h0 := h 0 a n rfl rfl
        have : a.shape[ax]? = some n := by rw [h0, List.getElem?_map, hax]; simp
        rw [List.filterMap_cons, this]
        simp only
        rw [ih u (by simpa using hlen) fun i a' n' h1 h2 => h (i + 1) a' n' (by simpa using h1)
          (by simpa using h2)]
  cases arrays with
  | nil => exact absurd rfl hne
  | cons a t =>
    cases sizes with
    | nil => simp at hlen
    | cons n u =>
      have h0 := h 0 a n rfl rfl
      simp only [concatenate]
      rw [if_pos, hsum]
      · rw [h0, set_sizes dims hnd dim ax hax]
      · refine ⟨by rw [h0, List.length_map]; exact (List.getElem?_eq_some_iff.1 hax).1, ?_⟩
        intro b hb
        obtain ⟨i, hi⟩ := List.getElem?_of_mem hb
        have hlt : i < u.length := by
          simp only [List.length_cons, Nat.add_right_cancel_iff] at hlen
          rw [← hlen]; exact (List.getElem?_eq_some_iff.1 hi).1
        have hb' := h (i + 1) b u[i] (by simpa using hi)
          (by simp)
        rw [hb', h0]
        exact ⟨by simp, erase_sizes dims hnd dim ax hax _ _ other⟩

theorem idxOf?_of_nodup {dims : List String} (hnd : dims.Nodup) {ax : Nat} {d : String}
    (h : dims[ax]? = some d) : dims.idxOf? d = some ax := by
  cases hi : dims.idxOf? d with
  | none =>
    exact absurd (List.mem_of_getElem? h) (idxOf?_none.1 hi)
  | some j =>
    have hj := idxOf?_getElem hi
    obtain ⟨h1, h2⟩ := List.getElem?_eq_some_iff.1 h
    obtain ⟨h3, h4⟩ := List.getElem?_eq_some_iff.1 hj
    congr 1
    exact (List.getElem_inj hnd).1 (h4.trans h2.symm)

/-- Joining groups whose variables agree succeeds. -/
theorem joinGroups_ok {dim : String} {other : String → Nat} {b : Bool}
    (groups : List (Dataset V)) (sizes : List Nat) (hne : groups ≠ [])
    (hlen : groups.length = sizes.length) (hcons : ∀ g ∈ groups, Consistent g)
    (hdel : ∀ g ∈ groups, g.delayed = b) (hdims : ∀ g ∈ groups, ∀ w ∈ g.vars, w.dims.Nodup)
    (hsame : ∀ g ∈ groups, ∀ g' ∈ groups, ∀ w ∈ g.vars, ∃ w' ∈ g'.vars,
      w'.name = w.name ∧ w'.dims = w.dims)
    (hshape : ∀ (i : Nat) g n, groups[i]? = some g → sizes[i]? = some n → ∀ w ∈ g.vars,
      w.array.shape = w.dims.map fun d => if d = dim then n else other d) :
    ∃ zds, joinGroups dim groups = .ok zds ∧ ∀ v ∈ zds.vars,
      v.array.shape = v.dims.map fun d => if d = dim then sizes.sum else other d := by
  match groups, hne with
  | [], hne => exact absurd rfl hne
  | [g], _ =>
    refine ⟨g, rfl, ?_⟩
    match sizes, hlen with
    | [n], _ =>
      intro v hv
      simpa using hshape 0 g n rfl rfl v hv
  | g :: o :: rest, _ =>
    simp only [joinGroups, concat]
    rw [if_neg (by simp), if_neg (by
      rintro ⟨x, hx, hxd⟩
      exact hxd (by rw [hdel x (List.mem_cons_of_mem _ hx), hdel g (by simp)]))]
    have hvar : ∀ v ∈ g.vars, ∃ v', (do
        let ws ← mapPy (fun o : Dataset V => getVarE o.vars v.name) (o :: rest)
        concatVar v ws dim) = .ok v' ∧ v'.name = v.name ∧ v'.delayed = b ∧
        v'.array.shape = v'.dims.map fun d => if d = dim then sizes.sum else other d := by
      intro v hv
      obtain ⟨ws, hws⟩ := mapPy_exists (fun o : Dataset V => getVarE o.vars v.name) (o :: rest)
        (by
          intro x hx
          obtain ⟨w, hw, hwn, _⟩ := hsame g (by simp) x (List.mem_cons_of_mem _ hx) v hv
          refine ⟨w, ?_⟩
          unfold getVarE
          rw [← hwn, getVar_of_mem x.vars (hcons x (List.mem_cons_of_mem _ hx)).names w hw])
      obtain ⟨hwl, hwsp⟩ := mapPy_spec _ _ _ hws
      have hw : ∀ (i : Nat) w, ws[i]? = some w → ∃ x ∈ o :: rest, (o :: rest)[i]? = some x ∧
          w ∈ x.vars ∧ w.dims = v.dims := by
        intro i w hi
        have hlt : i < (o :: rest).length := by
          rw [← hwl]; exact (List.getElem?_eq_some_iff.1 hi).1
        obtain ⟨w', e1, e2⟩ := hwsp i _ (List.getElem?_eq_getElem hlt)
        rw [hi] at e1
        cases e1
        have hx := List.getElem_mem hlt
        refine ⟨_, hx, List.getElem?_eq_getElem hlt, ?_⟩
        unfold getVarE at e2
        split at e2
        · cases e2
        · next w'' hw'' =>
          cases e2
          obtain ⟨k1, k2⟩ := getVar_some _ _ _ hw''
          refine ⟨k1, ?_⟩
          obtain ⟨y, hy, hyn, hyd⟩ := hsame g (by simp) _ (List.mem_cons_of_mem _ hx) v hv
          have hyw := getVar_of_mem _ (hcons _ (List.mem_cons_of_mem _ hx)).names y hy
          rw [hyn, hw''] at hyw
          cases hyw
          exact hyd
      have hwsne : ws ≠ [] := by
        rintro rfl
        simp at hwl
      simp only [bind, Except.bind, hws, concatVar]
      rw [if_neg hwsne, if_neg (by
        rintro ⟨w, hwm, hwd⟩
        obtain ⟨i, hi⟩ := List.getElem?_of_mem hwm
        obtain ⟨x, hx, _, hwx, _⟩ := hw i w hi
        refine hwd ?_
        rw [(hcons x (List.mem_cons_of_mem _ hx)).kind w hwx,
          hdel x (List.mem_cons_of_mem _ hx), (hcons g (by simp)).kind v hv, hdel g (by simp)])]
      have hvd : v.delayed = b := by rw [(hcons g (by simp)).kind v hv, hdel g (by simp)]
      have hn0 : 0 < sizes.length := by rw [← hlen]; simp
      have hv0 := hshape 0 g sizes[0] rfl (List.getElem?_eq_getElem hn0) v hv
      cases hax : v.dims.idxOf? dim with
      | none =>
        refine ⟨v, rfl, rfl, hvd, ?_⟩
        rw [hv0]
        apply List.map_congr_left
        intro d hd
        have : d ≠ dim := by
          rintro rfl
          exact (idxOf?_none.1 hax) hd
        simp [this]
      | some ax =>
        simp only
        have hvax := idxOf?_getElem hax
        rw [concatenate_sizes (hdims g (by simp) v hv) hvax other
          (v.array :: ws.map (·.array)) sizes (by simp) (by simp [hwl, ← hlen]) (by
            intro i a n hi hn
            cases i with
            | zero =>
              simp only [List.getElem?_cons_zero, Option.some.injEq] at hi
              subst hi
              exact hshape 0 g n rfl hn v hv
            | succ i =>
              simp only [List.getElem?_cons_succ, List.getElem?_map, Option.map_eq_some_iff] at hi
              obtain ⟨w, hwi, rfl⟩ := hi
              obtain ⟨x, hx, hxi, hwx, hwd⟩ := hw i w hwi
              rw [← hwd]
              exact hshape (i + 1) x n (by simpa using hxi) hn w hwx)]
        exact ⟨_, rfl, rfl, hvd, rfl⟩
    obtain ⟨vars, hvars⟩ := mapPy_exists _ g.vars fun v hv => by
      obtain ⟨v', h1, _⟩ := hvar v hv
      exact ⟨v', h1⟩
    obtain ⟨hl, hsp⟩ := mapPy_spec _ _ _ hvars
    have hmem : ∀ v' ∈ vars, v'.delayed = b ∧
        v'.array.shape = v'.dims.map fun d => if d = dim then sizes.sum else other d := by
      intro v' hv'
      obtain ⟨v, hv, he⟩ := mapPy_mem _ _ _ hvars v' hv'
      obtain ⟨v'', h1, _, h3, h4⟩ := hvar v hv
      rw [h1] at he
      cases he
      exact ⟨h3, h4⟩
    have hnames : vars.map (·.name) = g.vars.map (·.name) := by
      apply List.ext_getElem?
      intro i
      rw [List.getElem?_map, List.getElem?_map]
      cases hi : g.vars[i]? with
      | none =>
        rw [List.getElem?_eq_none_iff] at hi
        rw [List.getElem?_eq_none (by omega)]
      | some v =>
        obtain ⟨v', e1, e2⟩ := hsp i v hi
        obtain ⟨v'', h1, h2, _⟩ := hvar v (List.mem_of_getElem? hi)
        rw [h1] at e2
        cases e2
        rw [e1]
        simp [h2]
    obtain ⟨dims, hmk, _⟩ := mk_sized vars g.attrs g.chunks g.limit b
      (fun d => if d = dim then sizes.sum else other d)
      (by rw [hnames]; exact (hcons g (by simp)).names) (fun v hv => (hmem v hv).1)
      (fun v hv => (hmem v hv).2)
    refine ⟨{ dims, vars, attrs := g.attrs, chunks := g.chunks, limit := g.limit, delayed := b },
      ?_, fun v hv => (hmem v hv).2⟩
    simp only [bind, Except.bind] at hvars ⊢
    rw [hvars]
    simp only [derive, hdel g (by simp)]
    exact hmk

/-! ### Merging -/

theorem mergeVars_fresh (vars : List (Var V)) (l : List (Var V))
    (hnd : (l.map (·.name)).Nodup) (hd : ∀ v ∈ vars, ∀ w ∈ l, w.name ≠ v.name) :
    mergeVars vars l = (vars ++ l, .ok ()) := by
  induction l generalizing vars with
  | nil => simp [mergeVars]
  | cons w t ih =>
    simp only [List.map_cons, List.nodup_cons] at hnd
    have hnone : getVar vars w.name = none := by
      rw [getVar_none]
      intro hm
      obtain ⟨v, hv, hvn⟩ := List.mem_map.1 hm
      exact hd v hv w (by simp) hvn.symm
    simp only [mergeVars, hnone, Option.isSome_none, Bool.false_eq_true, if_false]
    rw [ih (vars ++ [w]) hnd.2 (by
      intro v hv x hx
      rcases List.mem_append.1 hv with hv | hv
      · exact hd v hv x (by simp [hx])
      · simp only [List.mem_singleton] at hv
        subst hv
        intro he
        exact hnd.1 (List.mem_map.2 ⟨x, hx, he⟩))]
    simp

theorem mergeVars_conflict (vars l vs : List (Var V))
    (h : mergeVars vars l = (vs, .ok ())) : ∀ w ∈ l, ∀ v ∈ vars, v.name ≠ w.name := by
  induction l generalizing vars with
  | nil => simp
  | cons x t ih =>
    simp only [mergeVars] at h
    split at h
    · simp at h
    · next hx =>
      have h2 := ih _ h
      intro w hw v hv he
      rcases List.mem_cons.1 hw with rfl | hw
      · apply hx
        rw [getVar_isSome]
        exact List.mem_map.2 ⟨v, hv, he⟩
      · exact h2 w hw v (by simp [hv]) he

theorem mergeInto_names {z o r : Dataset V} (h : mergeInto z o = .ok r) :
    ∀ w ∈ o.vars, ∀ v ∈ z.vars, v.name ≠ w.name := by
  unfold mergeInto Ds.merge at h
  split at h
  · next r' heq =>
    split at heq
    · cases heq
    · split at heq
      · cases heq
      · next vs hvs => exact mergeVars_conflict _ _ _ hvs
  · cases h

theorem openPart_dims_nil {del : Bool} {sel : Option (List String)} {st : Store P V} {q : P}
    {g : Dataset V} (h : openPart del sel st q = .ok g) (hv : g.vars = []) : g.dims = [] := by
  unfold openPart at h
  cases hs : st q with
  | none => rw [hs] at h; cases h
  | some vars =>
    rw [hs] at h
    simp only [openGroup, mk, bind, Except.bind] at h
    split at h
    · cases h
    · next r hr =>
      obtain ⟨dims, dl⟩ := r
      cases h
      simp only at hv ⊢
      rw [hv] at hr
      simp only [updateDims] at hr
      cases hr
      rfl

end Verif
