import Verif.Lemmas.Joined
import Verif.Model.Load
import Verif.Spec.Load

/-! Lemmas about loads. -/

namespace Verif

open Spec Nd Ds Upd

variable {P V : Type}

/-! ### The dimensions of a dataset come from its variables -/

/-- Each dimension is a dimension of a variable. -/
def DimsFrom (ds : Dataset V) : Prop :=
  ∀ d n, (d, n) ∈ ds.dims → ∃ v ∈ ds.vars, ∃ i : Nat, v.dims[i]? = some d ∧
    v.array.shape[i]? = some n

theorem addDims_mem (l : List String) (shape : List Nat) (dims dims' : List (String × Nat))
    (h : addDims dims l shape = .ok dims') (d : String) (n : Nat) (hd : (d, n) ∈ dims') :
    (d, n) ∈ dims ∨ ∃ i : Nat, l[i]? = some d ∧ shape[i]? = some n := by
  induction l generalizing shape dims with
  | nil => simp only [addDims] at h; cases h; exact .inl hd
  | cons e t ih =>
    cases shape with
    | nil => simp only [addDims] at h; cases h
    | cons m shape =>
      simp only [addDims] at h
      split at h
      · rcases ih shape _ h with hm | ⟨i, h1, h2⟩
        · rcases List.mem_append.1 hm with hm | hm
          · exact .inl hm
          · cases List.mem_singleton.1 hm
            exact .inr ⟨0, rfl, rfl⟩
        · exact .inr ⟨i + 1, h1, h2⟩
      · split at h
        · cases h
        · rcases ih shape _ h with hm | ⟨i, h1, h2⟩
          · exact .inl hm
          · exact .inr ⟨i + 1, h1, h2⟩

theorem updateDims_mem (vars : List (Var V)) (dims dims' : List (String × Nat))
    (del del' : Option Bool) (h : updateDims dims del vars = .ok (dims', del')) (d : String)
    (n : Nat) (hd : (d, n) ∈ dims') : (d, n) ∈ dims ∨ ∃ v ∈ vars, ∃ i : Nat,
      v.dims[i]? = some d ∧ v.array.shape[i]? = some n := by
  induction vars generalizing dims del with
  | nil => simp only [updateDims] at h; cases h; exact .inl hd
  | cons v t ih =>
    have key : ∀ (b : Bool) dims1, addDims dims v.dims v.array.shape = .ok dims1 →
        updateDims dims1 (some b) t = .ok (dims', del') →
        (d, n) ∈ dims ∨ ∃ w ∈ v :: t, ∃ i : Nat, w.dims[i]? = some d ∧
          w.array.shape[i]? = some n := by
      intro b dims1 h1 h
      rcases ih _ _ h with hm | ⟨w, hw, hx⟩
      · rcases addDims_mem _ _ _ _ h1 d n hm with hm | hm
        · exact .inl hm
        · exact .inr ⟨v, List.mem_cons_self .., hm⟩
      · exact .inr ⟨w, List.mem_cons_of_mem _ hw, hx⟩
    simp only [updateDims, bind, Except.bind] at h
    cases del with
    | none =>
      simp only at h
      split at h
      · cases h
      · next h1 => exact key v.delayed _ h1 h
    | some b =>
      simp only at h
      split at h
      · cases h
      · split at h
        · cases h
        · next h1 => exact key b _ h1 h

theorem mk_dimsFrom {vars : List (Var V)} {attrs : List (String × String)}
    {chunks : List (String × Nat)} {limit : Nat} {del : Option Bool} {ds : Dataset V}
    (h : mk vars attrs chunks limit del = .ok ds) : DimsFrom ds := by
  simp only [mk, bind, Except.bind] at h
  split at h
  · cases h
  · next r hr =>
    obtain ⟨dims, dl⟩ := r
    cases h
    intro d n hd
    rcases updateDims_mem _ _ _ _ _ hr d n hd with hm | hm
    · simp at hm
    · exact hm

theorem openGroup_dimsFrom {del : Bool} {sel : Option (List String)} {vars : List (Var V)}
    {g : Dataset V} (h : openGroup del sel vars = .ok g) : DimsFrom g := mk_dimsFrom h

theorem openPart_dimsFrom {del : Bool} {sel : Option (List String)} {st : Store P V} {q : P}
    {g : Dataset V} (h : openPart del sel st q = .ok g) : DimsFrom g := by
  unfold openPart at h
  split at h
  · cases h
  · exact mk_dimsFrom h

theorem isel_dimsFrom {ds ds' : Dataset V} {slices : List (String × Ix)}
    (h : isel ds slices = .ok ds') : DimsFrom ds' := by
  unfold isel at h
  split at h
  · cases h
  · simp only [bind, Except.bind] at h
    split at h
    · cases h
    · exact mk_dimsFrom h

theorem joinGroups_dimsFrom {dim : String} {groups : List (Dataset V)} {zds : Dataset V}
    (hg : ∀ g ∈ groups, DimsFrom g) (h : joinGroups dim groups = .ok zds) : DimsFrom zds := by
  match groups, h with
  | [], h => simp [joinGroups] at h
  | [g], h =>
    simp only [joinGroups] at h
    cases h
    exact hg zds (by simp)
  | g :: o :: rest, h =>
    simp only [joinGroups, concat] at h
    split at h
    · cases h
    split at h
    · cases h
    simp only [bind, Except.bind] at h
    split at h
    · cases h
    · exact mk_dimsFrom h

theorem joinGroups_delayed {dim : String} {groups : List (Dataset V)} {zds : Dataset V}
    {b : Bool} (hg : ∀ g ∈ groups, g.delayed = b) (h : joinGroups dim groups = .ok zds) :
    zds.delayed = b := by
  match groups, h with
  | [], h => simp [joinGroups] at h
  | [g], h =>
    simp only [joinGroups] at h
    cases h
    exact hg zds (by simp)
  | g :: o :: rest, h =>
    simp only [joinGroups, concat] at h
    split at h
    · cases h
    split at h
    · cases h
    simp only [bind, Except.bind] at h
    split at h
    · cases h
    · exact ((mk_spec _ _ _ _ _ _ h).2.2.2.2.2 _ rfl).trans (hg g (by simp))

/-! ### The immutable variables -/

/-- The immutable variables are merged in a dataset whose sizes agree with theirs. -/
theorem merge_imm {dim : String} {other : String → Nat} {st : Store P V} {iv : List (Var V)}
    (hi : GoodImm dim other st iv) (del : Bool) (sel : Option (List String)) {zds : Dataset V}
    (hdel : zds.delayed = del) (hfrom : DimsFrom zds) {N : Nat}
    (hshape : ∀ v ∈ zds.vars, v.array.shape = v.dims.map fun d => if d = dim then N else other d)
    (hfresh : ∀ v ∈ zds.vars, ∀ w ∈ iv, w.name ≠ v.name) :
    ∃ ids r, openGroup del sel iv = .ok ids ∧ mergeInto zds ids = .ok r ∧
      r.vars = zds.vars ++ ids.vars ∧
      (∀ w ∈ iv, Chosen sel w.name → ({ w with delayed := del } : Var V) ∈ ids.vars) ∧
      ∀ w' ∈ ids.vars, Chosen sel w'.name ∧ ∃ w ∈ iv, w' = { w with delayed := del } := by
  obtain ⟨L, hL⟩ : ∃ L, L = ((iv.filter fun v => match sel with
      | none => true
      | some l => decide (v.name ∈ l)).map fun v => ({ v with delayed := del } : Var V)) :=
    ⟨_, rfl⟩
  have hopen : openGroup del sel iv = mk L [] [] 0 (some del) := by rw [hL]; rfl
  have hn : (L.map (·.name)).Nodup := by
    rw [hL, List.map_map]
    exact (List.Sublist.map _ List.filter_sublist).nodup hi.names
  have hsrc : ∀ w' ∈ L, Chosen sel w'.name ∧ ∃ w ∈ iv, w' = { w with delayed := del } := by
    intro w' hw'
    rw [hL] at hw'
    obtain ⟨w, hw, rfl⟩ := List.mem_map.1 hw'
    obtain ⟨h1, h2⟩ := List.mem_filter.1 hw
    refine ⟨?_, w, h1, rfl⟩
    intro l hl
    subst hl
    simpa using h2
  obtain ⟨dims, h1, h2⟩ := mk_sized L ([] : List (String × String)) [] 0 del other hn
    (by
      intro v hv
      obtain ⟨_, w, _, rfl⟩ := hsrc v hv
      rfl)
    (by
      intro v hv
      obtain ⟨_, w, hw, rfl⟩ := hsrc v hv
      exact (hi.shapes w hw).2)
  have hfr := mk_dimsFrom h1
  have hmv := mergeVars_fresh zds.vars _ hn (by
    intro v hv w' hw'
    obtain ⟨_, w, hw, rfl⟩ := hsrc w' hw'
    exact hfresh v hv w hw)
  have hnc : ¬ ∃ p ∈ zds.dims, ∃ q ∈ dims, p.1 = q.1 ∧ p.2 ≠ q.2 := by
    rintro ⟨⟨d, n⟩, hp, ⟨d', n'⟩, hq, he, hne⟩
    have he : d = d' := he
    subst he
    obtain ⟨v, hv, i, e1, e2⟩ := hfrom d n hp
    obtain ⟨w', hw', j, e3, e4⟩ := hfr d n' hq
    obtain ⟨_, w, hw, rfl⟩ := hsrc w' hw'
    have e3 : w.dims[j]? = some d := e3
    have e4 : w.array.shape[j]? = some n' := e4
    have hd : d ≠ dim := fun h => (hi.shapes w hw).1 (h ▸ List.mem_of_getElem? e3)
    rw [hshape v hv, List.getElem?_map, e1] at e2
    rw [(hi.shapes w hw).2, List.getElem?_map, e3] at e4
    simp only [Option.map_some, if_neg hd, Option.some.injEq] at e2 e4
    exact hne (e2.symm.trans e4)
  refine ⟨_, _, hopen.trans h1, by
    simp only [mergeInto, Ds.merge]
    rw [if_neg (by simp [hdel]), hmv]
    simp only
    rw [if_neg hnc], rfl, ?_, hsrc⟩
  intro w hw hch
  show _ ∈ L
  rw [hL]
  refine List.mem_map.2 ⟨w, List.mem_filter.2 ⟨hw, ?_⟩, rfl⟩
  cases sel with
  | none => rfl
  | some l => simpa using hch l rfl

/-! ### Slices -/

/-- The store whose partitions are the segments. -/
def cutStore (dim : String) (size : P → Nat) (st : Store P V) : Store (P × (Nat × Nat)) V :=
  fun s => if s.2.1 ≤ s.2.2 ∧ s.2.2 ≤ size s.1 then
    (st s.1).map fun vars => vars.map (pieceVar dim s.2) else none

theorem cutStore_some {dim : String} {size : P → Nat} {st : Store P V} {s : P × (Nat × Nat)}
    {vars : List (Var V)} (h : cutStore dim size st s = some vars) :
    s.2.1 ≤ s.2.2 ∧ s.2.2 ≤ size s.1 ∧ ∃ vs, st s.1 = some vs ∧
      vars = vs.map (pieceVar dim s.2) := by
  unfold cutStore at h
  split at h
  · next hc =>
    cases hs : st s.1 with
    | none => rw [hs] at h; cases h
    | some vs => rw [hs] at h; cases h; exact ⟨hc.1, hc.2, vs, rfl, rfl⟩
  · cases h

theorem pieceVar_shape {dim : String} {c : Nat × Nat} {v : Var V} {n : Nat}
    {other : String → Nat} (hd : v.dims.Nodup)
    (hs : v.array.shape = v.dims.map fun d => if d = dim then n else other d) :
    (pieceVar dim c v).array.shape =
      v.dims.map fun d => if d = dim then c.2 - c.1 else other d := by
  unfold pieceVar
  cases hi : v.dims.idxOf? dim with
  | none =>
    rw [idxOf?_none] at hi
    simp only
    rw [hs]
    refine List.map_congr_left fun d hdm => ?_
    have hne : d ≠ dim := fun h => hi (h ▸ hdm)
    rw [if_neg hne, if_neg hne]
  | some ax =>
    have hax := idxOf?_getElem hi
    have hlt : ax < v.array.shape.length := by
      rw [hs, List.length_map]; exact (List.getElem?_eq_some_iff.1 hax).1
    simp only
    rw [(piece_shape ax v.array c hlt).1, hs]
    apply List.ext_getElem?
    intro i
    rw [List.getElem?_set, List.getElem?_map, List.getElem?_map, List.length_map]
    split
    · next he =>
      subst he
      rw [hax]
      simp [(List.getElem?_eq_some_iff.1 hax).1]
    · next hne =>
      cases hdi : v.dims[i]? with
      | none => rfl
      | some d =>
        have : d ≠ dim := by
          rintro rfl
          exact hne (nodup_getElem? hd hax hdi)
        simp [this]

theorem pieceVar_ok {dim : String} {c : Nat × Nat} {v : Var V} {n : Nat}
    {other : String → Nat} (ho : ArrOk v.array)
    (hs : v.array.shape = v.dims.map fun d => if d = dim then n else other d) (h1 : c.1 ≤ c.2)
    (h2 : c.2 ≤ n) : ArrOk (pieceVar dim c v).array := by
  unfold pieceVar
  cases hi : v.dims.idxOf? dim with
  | none => exact ho
  | some ax =>
    have hax := idxOf?_getElem hi
    have hn : v.array.shape[ax]? = some n := by
      rw [hs, List.getElem?_map, hax]; simp
    exact takeAxis_arrOk ho hn _ fun p hp => by
      obtain ⟨q, hq, rfl⟩ := List.mem_map.1 hp
      rw [List.mem_range] at hq
      omega

theorem pieceVar_name (dim : String) (c : Nat × Nat) (v : Var V) :
    (pieceVar dim c v).name = v.name ∧ (pieceVar dim c v).dims = v.dims := ⟨rfl, rfl⟩

theorem cutStore_uniform {dim : String} {size : P → Nat} {other : String → Nat}
    {st : Store P V} (hu : Uniform dim size other st) :
    Uniform dim (fun s : P × (Nat × Nat) => s.2.2 - s.2.1) other (cutStore dim size st) := by
  refine ⟨⟨fun s vars hs => ?_, fun s s' vs ws hs hs' v hv w hw hn => ?_⟩,
    fun s s' vs ws hs hs' v hv => ?_, fun s vars hs v hv => ?_⟩
  · obtain ⟨h1, h2, vs, hvs, rfl⟩ := cutStore_some hs
    obtain ⟨g1, g2⟩ := hu.good.1 _ _ hvs
    refine ⟨by rw [List.map_map]; exact g1, fun v hv => ?_⟩
    obtain ⟨w, hw, rfl⟩ := List.mem_map.1 hv
    exact ⟨pieceVar_ok (g2 w hw).1 (hu.shapes _ _ hvs w hw) h1 h2, (g2 w hw).2⟩
  · obtain ⟨_, _, vs, hvs, rfl⟩ := cutStore_some hs
    obtain ⟨_, _, ws, hws, rfl⟩ := cutStore_some hs'
    obtain ⟨v, hv', rfl⟩ := List.mem_map.1 hv
    obtain ⟨w, hw', rfl⟩ := List.mem_map.1 hw
    exact hu.good.2 _ _ vs ws hvs hws v hv' w hw' hn
  · obtain ⟨_, _, vs, hvs, rfl⟩ := cutStore_some hs
    obtain ⟨_, _, ws, hws, rfl⟩ := cutStore_some hs'
    obtain ⟨v, hv', rfl⟩ := List.mem_map.1 hv
    obtain ⟨w, hw, hwn⟩ := hu.names _ _ vs ws hvs hws v hv'
    exact ⟨_, List.mem_map_of_mem hw, hwn⟩
  · obtain ⟨_, _, vs, hvs, rfl⟩ := cutStore_some hs
    obtain ⟨v, hv', rfl⟩ := List.mem_map.1 hv
    exact pieceVar_shape ((hu.good.1 _ _ hvs).2 v hv').2 (hu.shapes _ _ hvs v hv')

/-- A dataset that holds the segments as partitions holds the segments. -/
theorem holdsSegments_of_cut {dim : String} {size : P → Nat} {other : String → Nat}
    {st : Store P V} (hu : Uniform dim size other st) {sel : Option (List String)}
    {segs : List (P × (Nat × Nat))} (hg : GoodSlices size segs) {zds : Dataset V}
    (h : HoldsWindow dim (fun s : P × (Nat × Nat) => s.2.2 - s.2.1) sel (cutStore dim size st)
      segs zds) :
    HoldsSegments dim sel st segs zds := by
  constructor
  · intro s hs vars hv v hvm hch
    have hcut : cutStore dim size st s = some (vars.map (pieceVar dim s.2)) := by
      unfold cutStore
      rw [if_pos (hg s hs), hv]
      rfl
    exact h.present s hs _ hcut (pieceVar dim s.2 v) (List.mem_map_of_mem hvm) hch
  · intro v' hv' k q lo hi vars v hk hq hv hn
    have hcut : cutStore dim size st (q, (lo, hi)) = some (vars.map (pieceVar dim (lo, hi))) := by
      unfold cutStore
      rw [if_pos (hg _ (List.mem_of_getElem? hk))]
      show (st q).map _ = _
      rw [hq]
      rfl
    obtain ⟨a1, a2, a3⟩ := h.values v' hv' k _ _ _ hk hcut (List.mem_map_of_mem hv) hn
    refine ⟨a1, fun ax hax => ?_, fun hd h0 => ?_⟩
    · obtain ⟨b1, b2⟩ := a2 ax hax
      refine ⟨b1, fun idx j hj hlt => ?_⟩
      have hidx := idxOf?_of_nodup ((hu.good.1 _ _ hq).2 v hv).2 hax
      have := b2 idx j hj hlt
      rw [show ((segs.take k).map fun s : P × (Nat × Nat) => s.2.2 - s.2.1).sum =
        total (segs.take k) from rfl] at this
      rw [this]
      have hjr : (List.map (fun x => lo + x) (List.range (hi - lo)))[j]? = some (lo + j) := by
        simp [hlt]
      simp only [pieceVar, hidx, piece, takeAxis, hj, Option.bind_some, hjr]
    · rw [a3 hd h0]
      unfold pieceVar
      rw [idxOf?_none.2 hd]

end Verif
