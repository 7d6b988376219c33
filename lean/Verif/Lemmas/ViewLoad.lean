import Verif.Lemmas.Load

/-! Datasets made of the segments of several partitions, joined partition by partition. -/

namespace Verif

open Spec Nd Ds Upd

variable {P V : Type}

theorem joinGroups_arrOk {dim : String} {groups : List (Dataset V)} {zds : Dataset V}
    (hcons : ∀ g ∈ groups, Consistent g) (hok : ∀ g ∈ groups, ∀ v ∈ g.vars, ArrOk v.array)
    (h : joinGroups dim groups = .ok zds) : ∀ v ∈ zds.vars, ArrOk v.array := by
  intro v' hv'
  obtain ⟨_, _, hzv⟩ := joinGroups_var hcons h
  obtain ⟨ws, w1, w2, w0, hw0, _, hno, hcase⟩ := hzv v' hv'
  have hws : ∀ w ∈ ws, ArrOk w.array := by
    intro w hw
    obtain ⟨k, hk⟩ := List.getElem?_of_mem hw
    obtain ⟨g, hg⟩ : ∃ g, groups[k]? = some g :=
      ⟨_, List.getElem?_eq_getElem (by rw [← w1]; exact (List.getElem?_eq_some_iff.1 hk).1)⟩
    obtain ⟨w', e1, e2⟩ := w2 k g hg
    rw [hk] at e1
    cases e1
    exact hok g (List.mem_of_getElem? hg) w (getVar_some _ _ _ e2).1
  have h0 := hws w0 (List.mem_of_getElem? hw0)
  cases hi : w0.dims.idxOf? dim with
  | none => rw [hno hi]; exact h0
  | some ax =>
    rcases hcase ax hi with ⟨_, e⟩ | ⟨_, e⟩ | ⟨_, e, _⟩
    · rw [e]; exact h0
    · refine concatenate_arrOk ?_ e
      intro b hb
      obtain ⟨w, hw, rfl⟩ := List.mem_map.1 hb
      exact hws w hw
    · rw [e]; exact h0

theorem total_append (a b : List (P × (Nat × Nat))) : total (a ++ b) = total a + total b := by
  simp [total]

theorem total_flatMap (S : P → List (P × (Nat × Nat))) (keys : List P) :
    total (keys.flatMap S) = (keys.map fun p => total (S p)).sum := by
  induction keys with
  | nil => rfl
  | cons p t ih => rw [List.flatMap_cons, total_append, ih]; rfl

/-- Where a segment of the joined partitions comes from. -/
theorem flatMap_segment (S : P → List (P × (Nat × Nat))) (keys : List P)
    (hS : ∀ p ∈ keys, S p ≠ []) (k : Nat) (s : P × (Nat × Nat))
    (hk : (keys.flatMap S)[k]? = some s) :
    ∃ (i : Nat) (p : P) (j : Nat), keys[i]? = some p ∧ (S p)[j]? = some s ∧
      total ((keys.flatMap S).take k) =
        ((keys.take i).map fun p => total (S p)).sum + total ((S p).take j) ∧
      (k = 0 → i = 0 ∧ j = 0) := by
  induction keys generalizing k with
  | nil => simp at hk
  | cons p t ih =>
    rw [List.flatMap_cons] at hk ⊢
    by_cases hlt : k < (S p).length
    · rw [List.getElem?_append_left hlt] at hk
      refine ⟨0, p, k, rfl, hk, ?_, fun h => ⟨rfl, h⟩⟩
      rw [List.take_append_of_le_length (by omega)]
      simp
    · rw [List.getElem?_append_right (by omega)] at hk
      obtain ⟨i, q, j, h1, h2, h3, h4⟩ := ih (fun p hp => hS p (by simp [hp])) _ hk
      refine ⟨i + 1, q, j, h1, h2, ?_, fun h => ?_⟩
      · rw [List.take_append, List.take_of_length_le (by omega), total_append, h3]
        simp only [List.take_succ_cons, List.map_cons, List.sum_cons]
        omega
      · have := List.length_pos_iff.2 (hS p (by simp))
        omega

/-- The datasets of the partitions, each made of its segments, one after the other. -/
theorem segments_join {st : Store P V} {dim : String} {del : Bool} {sel : Option (List String)}
    {size : P → Nat} {other : String → Nat} (hu : Uniform dim size other st) {keys : List P}
    {S : P → List (P × (Nat × Nat))} (hS : ∀ p ∈ keys, S p ≠ [] ∧ ∀ s ∈ S p, s.1 = p)
    (hst : ∀ p ∈ keys, ∃ vars, st p = some vars) {R : List (Dataset V)}
    (hl : R.length = keys.length) (hne : keys ≠ [])
    (hR : ∀ (i : Nat) (p : P), keys[i]? = some p → ∃ z, R[i]? = some z ∧ Consistent z ∧
      z.delayed = del ∧ HoldsSegments dim sel st (S p) z ∧ ∀ v ∈ z.vars, ArrOk v.array ∧
        (v.array.shape = v.dims.map fun d => if d = dim then total (S p) else other d) ∧
        ∃ vars v0, st p = some vars ∧ v0 ∈ vars ∧ v0.name = v.name ∧ Chosen sel v0.name) :
    ∃ zds, joinGroups dim R = .ok zds ∧ HoldsSegments dim sel st (keys.flatMap S) zds ∧
      ∀ v ∈ zds.vars, ∀ p ∈ keys, ∃ vars v0, st p = some vars ∧ v0 ∈ vars ∧ v0.name = v.name ∧
        Chosen sel v0.name := by
  -- the store of the datasets, by position
  let st2 : Store Nat V := fun i => (R[i]?).map (·.vars)
  let size2 : Nat → Nat := fun i => match keys[i]? with
    | some p => total (S p)
    | none => 0
  have hget : ∀ i vars, st2 i = some vars → ∃ p z, keys[i]? = some p ∧ R[i]? = some z ∧
      vars = z.vars ∧ size2 i = total (S p) := by
    intro i vars h
    simp only [st2, Option.map_eq_some_iff] at h
    obtain ⟨z, hz, rfl⟩ := h
    have hi : i < keys.length := by rw [← hl]; exact (List.getElem?_eq_some_iff.1 hz).1
    refine ⟨keys[i], z, List.getElem?_eq_getElem hi, hz, rfl, ?_⟩
    simp only [size2, List.getElem?_eq_getElem hi]
  -- a variable of a dataset has the dimensions of the variable of the store
  have hdims : ∀ (i : Nat) (p : P) (z : Dataset V), keys[i]? = some p → R[i]? = some z → ∀ v ∈ z.vars, ∃ vars v0,
      st p = some vars ∧ v0 ∈ vars ∧ v0.name = v.name ∧ Chosen sel v0.name ∧ v.dims = v0.dims := by
    intro i p z hp hz v hv
    obtain ⟨z', hz', _, _, h3, h4⟩ := hR i p hp
    rw [hz] at hz'
    cases hz'
    obtain ⟨_, _, vars, v0, e1, e2, e3, e4⟩ := h4 v hv
    obtain ⟨s, hs⟩ := List.exists_mem_of_ne_nil _ (hS p (List.mem_of_getElem? hp)).1
    obtain ⟨k, hk⟩ := List.getElem?_of_mem hs
    have hs1 := (hS p (List.mem_of_getElem? hp)).2 s hs
    obtain ⟨q, lo, hi⟩ := s
    subst hs1
    exact ⟨vars, v0, e1, e2, e3, e4, (h3.values v hv k _ lo hi vars v0 hk e1 e2 e3).1⟩
  have hu2 : Uniform dim size2 other st2 := by
    refine ⟨⟨fun i vars h => ?_, fun i j vs ws h1 h2 v hv w hw hn => ?_⟩,
      fun i j vs ws h1 h2 v hv => ?_, fun i vars h v hv => ?_⟩
    · obtain ⟨p, z, hp, hz, rfl, _⟩ := hget i vars h
      obtain ⟨z', hz', h1, _, _, h4⟩ := hR i p hp
      rw [hz] at hz'
      cases hz'
      refine ⟨h1.names, fun v hv => ⟨(h4 v hv).1, ?_⟩⟩
      obtain ⟨vars, v0, e1, e2, _, _, e5⟩ := hdims i p z hp hz v hv
      rw [e5]
      exact ((hu.good.1 _ _ e1).2 v0 e2).2
    · obtain ⟨p, z, hp, hz, rfl, _⟩ := hget i vs h1
      obtain ⟨p', z', hp', hz', rfl, _⟩ := hget j ws h2
      obtain ⟨vars, v0, e1, e2, e3, _, e5⟩ := hdims i p z hp hz v hv
      obtain ⟨vars', v0', e1', e2', e3', _, e5'⟩ := hdims j p' z' hp' hz' w hw
      rw [e5, e5']
      exact hu.good.2 _ _ _ _ e1 e1' v0 e2 v0' e2' (by rw [e3, e3', hn])
    · obtain ⟨p, z, hp, hz, rfl, _⟩ := hget i vs h1
      obtain ⟨p', z', hp', hz', rfl, _⟩ := hget j ws h2
      obtain ⟨vars, v0, e1, e2, e3, e4, _⟩ := hdims i p z hp hz v hv
      obtain ⟨vars', e1'⟩ := hst p' (List.mem_of_getElem? hp')
      obtain ⟨w0, hw0, hwn⟩ := hu.names _ _ _ _ e1 e1' v0 e2
      obtain ⟨z'', hz'', _, _, h3, _⟩ := hR j p' hp'
      rw [hz'] at hz''
      cases hz''
      obtain ⟨s, hs⟩ := List.exists_mem_of_ne_nil _ (hS p' (List.mem_of_getElem? hp')).1
      have hs1 := (hS p' (List.mem_of_getElem? hp')).2 s hs
      obtain ⟨w, hw, hww⟩ := h3.present s hs vars' (by rw [hs1]; exact e1') w0 hw0
        (by rw [hwn]; exact e4)
      exact ⟨w, hw, by rw [hww, hwn, e3]⟩
    · obtain ⟨p, z, hp, hz, rfl, hsz⟩ := hget i vars h
      obtain ⟨z', hz', _, _, _, h4⟩ := hR i p hp
      rw [hz] at hz'
      cases hz'
      rw [hsz]
      exact (h4 v hv).2.1
  have hlen : R.length = (List.range keys.length).length := by simp [hl]
  obtain ⟨zds, hz, _, hw, hv⟩ := joined_holds (del := del) (sel := none) hu2 hlen (by
      simpa using hne) (by
    intro j i hi
    have hji : j = i := by
      rw [List.getElem?_range] at hi
      · cases hi; rfl
      · exact Classical.byContradiction fun hc => by
          rw [List.getElem?_eq_none (by simpa using hc)] at hi
          cases hi
    subst hji
    have hj : j < keys.length := by
      have := (List.getElem?_eq_some_iff.1 hi).1
      simpa using this
    obtain ⟨z, hz, h1, h2, _, _⟩ := hR j _ (List.getElem?_eq_getElem hj)
    have hd : ∀ v ∈ z.vars, ({ v with delayed := del } : Var V) = v := by
      intro v hvm
      have := h1.kind v hvm
      rw [h2] at this
      rw [← this]
    refine ⟨z, z.vars, hz, by simp only [st2, hz, Option.map_some], h1, h2, ?_, ?_⟩
    · intro v hvm _
      rw [hd v hvm]
      exact getVar_of_mem _ h1.names v hvm
    · intro n w hn
      obtain ⟨hw1, _⟩ := getVar_some _ _ _ hn
      exact ⟨(fun l hl => by cases hl), w, hn, hw1, (hd w hw1).symm⟩)
  have hsum : ∀ i, i ≤ keys.length → (((List.range keys.length).take i).map size2) =
      (keys.take i).map fun p => total (S p) := by
    intro i hi
    apply List.ext_getElem?
    intro j
    simp only [List.getElem?_map, List.getElem?_take]
    by_cases hj : j < i
    · have hjk : j < keys.length := by omega
      rw [if_pos hj, if_pos hj, List.getElem?_range hjk, List.getElem?_eq_getElem hjk]
      simp only [Option.map_some, size2, List.getElem?_eq_getElem hjk]
    · rw [if_neg hj, if_neg hj]; rfl
  have hfull : ((List.range keys.length).map size2).sum = total (keys.flatMap S) := by
    have := hsum keys.length (Nat.le_refl _)
    rw [List.take_of_length_le (by simp), List.take_of_length_le (by simp)] at this
    rw [this, total_flatMap]
  have hone : ∀ (i : Nat) (p : P), keys[i]? = some p → i ∈ List.range keys.length ∧
      (List.range keys.length)[i]? = some i := by
    intro i p hp
    have := (List.getElem?_eq_some_iff.1 hp).1
    exact ⟨List.mem_range.2 this, List.getElem?_range this⟩
  refine ⟨zds, hz, ⟨?_, ?_⟩, ?_⟩
  · intro s hs vars hsv v hvm hch
    obtain ⟨p, hp, hsp⟩ := List.mem_flatMap.1 hs
    obtain ⟨i, hi⟩ := List.getElem?_of_mem hp
    obtain ⟨z, hzi, _, _, h3, _⟩ := hR i p hi
    obtain ⟨v1, hv1, hn1⟩ := h3.present s hsp vars hsv v hvm hch
    obtain ⟨v2, hv2, hn2⟩ := hw.present i (hone i p hi).1 z.vars
      (by simp only [st2, hzi, Option.map_some]) v1 hv1 (fun l hl => by cases hl)
    exact ⟨v2, hv2, hn2.trans hn1⟩
  · intro v' hv' k q lo hi vars v hk hq hvm hn
    obtain ⟨i, p, j, h1, h2, h3, h4⟩ := flatMap_segment S keys (fun p hp => (hS p hp).1) k _ hk
    obtain ⟨z, hzi, _, _, g3, g4⟩ := hR i p h1
    obtain ⟨vars1, v1, e1, e2, e3, _⟩ := (hv v' hv').1 i (hone i p h1).1
    simp only [st2, hzi, Option.map_some, Option.some.injEq] at e1
    subst e1
    obtain ⟨a1, a2, a3⟩ := hw.values v' hv' i i z.vars v1 (hone i p h1).2
      (by simp only [st2, hzi, Option.map_some]) e2 e3
    obtain ⟨b1, b2, b3⟩ := g3.values v1 e2 j q lo hi vars v h2 hq hvm (hn.trans e3.symm)
    refine ⟨a1.trans b1, fun ax hax => ?_, fun hd h0 => ?_⟩
    · have hax1 : v1.dims[ax]? = some dim := by rw [b1]; exact hax
      obtain ⟨c1, c2⟩ := a2 ax hax1
      obtain ⟨d1, d2⟩ := b2 ax hax
      rw [hfull] at c1
      refine ⟨c1, fun idx m hm hlt => ?_⟩
      have hle : total ((S p).take j) + m < total (S p) := by
        have hsp : (S p) = (S p).take j ++ (q, (lo, hi)) :: (S p).drop (j + 1) := by
          have hjl := (List.getElem?_eq_some_iff.1 h2)
          rw [← hjl.2, ← List.drop_eq_getElem_cons hjl.1, List.take_append_drop]
        have : total (S p) = total ((S p).take j) + ((hi - lo) + total ((S p).drop (j + 1))) := by
          conv => lhs; rw [hsp]
          rw [total_append]
          rfl
        omega
      have hsz : size2 i = total (S p) := by simp only [size2, h1]
      have haxl : ax < idx.length := (List.getElem?_eq_some_iff.1 hm).1
      have := c2 (idx.set ax (total ((S p).take j) + m)) (total ((S p).take j) + m)
        (by rw [List.getElem?_set]; simp [haxl]) (by rw [hsz]; exact hle)
      rw [List.set_set, hsum i (by have := (List.getElem?_eq_some_iff.1 h1).1; omega)] at this
      rw [h3, Nat.add_assoc, this]
      exact d2 idx m hm hlt
    · obtain ⟨rfl, rfl⟩ := h4 h0
      rw [a3 (by rw [b1]; exact hd) rfl, b3 hd rfl]
  · intro v hvm p hp
    obtain ⟨i, hi⟩ := List.getElem?_of_mem hp
    obtain ⟨z, hzi, _, _, _, h4⟩ := hR i p hi
    obtain ⟨vars1, v1, e1, e2, e3, _⟩ := (hv v hvm).1 i (hone i p hi).1
    simp only [st2, hzi, Option.map_some, Option.some.injEq] at e1
    subst e1
    obtain ⟨_, _, vars, v0, k1, k2, k3, k4⟩ := h4 v1 e2
    exact ⟨vars, v0, k1, k2, k3.trans e3, k4⟩

end Verif
