import Verif.Lemmas.DataExpression

/-! Broadcasting of shapes that are not nested. -/

namespace Verif

open Spec Nd Ds Dx

/-- The length of an axis, counted from the first one. -/
def lengthAt (s : List Nat) (i : Nat) : Nat :=
  match s[i]? with
  | some n => n
  | none => 1

/-- One axis. -/
def OneAxis (m n k : Nat) : Prop := m = n ∧ k = m ∨ m = 1 ∧ k = n ∨ n = 1 ∧ k = m

theorem lengthAt_cons_succ (m : Nat) (s : List Nat) (i : Nat) :
    lengthAt (m :: s) (i + 1) = lengthAt s i := by
  simp [lengthAt]

theorem castDim_spec (m n : Nat) :
    (∃ k, castDim m n = .ok k ∧ ∀ k', OneAxis m n k' ↔ k' = k) ∨
      castDim m n = .error .valueError ∧ ∀ k', ¬ OneAxis m n k' := by
  unfold castDim OneAxis
  by_cases h1 : m = n
  · exact .inl ⟨m, by simp [h1], by omega⟩
  · by_cases h2 : m = 1
    · exact .inl ⟨n, by simp [h2], by omega⟩
    · by_cases h3 : n = 1
      · exact .inl ⟨m, by simp [h2, h3], by omega⟩
      · exact .inr ⟨by simp [h1, h2, h3], by omega⟩

theorem castRev_spec (s t : List Nat) :
    (∃ r, castRev s t = .ok r ∧ ∀ r', (r'.length = max s.length t.length ∧
        ∀ i, OneAxis (lengthAt s i) (lengthAt t i) (lengthAt r' i)) ↔ r' = r) ∨
      castRev s t = .error .valueError ∧ ∀ r' : List Nat, r'.length = max s.length t.length →
        ¬ ∀ i, OneAxis (lengthAt s i) (lengthAt t i) (lengthAt r' i) := by
  have hext : ∀ a b : List Nat, a.length = b.length → (∀ i, lengthAt a i = lengthAt b i) →
      a = b := by
    intro a b hl h
    apply List.ext_getElem hl
    intro i h1 h2
    have := h i
    simpa [lengthAt, List.getElem?_eq_getElem h1, List.getElem?_eq_getElem h2] using this
  induction s generalizing t with
  | nil =>
    refine .inl ⟨t, by simp [castRev], fun r' => ⟨?_, ?_⟩⟩
    · rintro ⟨h1, h2⟩
      refine hext _ _ (by simpa using h1) fun i => ?_
      have := h2 i
      simp only [lengthAt, List.getElem?_nil, OneAxis] at this ⊢
      omega
    · rintro rfl
      exact ⟨by simp, fun i => .inr (.inl ⟨by simp [lengthAt], rfl⟩)⟩
  | cons m s ih =>
    cases t with
    | nil =>
      refine .inl ⟨m :: s, by simp [castRev], fun r' => ⟨?_, ?_⟩⟩
      · rintro ⟨h1, h2⟩
        refine hext _ _ (by simpa using h1) fun i => ?_
        have := h2 i
        rw [show lengthAt [] i = 1 by simp [lengthAt]] at this
        simp only [OneAxis] at this
        omega
      · rintro rfl
        exact ⟨by simp, fun i => .inr (.inr ⟨by simp [lengthAt], rfl⟩)⟩
    | cons n t =>
      have hhead : ∀ (r' : List Nat), r'.length = max (m :: s).length (n :: t).length →
          ∃ k q, r' = k :: q ∧ q.length = max s.length t.length := by
        intro r' hr
        cases r' with
        | nil => simp at hr
        | cons k q => exact ⟨k, q, rfl, by simp at hr; omega⟩
      have hall : ∀ k q, (∀ i, OneAxis (lengthAt (m :: s) i) (lengthAt (n :: t) i)
          (lengthAt (k :: q) i)) ↔ OneAxis m n k ∧
            ∀ i, OneAxis (lengthAt s i) (lengthAt t i) (lengthAt q i) := by
        intro k q
        constructor
        · intro h
          refine ⟨by simpa [lengthAt] using h 0, fun i => ?_⟩
          have := h (i + 1)
          simpa only [lengthAt_cons_succ] using this
        · rintro ⟨h1, h2⟩ i
          cases i with
          | zero => simpa [lengthAt] using h1
          | succ i => simpa only [lengthAt_cons_succ] using h2 i
      rcases castDim_spec m n with ⟨k, h1, h2⟩ | ⟨h1, h2⟩
      · rcases ih t with ⟨r, h3, h4⟩ | ⟨h3, h4⟩
        · refine .inl ⟨k :: r, by simp [castRev, h1, h3, bind, Except.bind], fun r' => ⟨?_, ?_⟩⟩
          · rintro ⟨h5, h6⟩
            obtain ⟨k', q, rfl, hq⟩ := hhead r' h5
            rw [hall] at h6
            rw [(h2 k').1 h6.1, (h4 q).1 ⟨hq, h6.2⟩]
          · rintro rfl
            obtain ⟨h5, h6⟩ := (h4 r).2 rfl
            refine ⟨?_, (hall _ _).2 ⟨(h2 k).2 rfl, h6⟩⟩
            simp only [List.length_cons, h5]
            omega
        · refine .inr ⟨by simp [castRev, h1, h3, bind, Except.bind], fun r' h5 h6 => ?_⟩
          obtain ⟨k', q, rfl, hq⟩ := hhead r' h5
          exact h4 q hq ((hall _ _).1 h6).2
      · refine .inr ⟨by simp [castRev, h1, bind, Except.bind], fun r' h5 h6 => ?_⟩
        obtain ⟨k', q, rfl, hq⟩ := hhead r' h5
        exact h2 k' ((hall _ _).1 h6).1

/-- The shape of an operation on two arrays is that of the specification, or it raises. -/
theorem castShape_spec (s t : List Nat) :
    (∀ r, Broadcast s t r ↔ castShape s t = .ok r) ∧
      ((∀ r, ¬ Broadcast s t r) → castShape s t = .error .valueError) := by
  have hb : ∀ r, Broadcast s t r ↔ (r.reverse.length = max s.reverse.length t.reverse.length ∧
      ∀ i, OneAxis (lengthAt s.reverse i) (lengthAt t.reverse i) (lengthAt r.reverse i)) := by
    intro r
    simp only [List.length_reverse]
    exact Iff.rfl
  rcases castRev_spec s.reverse t.reverse with ⟨q, h1, h2⟩ | ⟨h1, h2⟩
  · have hc : castShape s t = .ok q.reverse := by simp [castShape, h1, bind, Except.bind]
    refine ⟨fun r => ?_, fun h => absurd ((hb q.reverse).2 ((h2 _).2 (by simp))) (h _)⟩
    rw [hb, h2, hc]
    constructor
    · intro h; rw [← h, List.reverse_reverse]
    · intro h; cases h; simp
  · have hc : castShape s t = .error .valueError := by simp [castShape, h1, bind, Except.bind]
    refine ⟨fun r => ?_, fun _ => hc⟩
    rw [hb, hc]
    constructor
    · rintro ⟨h3, h4⟩
      exact absurd h4 (h2 _ h3)
    · intro h; cases h

/-- The index in an operand. -/
theorem castIndex_source {s idx : List Nat} (h : s.length ≤ idx.length) :
    Source s idx (castIndex s idx) := by
  have hl : (castIndex s idx).length = s.length := by
    simp only [castIndex, List.length_zipWith, List.length_drop]
    omega
  refine ⟨hl, fun i j hj => ?_⟩
  have hi : i < s.length := by
    obtain ⟨h1, _⟩ := List.getElem?_eq_some_iff.1 hj
    rw [List.length_reverse, hl] at h1
    exact h1
  rw [List.getElem?_reverse (by omega), hl] at hj
  simp only [castIndex, List.getElem?_zipWith, List.getElem?_drop] at hj
  have hs : axisLength s i = s[s.length - 1 - i]'(by omega) := by
    simp only [axisLength]
    rw [List.getElem?_reverse hi, List.getElem?_eq_getElem (by omega)]
  rw [List.getElem?_eq_getElem (by omega : s.length - 1 - i < s.length), ← hs] at hj
  rw [List.getElem?_eq_getElem (by omega : idx.length - s.length + (s.length - 1 - i) < idx.length)]
    at hj
  simp only [Option.some.injEq] at hj
  by_cases h1 : axisLength s i = 1
  · rw [if_pos h1] at hj
    exact .inl ⟨h1, hj.symm⟩
  · rw [if_neg h1] at hj
    refine .inr ⟨h1, ?_⟩
    rw [List.getElem?_reverse (by omega), List.getElem?_eq_getElem (by omega)]
    rw [← hj]
    congr 2
    omega

/-- The index in an operand is inside of it. -/
theorem source_inside {s t r idx src : List Nat} (hb : Broadcast s t r ∨ Broadcast t s r)
    (hsrc : Source s idx src) (h : Inside r idx) : Inside s src := by
  refine ⟨hsrc.1, fun i x n hx hn => ?_⟩
  have hi : i < s.length := (List.getElem?_eq_some_iff.1 hn).1
  have hsl := hsrc.1
  have hlen : r.length = max s.length t.length := by
    rcases hb with hb | hb
    · exact hb.1
    · rw [hb.1]; omega
  have hx' : src.reverse[s.length - 1 - i]? = some x := by
    rw [List.getElem?_reverse (by omega), ← hx]
    congr 1
    omega
  have hn' : axisLength s (s.length - 1 - i) = n := by
    simp only [axisLength]
    rw [List.getElem?_reverse (by omega), show s.length - 1 - (s.length - 1 - i) = i by omega, hn]
  rcases hsrc.2 _ _ hx' with ⟨h1, h2⟩ | ⟨h1, h2⟩
  · omega
  · have h3 : axisLength r (s.length - 1 - i) = n := by
      rcases hb with hb | hb
      · have := hb.2 (s.length - 1 - i); omega
      · have := hb.2 (s.length - 1 - i); omega
    have hil := h.1
    rw [List.getElem?_reverse (by omega)] at h2
    simp only [axisLength] at h3
    rw [List.getElem?_reverse (by omega), List.getElem?_eq_getElem (by omega)] at h3
    refine h.2 (idx.length - 1 - (s.length - 1 - i)) x n h2 ?_
    rw [List.getElem?_eq_getElem (by omega), ← h3]
    congr 2
    omega

variable {V : Type}

/-- An operation on two arrays. -/
theorem map2_broadcast (f : V → V → V) {a b : Arr (Option V)} (ha : ArrOk a) (hb : ArrOk b) :
    (∀ r, Broadcast a.shape b.shape r → ∃ R, map2 f a b = .ok R ∧ R.shape = r ∧ ArrOk R ∧
      ∀ idx, Inside r idx → ∃ i j x y z, Source a.shape idx i ∧ Source b.shape idx j ∧
        a.get i = some x ∧ b.get j = some y ∧ R.get idx = some z ∧ Combine f x y z) ∧
    ((∀ r, ¬ Broadcast a.shape b.shape r) → map2 f a b = .error .valueError) := by
  obtain ⟨h1, h2⟩ := castShape_spec a.shape b.shape
  constructor
  · intro r hr
    have hs := (h1 r).1 hr
    obtain ⟨R, hR, hrs, hrg⟩ : ∃ R : Arr (Option V), map2 f a b = .ok R ∧ R.shape = r ∧
        ∀ idx, R.get idx = if inBounds idx r then
          match a.get (castIndex a.shape idx), b.get (castIndex b.shape idx) with
          | some x, some y => some (lift2 f x y)
          | _, _ => none
          else none := by
      simp only [map2, hs, bind, Except.bind]
      exact ⟨_, rfl, rfl, fun _ => rfl⟩
    have hr' : Broadcast b.shape a.shape r ∨ Broadcast a.shape b.shape r := .inr hr
    have key : ∀ idx, Inside r idx → ∃ i j x y z, Source a.shape idx i ∧ Source b.shape idx j ∧
        a.get i = some x ∧ b.get j = some y ∧ R.get idx = some z ∧ Combine f x y z := by
      intro idx hi
      have hl := hi.1
      have hm := hr.1
      have sa := castIndex_source (s := a.shape) (idx := idx) (by omega)
      have sb := castIndex_source (s := b.shape) (idx := idx) (by omega)
      obtain ⟨x, hx⟩ := (ha _).2 (source_inside (.inl hr) sa hi)
      obtain ⟨y, hy⟩ := (hb _).2 (source_inside hr' sb hi)
      refine ⟨_, _, x, y, _, sa, sb, hx, hy, ?_, combine_lift2 f x y⟩
      rw [hrg, (inBounds_iff _ _).2 hi, hx, hy]
      simp
    refine ⟨R, hR, hrs, fun idx => ⟨?_, fun hi => ?_⟩, key⟩
    · rintro ⟨v, hv⟩
      rw [hrs, ← inBounds_iff]
      rw [hrg] at hv
      cases hin : inBounds idx r with
      | true => rfl
      | false => rw [hin] at hv; simp at hv
    · obtain ⟨_, _, _, _, z, _, _, _, _, hz, _⟩ := key idx (hrs ▸ hi)
      exact ⟨z, hz⟩
  · intro h
    simp only [map2, h2 h, bind, Except.bind]

/-- The value of an expression depends on its names only. -/
theorem eval_congr (lib : Lib V) {look look' : String → Py (Val V)} (e : Term V)
    (h : ∀ s ∈ coNames e, look s = look' s) : Dx.eval lib look e = Dx.eval lib look' e := by
  induction e with
  | num v => rfl
  | name s => exact h s (by simp [coNames])
  | bin o a b iha ihb =>
    simp only [Dx.eval, iha fun s hs => h s (by simp [coNames, hs]),
      ihb fun s hs => h s (by simp [coNames, hs])]
  | app1 f a iha =>
    simp only [Dx.eval, iha fun s hs => h s (by simp [coNames, hs]), h f (by simp [coNames])]
  | app2 f a b iha ihb =>
    simp only [Dx.eval, iha fun s hs => h s (by simp [coNames, hs]),
      ihb fun s hs => h s (by simp [coNames, hs]), h f (by simp [coNames])]
  | attr a s iha =>
    simp only [Dx.eval, iha fun s hs => h s (by simp [coNames, hs])]

/-- The local variables exist when each name is reserved or known. -/
theorem localsOf_ok (n : Vr.Num V) (vars : List (Var V)) {l : List String}
    {locs : List (String × Arr (Option V))} (h : Dx.localsOf n vars l = .ok locs) :
    (∀ s ∈ l, kindOf s = none → getVar vars s ≠ none) := by
  intro s hs hk hg
  rw [localsOf_unknown n vars l s hs hk hg] at h
  cases h

/-- The value of a part of an expression is the one it has alone. -/
theorem call_part (n : Vr.Num V) (lib : Lib V) (ds : Dataset V) {e : Term V} {v : Val V}
    (h : Dx.call n lib e ds = .ok v) :
    (∀ s ∈ coNames e, kindOf s = none → getVar ds.vars s ≠ none) ∧
    ∀ l locs, Dx.localsOf n ds.vars l = .ok locs → (∀ s ∈ coNames e, s ∈ l) →
      Dx.eval lib (look lib locs) e = .ok v := by
  unfold Dx.call at h
  cases h1 : Dx.localsOf n ds.vars (coNames e) with
  | error x => rw [h1] at h; cases x <;> simp [bind, Except.bind] at h
  | ok locs =>
    have hk := localsOf_ok n ds.vars h1
    refine ⟨hk, fun l locs' hl hsub => ?_⟩
    simp only [h1, bind, Except.bind] at h
    have he : Dx.eval lib (look lib locs) e = .ok v := by
      cases h2 : Dx.eval lib (look lib locs) e with
      | error x => rw [h2] at h; cases x <;> simp at h
      | ok w => rw [h2] at h; exact h
    rw [← he]
    apply eval_congr
    intro s hs
    obtain ⟨_, e1, l1, l2⟩ := localsOf_known n ds.vars (coNames e) hk
    obtain ⟨_, e2, m1, m2⟩ := localsOf_known n ds.vars l (localsOf_ok n ds.vars hl)
    rw [h1] at e1; cases e1
    rw [hl] at e2; cases e2
    cases hkk : kindOf s with
    | some k => simp only [look, l2 s (by rw [hkk]; rfl), m2 s (by rw [hkk]; rfl)]
    | none =>
      obtain ⟨v, hv⟩ := Option.ne_none_iff_exists'.1 (hk s hs hkk)
      simp only [look, l1 s hs hkk v hv, m1 s (hsub s hs) hkk v hv]

end Verif
