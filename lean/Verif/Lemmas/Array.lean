import Verif.Spec.Dataset

namespace Verif

open Spec Nd

variable {V : Type}

theorem positions_range (n lo hi : Nat) (h1 : lo ≤ hi) (h2 : hi ≤ n) :
    positions n ⟨some lo, some hi, none⟩ = .ok ((List.range (hi - lo)).map (lo + ·)) := by
  have e1 : adjust n 1 (lo : Int) = lo := by
    simp only [adjust]; split
    · omega
    · split
      · simp; omega
      · rfl
  have e2 : adjust n 1 (hi : Int) = hi := by
    simp only [adjust]; split
    · omega
    · split
      · simp; omega
      · rfl
  simp only [positions, e1, e2]
  have e3 : (if (lo : Int) < hi then ((hi : Int) - lo - 1) / 1 + 1 else 0).toNat = hi - lo := by
    split
    · rw [Int.ediv_one]; omega
    · omega
  simp only [show ¬ ((1 : Int) = 0) by omega, if_false, show ¬ ((1 : Int) < 0) by omega, e3]
  congr 1
  apply List.map_congr_left
  intro k _
  omega

theorem positions_all (n : Nat) : positions n .all = .ok (List.range n) := by
  simp only [positions, Slice.all, show ¬ ((1 : Int) = 0) by omega, if_false,
    show ¬ ((1 : Int) < 0) by omega]
  have e3 : (if (0 : Int) < n then ((n : Int) - 0 - 1) / 1 + 1 else 0).toNat = n := by
    split
    · rw [Int.ediv_one]; omega
    · omega
  rw [e3]
  congr 1
  conv => rhs; rw [← List.map_id (List.range n)]
  apply List.map_congr_left
  intro k _
  simp

theorem set_self {l : List Nat} {i j : Nat} (h : l[i]? = some j) : l.set i j = l := by
  apply List.ext_getElem?
  intro k
  rw [List.getElem?_set]
  split
  · next hk =>
    subst hk
    split
    · exact h.symm
    · next hl => rw [List.getElem?_eq_none (by omega)] at h; cases h
  · rfl

theorem get_set {l : List Nat} {i j : Nat} (h : l[i]? = some j) (k : Nat) :
    (l.set i k)[i]? = some k := by
  have : i < l.length := by
    rw [List.getElem?_eq_some_iff] at h
    exact h.1
  simp [this]

theorem get_none {a : Arr V} (h : ArrOk a) {idx : List Nat} (hi : ¬ Inside a.shape idx) :
    a.get idx = none := by
  cases hg : a.get idx with
  | none => rfl
  | some v => exact absurd ((h idx).1 ⟨v, hg⟩) hi

theorem takeAxis_range {a : Arr V} (h : ArrOk a) {ax n : Nat} (hs : a.shape[ax]? = some n) :
    takeAxis ax (List.range n) a = a := by
  obtain ⟨shape, get⟩ := a
  simp only at hs
  simp only [takeAxis, Arr.mk.injEq, List.length_range, set_self hs, true_and]
  funext idx
  cases hj : idx[ax]? with
  | none =>
    simp only [Option.bind_none]
    refine (get_none h ?_).symm
    rintro ⟨hl, _⟩
    have h1 := (List.getElem?_eq_some_iff.1 hs).1
    rw [List.getElem?_eq_none_iff] at hj
    simp only at hl
    omega
  | some j =>
    simp only [Option.bind_some]
    by_cases hjn : j < n
    · simp [hjn, set_self hj]
    · rw [List.getElem?_eq_none (by simp; omega)]
      simp only [Option.bind_none]
      refine (get_none h ?_).symm
      rintro ⟨_, hc⟩
      exact hjn (hc ax j n hj hs)

/-- The piece `lo .. hi` of an axis. -/
def piece (ax : Nat) (a : Arr V) (c : Nat × Nat) : Arr V :=
  takeAxis ax ((List.range (c.2 - c.1)).map (c.1 + ·)) a

theorem piece_shape (ax : Nat) (a : Arr V) (c : Nat × Nat) (hax : ax < a.shape.length) :
    (piece ax a c).shape = a.shape.set ax (c.2 - c.1) ∧
    (piece ax a c).shape[ax]? = some (c.2 - c.1) := by
  simp [piece, takeAxis, hax]

theorem concatGet_pieces (ax : Nat) (a : Arr V) (hax : ax < a.shape.length)
    (cuts : List (Nat × Nat)) (lo n : Nat) (hc : Cuts lo n cuts) (idx : List Nat) :
    concatGet ax (cuts.map (piece ax a)) idx =
      idx[ax]?.bind fun j => if lo + j < n then a.get (idx.set ax (lo + j)) else none := by
  induction cuts generalizing lo idx with
  | nil =>
    simp only [Cuts] at hc
    simp only [List.map_nil, concatGet]
    cases idx[ax]? with
    | none => rfl
    | some j =>
      simp only [Option.bind_some]
      rw [if_neg (by omega)]
  | cons c t ih =>
    obtain ⟨s, e⟩ := c
    obtain ⟨h1, h2, h3⟩ := hc
    subst h1
    simp only [List.map_cons, concatGet]
    cases hj : idx[ax]? with
    | none => rfl
    | some j =>
      simp only [Option.bind_some, (piece_shape ax a (s, e) hax).2]
      have hen : e ≤ n := by
        clear ih
        induction t generalizing e with
        | nil => simp only [Cuts] at h3; omega
        | cons c t ih =>
          obtain ⟨s', e'⟩ := c
          obtain ⟨g1, g2, g3⟩ := h3
          have := ih e' (by omega) g3
          omega
      by_cases hlt : j < e - s
      · rw [if_pos hlt, if_pos (by omega)]
        simp [piece, takeAxis, hj, hlt]
      · rw [if_neg hlt, ih e h3, get_set hj]
        simp only [Option.bind_some, List.set_set]
        have : e + (j - (e - s)) = s + j := by omega
        rw [this]

theorem eraseIdx_set (l : List Nat) (i x : Nat) : (l.set i x).eraseIdx i = l.eraseIdx i := by
  induction l generalizing i with
  | nil => rfl
  | cons a t ih =>
    cases i with
    | zero => rfl
    | succ i => simp [ih]

theorem sizes_pieces (ax : Nat) (a : Arr V) (hax : ax < a.shape.length)
    (cuts : List (Nat × Nat)) (lo n : Nat) (hc : Cuts lo n cuts) :
    ((cuts.map (piece ax a)).filterMap (·.shape[ax]?)).sum + lo = n := by
  induction cuts generalizing lo with
  | nil => simpa [Cuts] using hc
  | cons c t ih =>
    obtain ⟨s, e⟩ := c
    obtain ⟨h1, h2, h3⟩ := hc
    subst h1
    have := ih e h3
    simp only [List.map_cons, List.filterMap_cons, (piece_shape ax a (s, e) hax).2,
      List.sum_cons]
    omega

/-- Concatenating the pieces gives the array back. -/
theorem concatenate_pieces {a : Arr V} (h : ArrOk a) {ax n : Nat} (hs : a.shape[ax]? = some n)
    (cuts : List (Nat × Nat)) (hne : cuts ≠ []) (hc : Cuts 0 n cuts) :
    concatenate ax (cuts.map (piece ax a)) = .ok a := by
  have hax : ax < a.shape.length := (List.getElem?_eq_some_iff.1 hs).1
  cases cuts with
  | nil => exact absurd rfl hne
  | cons c t =>
    have hsum := sizes_pieces ax a hax (c :: t) 0 n hc
    have hget := concatGet_pieces ax a hax (c :: t) 0 n hc
    have hcond : ax < (piece ax a c).shape.length ∧ ∀ b ∈ t.map (piece ax a),
        b.shape.length = (piece ax a c).shape.length ∧
        b.shape.eraseIdx ax = (piece ax a c).shape.eraseIdx ax := by
      refine ⟨by simp [(piece_shape ax a c hax).1, hax], ?_⟩
      intro b hb
      obtain ⟨c', _, rfl⟩ := List.mem_map.1 hb
      rw [(piece_shape ax a c hax).1, (piece_shape ax a c' hax).1]
      simp [eraseIdx_set]
    rw [List.map_cons] at hsum hget
    simp only [List.map_cons, concatenate]
    rw [if_pos hcond]
    congr 1
    obtain ⟨shape, get⟩ := a
    simp only at hs
    simp only [Arr.mk.injEq]
    constructor
    · have : ((piece ax ⟨shape, get⟩ c :: t.map (piece ax ⟨shape, get⟩)).filterMap
          (·.shape[ax]?)).sum = n := by omega
      rw [this, (piece_shape ax _ c hax).1]
      simp [set_self hs]
    · funext idx
      rw [hget]
      cases hj : idx[ax]? with
      | none =>
        simp only [Option.bind_none]
        refine (get_none h ?_).symm
        rintro ⟨hl, _⟩
        rw [List.getElem?_eq_none_iff] at hj
        simp only at hl hax
        omega
      | some j =>
        simp only [Option.bind_some, Nat.zero_add]
        split
        · rw [set_self hj]
        · next hjn =>
          refine (get_none h ?_).symm
          rintro ⟨_, hc⟩
          exact hjn (hc ax j n hj hs)

/-- A value of the `k`-th array is found at its index shifted by the sizes before. -/
theorem concatGet_append (ax : Nat) (arrays : List (Arr V)) (k : Nat) (a : Arr V)
    (hk : arrays[k]? = some a) (hax : ∀ b ∈ arrays, ax < b.shape.length) (n j : Nat)
    (hn : a.shape[ax]? = some n) (hj : j < n) (idx : List Nat) (hi : idx[ax]? = some j) :
    concatGet ax arrays
      (idx.set ax (((arrays.take k).filterMap (·.shape[ax]?)).sum + j)) = a.get idx := by
  induction arrays generalizing k with
  | nil => simp at hk
  | cons b t ih =>
    simp only [concatGet, get_set hi, Option.bind_some]
    obtain ⟨m, hb⟩ : ∃ m, b.shape[ax]? = some m :=
      ⟨_, List.getElem?_eq_getElem (hax b (by simp))⟩
    cases k with
    | zero =>
      simp only [List.getElem?_cons_zero, Option.some.injEq] at hk
      subst hk
      simp [hn, hj, set_self hi]
    | succ k =>
      simp only [List.take_succ_cons, List.filterMap_cons, hb, List.sum_cons,
        Option.bind_some]
      rw [if_neg (by omega), List.set_set]
      have := ih k (by simpa using hk) fun c hc => hax c (by simp [hc])
      rw [← this]
      congr 2
      omega

theorem takeAxis_arrOk {a : Arr V} (h : ArrOk a) {ax n : Nat} (hs : a.shape[ax]? = some n)
    (pos : List Nat) (hp : ∀ p ∈ pos, p < n) : ArrOk (takeAxis ax pos a) := by
  have hax : ax < a.shape.length := (List.getElem?_eq_some_iff.1 hs).1
  intro idx
  simp only [takeAxis]
  constructor
  · rintro ⟨v, hv⟩
    cases hj : idx[ax]? with
    | none => rw [hj] at hv; cases hv
    | some j =>
      rw [hj] at hv
      simp only [Option.bind_some] at hv
      cases hq : pos[j]? with
      | none => rw [hq] at hv; cases hv
      | some q =>
        rw [hq] at hv
        simp only [Option.bind_some] at hv
        obtain ⟨h1, h2⟩ := (h _).1 ⟨v, hv⟩
        refine ⟨by simpa using h1, ?_⟩
        intro i x m hx hm
        rw [List.getElem?_set] at hm
        split at hm
        · next hi =>
          subst hi
          simp only [Option.some.injEq] at hm
          subst hm
          rw [hj] at hx
          cases hx
          exact (List.getElem?_eq_some_iff.1 hq).1
        · next hi =>
          refine h2 i x m ?_ hm
          rw [List.getElem?_set, if_neg hi, hx]
  · rintro ⟨h1, h2⟩
    have hlen : idx.length = a.shape.length := by simpa using h1
    obtain ⟨j, hj⟩ : ∃ j, idx[ax]? = some j := ⟨_, List.getElem?_eq_getElem (by omega)⟩
    have hjl : j < pos.length := h2 ax j pos.length hj (by simp [hax])
    have hq : pos[j]? = some pos[j] := List.getElem?_eq_getElem hjl
    simp only [hj, Option.bind_some, hq]
    rw [h]
    refine ⟨by simp [hlen], ?_⟩
    intro i x m hx hm
    rw [List.getElem?_set] at hx
    split at hx
    · next hi =>
      subst hi
      rw [if_pos (by omega)] at hx
      rw [hs] at hm
      cases hx; cases hm
      exact hp _ (List.getElem_mem hjl)
    · next hi =>
      refine h2 i x m hx ?_
      rw [List.getElem?_set, if_neg hi, hm]

theorem cuts_le {a n : Nat} {cuts : List (Nat × Nat)} (h : Cuts a n cuts) :
    a ≤ n ∧ ∀ c ∈ cuts, c.1 ≤ c.2 ∧ c.2 ≤ n := by
  induction cuts generalizing a with
  | nil => simp only [Cuts] at h; exact ⟨by omega, by simp⟩
  | cons c t ih =>
    obtain ⟨s, e⟩ := c
    obtain ⟨h1, h2, h3⟩ := h
    obtain ⟨g1, g2⟩ := ih h3
    refine ⟨by omega, ?_⟩
    intro c hc
    rcases List.mem_cons.1 hc with rfl | hc2
    · exact ⟨h2, g1⟩
    · exact g2 c hc2

/-! ### Selection by a tuple of slices -/

/-- The index in the original array, axis by axis. -/
def pickFrom (ax : Nat) : List (List Nat) → List Nat → Option (List Nat)
  | [], idx => some idx
  | p :: ps, idx =>
    idx[ax]?.bind fun j => p[j]?.bind fun q => pickFrom (ax + 1) ps (idx.set ax q)

theorem getitem_slices (key : List Slice) (ax : Nat) (a b : Arr V)
    (h : getitem ax (key.map .slice) a = .ok b) :
    ∃ ps : List (List Nat), ps.length = key.length ∧
      (∀ (i : Nat) (s : Slice), key[i]? = some s →
        ∃ n p, a.shape[ax + i]? = some n ∧ positions n s = .ok p ∧ ps[i]? = some p ∧
          b.shape[ax + i]? = some p.length) ∧
      b.shape.length = a.shape.length ∧
      (∀ i, i < ax ∨ ax + key.length ≤ i → b.shape[i]? = a.shape[i]?) ∧
      ∀ idx, b.get idx = (pickFrom ax ps idx).bind a.get := by
  induction key generalizing ax b with
  | nil =>
    simp only [List.map_nil, getitem] at h
    cases h
    exact ⟨[], rfl, by simp, rfl, fun _ _ => rfl, fun idx => rfl⟩
  | cons s t ih =>
    simp only [List.map_cons, getitem, bind, Except.bind] at h
    split at h
    · cases h
    · next c hc =>
      obtain ⟨ps, h1, h2, h3, h4, h5⟩ := ih (ax + 1) c hc
      simp only [selAxis] at h
      split at h
      · cases h
      · next n hn =>
        simp only [bind, Except.bind] at h
        split at h
        · cases h
        · next p hp =>
          cases h
          have hlt : ax < c.shape.length := (List.getElem?_eq_some_iff.1 hn).1
          refine ⟨p :: ps, by simp [h1], ?_, by simp [takeAxis, h3], ?_, ?_⟩
          · intro i s' hi
            cases i with
            | zero =>
              simp only [List.getElem?_cons_zero, Option.some.injEq] at hi
              subst hi
              refine ⟨n, p, ?_, hp, rfl, ?_⟩
              · rw [Nat.add_zero, ← h4 ax (.inl (by omega)), hn]
              · simp [takeAxis, hlt]
            | succ i =>
              obtain ⟨m, q, g1, g2, g3, g4⟩ := h2 i s' (by simpa using hi)
              refine ⟨m, q, ?_, g2, by simpa using g3, ?_⟩
              · rw [← g1]; congr 1; omega
              · rw [← g4]
                simp only [takeAxis]
                rw [List.getElem?_set]
                rw [if_neg (by omega)]
                congr 1; omega
          · intro i hi
            rw [← h4 i (by simp at hi; omega)]
            simp only [takeAxis]
            rw [List.getElem?_set, if_neg (by simp at hi; omega)]
          · intro idx
            simp only [takeAxis, pickFrom]
            cases idx[ax]? with
            | none => rfl
            | some j =>
              simp only [Option.bind_some]
              cases p[j]? with
              | none => rfl
              | some q => simp only [Option.bind_some]; exact h5 _

theorem pickFrom_pick (pos : String → List Nat) (dims : List String) (pre idx : List Nat) :
    pickFrom pre.length (dims.map pos) (pre ++ idx) =
      (pick pos dims idx).map (pre ++ ·) := by
  induction dims generalizing pre idx with
  | nil => simp [pickFrom, pick]
  | cons d t ih =>
    cases idx with
    | nil => simp [pickFrom, pick]
    | cons j idx =>
      simp only [List.map_cons, pickFrom, pick]
      have : (pre ++ j :: idx)[pre.length]? = some j := by simp
      simp only [this, Option.bind_some]
      cases (pos d)[j]? with
      | none => rfl
      | some q =>
        simp only [Option.bind_some]
        have e : (pre ++ j :: idx).set pre.length q = (pre ++ [q]) ++ idx := by
          simp
        rw [e]
        have := ih (pre ++ [q]) idx
        simp only [List.length_append, List.length_singleton] at this
        rw [this]
        cases pick pos t idx <;> simp

end Verif
