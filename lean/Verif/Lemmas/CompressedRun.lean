import Verif.Lemmas.Compressed

/-! The memory of a program that uses compressed arrays. -/

namespace Verif

open Spec Nd Chunk Ca

variable {V : Type}

/-- A zarr array that holds an array. -/
structure HoldsArr (z : ZArray V) (a : Arr V) : Prop where
  chunks : ChunksFor z.chunk z.shape
  shape : z.shape = a.shape
  ok : ArrOk a
  get : ∀ idx, (readEager z).get idx = a.get idx

/-- The zarr arrays hold the arrays of the specification. -/
structure Backs (w : World V) (m : Memory V) : Prop where
  objs : w.objs = m.objs
  length : w.arrays.length = m.cells.length
  refs : ∀ o ∈ m.objs, o.1 < m.cells.length
  arrays : ∀ (k : Nat) (z : ZArray V) (a : Arr V), w.arrays[k]? = some z →
    m.cells[k]? = some a → HoldsArr z a

theorem zarrArray_holds (eqv : V → V → Bool) {a : Arr V} (ha : ArrOk a) {cs : List Nat}
    (hc : ChunksFor cs a.shape) (fill : Option V) : HoldsArr (zarrArray eqv a cs fill) a := by
  have h := (C21_update eqv
    { shape := a.shape, chunk := cs, fill := fill, data := fun _ => none }
    (zarrArray eqv a cs fill) hc.1 hc.2 a ha).2 (by simp [updateArray]; rfl)
  exact ⟨by rw [h.1, h.2.1]; exact hc, h.1, ha, h.2.2.2⟩

/-- The array that is read has the values of the one it holds. -/
theorem holds_readEager {z : ZArray V} {a : Arr V} (h : HoldsArr z a) : readEager z = a := by
  have h1 : (readEager z).shape = a.shape := h.shape
  have h2 : (readEager z).get = a.get := funext h.get
  cases hr : readEager z with
  | mk s g =>
    cases a with
    | mk s' g' =>
      rw [hr] at h1 h2
      simp only at h1 h2
      rw [h1, h2]

theorem assignable_get {v : Value V} {s : List Nat} {g : List Nat → Option V}
    (h : Assignable v s g) : v.fits s = true ∧ v.get = g ∧ ∀ j, Inside s j → ∃ x, g j = some x := by
  cases h with
  | num v s => exact ⟨rfl, rfl, fun _ _ => ⟨v, rfl⟩⟩
  | arr d m hd => exact ⟨by simp [Value.fits], rfl, fun j hj => (hd j).2 hj⟩

/-- An assignment replaces the designated elements. -/
theorem assigned_holds {z : ZArray V} {a b : Arr V} (h : HoldsArr z a) {key : List Ix}
    {s : List Nat} (hs : SelectionShape key a.shape s) {v : Value V} {g : List Nat → Option V}
    (hv : Assignable v s g) (hb : Replaced key g a b) : HoldsArr (assigned z key v) b := by
  obtain ⟨_, hg, hsome⟩ := assignable_get hv
  have hget : ∀ idx, (readEager (assigned z key v)).get idx = b.get idx := by
    intro idx
    have hsh : (assigned z key v).shape = a.shape := h.shape
    simp only [readEager, hsh]
    by_cases hin : inBounds idx a.shape = true
    · rw [if_pos hin]
      have hi := (inBounds_iff _ _).1 hin
      rw [read_assigned z key v idx (by rw [hi.1, h.chunks.1, h.shape]) h.chunks.2]
      simp only [target, h.shape, hin, if_true]
      cases hpj : project key a.shape idx with
      | some j =>
        simp only
        rw [hb.new j idx hi ((project_iff hs hi j).1 hpj), hg]
      | none =>
        simp only
        rw [hb.old idx fun j hd => by rw [← project_iff hs hi] at hd; rw [hpj] at hd; cases hd]
        rw [← h.get]
        simp only [readEager, h.shape, hin, if_true]
    · rw [if_neg hin, hb.outside idx fun hi => hin ((inBounds_iff _ _).2 hi)]
  refine ⟨h.chunks, h.shape.trans hb.shape.symm, ?_, hget⟩
  intro idx
  rw [hb.shape]
  constructor
  · rintro ⟨x, hx⟩
    apply Classical.byContradiction
    intro hn
    rw [hb.outside idx hn] at hx
    cases hx
  · intro hi
    cases hpj : project key a.shape idx with
    | some j =>
      have hd := (project_iff hs hi j).1 hpj
      rw [hb.new j idx hi hd]
      exact hsome j (designates_inside hs hi hd)
    | none =>
      rw [hb.old idx fun j hd => by rw [← project_iff hs hi] at hd; rw [hpj] at hd; cases hd]
      exact (h.ok idx).2 hi

/-- The result of an assignment exists. -/
theorem replaced_exists {a : Arr V} (ha : ArrOk a) {key : List Ix} {s : List Nat}
    (hs : SelectionShape key a.shape s) (g : List Nat → Option V) :
    ∃ b, Replaced key g a b := by
  refine ⟨⟨a.shape, fun idx => match target key a.shape idx with
    | some j => g j
    | none => a.get idx⟩, rfl, ?_, ?_, ?_⟩
  · intro idx hn
    have : inBounds idx a.shape = false := by
      cases h : inBounds idx a.shape with
      | false => rfl
      | true => exact absurd ((inBounds_iff _ _).1 h) hn
    simp only [target, this]
    exact arrOk_none ha this
  · intro j src hi hd
    simp only [target, (inBounds_iff _ _).2 hi, if_true, (project_iff hs hi j).2 hd]
  · intro idx hn
    simp only [target]
    by_cases hin : inBounds idx a.shape = true
    · rw [if_pos hin]
      cases hpj : project key a.shape idx with
      | some j => exact absurd ((project_iff hs ((inBounds_iff _ _).1 hin) j).1 hpj) (hn j)
      | none => rfl
    · rw [if_neg hin]

theorem backs_obj {w : World V} {m : Memory V} (h : Backs w m) {i k : Nat} {f : Option V}
    {a : Arr V} (ho : m.objs[i]? = some (k, f)) (ha : m.cells[k]? = some a) :
    ∃ z, w.arrays[k]? = some z ∧ w.obj i = some ⟨z, f⟩ ∧ HoldsArr z a := by
  have hk : k < w.arrays.length := by
    rw [h.length]
    exact (List.getElem?_eq_some_iff.1 ha).1
  refine ⟨w.arrays[k], List.getElem?_eq_getElem hk, ?_,
    h.arrays k _ a (List.getElem?_eq_getElem hk) ha⟩
  simp only [World.obj, h.objs, ho, List.getElem?_eq_getElem hk]

theorem backs_push {w : World V} {m : Memory V} (h : Backs w m) {z : ZArray V} {a : Arr V}
    (hz : HoldsArr z a) (f : Option V) :
    Backs (w.push z f) ⟨m.cells ++ [a], m.objs ++ [(m.cells.length, f)]⟩ := by
  refine ⟨by simp [World.push, h.objs, h.length], by simp [World.push, h.length], ?_, ?_⟩
  · intro o ho
    rcases List.mem_append.1 ho with ho | ho
    · have := h.refs o ho
      simp only [List.length_append]
      omega
    · cases List.mem_singleton.1 ho
      simp
  · intro k z' a' h1 h2
    simp only [World.push] at h1
    by_cases hk : k < m.cells.length
    · rw [List.getElem?_append_left (by rw [h.length]; exact hk)] at h1
      rw [List.getElem?_append_left hk] at h2
      exact h.arrays k z' a' h1 h2
    · rw [List.getElem?_append_right (by rw [h.length]; omega)] at h1
      rw [List.getElem?_append_right (by omega)] at h2
      rw [List.getElem?_singleton] at h1 h2
      split at h1
      · cases h1
        split at h2
        · cases h2; exact hz
        · cases h2
      · cases h1

/-- An accepted operation has the effect of the specification. -/
theorem step_backs (eqv : V → V → Bool) (zero : V) {w : World V} {m m' : Memory V} {o : Ca.Op V}
    (h : Backs w m) (hs : MemStep m o m') :
    (Ca.step eqv zero w o).2 = .ok () ∧ Backs (Ca.step eqv zero w o).1 m' := by
  cases hs with
  | new a cs fill ha hc =>
    exact ⟨rfl, backs_push h (zarrArray_holds eqv ha hc _) fill⟩
  | zarr z a ha hc hsh hrd =>
    refine ⟨rfl, backs_push h ⟨hc, hsh, ha, fun idx => ?_⟩ none⟩
    simp only [readEager, hsh]
    by_cases hin : inBounds idx a.shape = true
    · rw [if_pos hin, hrd idx ((inBounds_iff _ _).1 hin)]
    · rw [if_neg hin, arrOk_none ha (by simpa using hin)]
  | wrap i fill o ho =>
    simp only [Ca.step, h.objs, ho]
    refine ⟨trivial, by simp, h.length, ?_, h.arrays⟩
    intro o' ho'
    rcases List.mem_append.1 ho' with ho' | ho'
    · exact h.refs o' ho'
    · cases List.mem_singleton.1 ho'
      exact h.refs o (List.mem_of_getElem? ho)
  | rechunk i k f a cs ho ha hc =>
    obtain ⟨z, _, hz, hh⟩ := backs_obj h ho ha
    simp only [Ca.step, hz]
    refine ⟨trivial, backs_push h ?_ none⟩
    simp only [CArray.rechunk, holds_readEager hh]
    exact zarrArray_holds eqv hh.ok hc f
  | assign i k f a b key v s g ho ha hsel hv hb =>
    obtain ⟨z, hz, _, hh⟩ := backs_obj h ho ha
    have hset : setArray z key v = .ok (assigned z key v) := by
      simp only [setArray, hh.shape, selShape_ok hsel, bind, Except.bind,
        (assignable_get hv).1, if_true]
    simp only [Ca.step, h.objs, ho, hz, hset]
    refine ⟨trivial, rfl, by simp [h.length], ?_, ?_⟩
    · intro o' ho'
      rw [List.length_set]
      exact h.refs o' ho'
    · intro k' z' a' h1 h2
      have hkw : k < w.arrays.length := (List.getElem?_eq_some_iff.1 hz).1
      have hkm : k < m.cells.length := (List.getElem?_eq_some_iff.1 ha).1
      simp only at h1 h2
      by_cases hkk : k = k'
      · subst hkk
        rw [List.getElem?_set_self hkw] at h1
        rw [List.getElem?_set_self hkm] at h2
        cases h1
        cases h2
        exact assigned_holds hh hsel hv hb
      · rw [List.getElem?_set_ne hkk] at h1 h2
        exact h.arrays k' z' a' h1 h2

/-- A refused operation raises and changes nothing. -/
theorem step_refused (eqv : V → V → Bool) (zero : V) {w : World V} {m : Memory V} {o : Ca.Op V}
    (h : Backs w m) (hr : Refused m o) :
    (Ca.step eqv zero w o).1 = w ∧ ((Ca.step eqv zero w o).2 = .error .valueError ∨
      (Ca.step eqv zero w o).2 = .error .indexError) := by
  cases hr with
  | zarr z f => exact ⟨rfl, .inl rfl⟩
  | key i k f a key v ho ha hn =>
    obtain ⟨z, hz, _, hh⟩ := backs_obj h ho ha
    have hsel : ∃ e, selShape key a.shape = .error e ∧ (e = .valueError ∨ e = .indexError) := by
      cases hs : selShape key a.shape with
      | ok s => exact absurd (selShape_spec hs) (hn s)
      | error e => exact ⟨e, rfl, selShape_error hs⟩
    obtain ⟨e, he, hc⟩ := hsel
    have hset : setArray z key v = .error e := by
      simp only [setArray, hh.shape, he, bind, Except.bind]
    simp only [Ca.step, h.objs, ho, hz, hset]
    rcases hc with rfl | rfl
    · exact ⟨trivial, .inl rfl⟩
    · exact ⟨trivial, .inr rfl⟩
  | shape i k f a d key s mask ho ha hsel hne =>
    obtain ⟨z, hz, _, hh⟩ := backs_obj h ho ha
    have hset : setArray z key (.arr d mask) = .error .valueError := by
      simp [setArray, hh.shape, selShape_ok hsel, bind, Except.bind, Value.fits, hne]
    simp only [Ca.step, h.objs, ho, hz, hset]
    exact ⟨trivial, .inl trivial⟩

/-- The result of indexing has the shape of the selection. -/
theorem getitem_shape {key : List Ix} {shape s : List Nat} (h : SelectionShape key shape s)
    (pre : List Nat) (a : Arr V) (hs : a.shape = pre ++ shape) :
    ∃ b, getitem pre.length key a = .ok b ∧ b.shape = pre ++ s := by
  induction h generalizing pre with
  | done shape => exact ⟨a, rfl, hs⟩
  | int x n key shape s h1 h2 _ ih =>
    obtain ⟨b, e1, e2⟩ := ih (pre ++ [n]) (by simp [hs])
    rw [List.length_append, List.length_singleton] at e1
    obtain ⟨p, p1, p2, p3⟩ := indexPositions_one h1 h2
    have hax : b.shape[pre.length]? = some n := by
      rw [e2]
      simp
    refine ⟨dropAxis pre.length p b, ?_, ?_⟩
    · simp only [getitem, e1, bind, Except.bind, selAxis, hax, p1]
    · simp [dropAxis, e2, List.eraseIdx_append_of_length_le]
  | slice sl n pos key shape s h1 hp _ ih =>
    obtain ⟨b, e1, e2⟩ := ih (pre ++ [n]) (by simp [hs])
    rw [List.length_append, List.length_singleton] at e1
    have hax : b.shape[pre.length]? = some n := by
      rw [e2]
      simp
    refine ⟨takeAxis pre.length pos b, ?_, ?_⟩
    · simp only [getitem, e1, bind, Except.bind, selAxis, hax, hp]
    · simp [takeAxis, e2]

theorem shows_values (eqv : V → V → Bool) (fill : Option V) (b : Arr V) {idx : List Nat} {x : V}
    (hx : b.get idx = some x) : ∃ y, values eqv fill b idx = some y ∧ Appears eqv fill x y := by
  cases fill with
  | none => exact ⟨some x, by simp [values, hx], fun f hf => (nomatch hf), fun _ => rfl⟩
  | some f =>
    cases he : eqv x f with
    | true =>
      refine ⟨none, by simp [values, hx, he], fun _ _ _ => rfl, fun h => ?_⟩
      have := h f rfl
      rw [he] at this
      cases this
    | false =>
      refine ⟨some x, by simp [values, hx, he], fun g hg he' => ?_, fun _ => rfl⟩
      cases hg
      rw [he] at he'
      cases he'

/-- What a compressed array shows of the array it holds. -/
theorem getItem_holds (eqv : V → V → Bool) {c : CArray V} {a : Arr V} (h : HoldsArr c.array a)
    {key : List Ix} {s : List Nat} (hs : SelectionShape key a.shape s) :
    ∃ r, getItem eqv c key = .ok r ∧ r.shape = s ∧
      ∀ j src, Inside a.shape src → Designates key a.shape j src →
        ∃ x y, a.get src = some x ∧ r.get j = some y ∧ Appears eqv c.fill x y := by
  obtain ⟨b, h1, h2⟩ := getitem_shape hs [] a rfl
  obtain ⟨b', rest, h1', _, h3⟩ := getitem_from key [] a.shape a rfl (selection_allowed hs)
  rw [h1] at h1'
  cases h1'
  refine ⟨⟨b.shape, values eqv c.fill b⟩, ?_, h2, ?_⟩
  · simp only [getItem, h.shape, selShape_ok hs, holds_readEager h, bind, Except.bind]
    rw [show getitem 0 key a = .ok b from h1]
  · intro j src hi hd
    obtain ⟨x, hx⟩ := (h.ok src).2 hi
    have hb : b.get j = some x := (h3 [] j src rfl hd).trans hx
    obtain ⟨y, e1, e2⟩ := shows_values eqv c.fill b hb
    exact ⟨x, y, hx, e1, e2⟩

theorem run_backs (eqv : V → V → Bool) (zero : V) {w : World V} {m m' : Memory V}
    {ops : List (Ca.Op V)} (h : Backs w m) (hr : MemRun m ops m') :
    Backs (Ca.run eqv zero w ops) m' := by
  induction hr generalizing w with
  | nil m => exact h
  | step m m' m'' o t hs _ ih => exact ih (step_backs eqv zero h hs).2
  | skip m m' o t hs _ ih =>
    simp only [Ca.run, (step_refused eqv zero h hs).1]
    exact ih h

end Verif
