import Verif.Spec.DatasetEffects
import Verif.Props.Dataset
import Verif.Lemmas.PipelineAccept
import Verif.Lemmas.View

/-! C55: exact effect of the operations on a dataset. -/

namespace Verif

open Spec Nd Ds

variable {V : Type}

theorem mem_down {n p : Nat} (hp : p < n) {st s hi lo : Int} (hst : st < 0)
    (hs : s = max (-1) hi) (hlb : -1 ≤ lo) :
    (∃ k, k < (if lo < s then (s - lo - 1) / (-st) + 1 else 0).toNat ∧
      (s + (k : Int) * st).toNat = p) ↔ ((p : Int) ≤ hi ∧ st ∣ hi - p ∧ lo < p) := by
  constructor
  · rintro ⟨k, hk, rfl⟩
    split at hk
    · next hlt =>
      have hk' : (k : Int) ≤ (s - lo - 1) / (-st) := by omega
      have hmul : (k : Int) * (-st) ≤ s - lo - 1 :=
        Int.le_trans (Int.mul_le_mul_of_nonneg_right hk' (by omega))
          (Int.ediv_mul_le _ (by omega))
      rw [Int.mul_neg] at hmul
      have hge : 0 ≤ (k : Int) * (-st) := Int.mul_nonneg (by omega) (by omega)
      rw [Int.mul_neg] at hge
      refine ⟨by omega, ⟨-k, ?_⟩, by omega⟩
      rw [Int.mul_neg, Int.mul_comm st k]
      omega
    · simp at hk
  · rintro ⟨h1, ⟨c, hc⟩, h3⟩
    have hc0 : 0 ≤ -c := by
      refine Classical.byContradiction fun hcc => ?_
      have : st * c ≤ st * 1 := Int.mul_le_mul_of_nonpos_left (by omega) (by omega)
      omega
    refine ⟨(-c).toNat, ?_, ?_⟩
    · rw [if_pos (by omega)]
      have : -c ≤ (s - lo - 1) / (-st) := by
        rw [Int.le_ediv_iff_mul_le (by omega), Int.neg_mul_neg, Int.mul_comm]
        omega
      omega
    · have : (((-c).toNat : Nat) : Int) = -c := by omega
      rw [this, Int.neg_mul, Int.mul_comm c st]
      omega

theorem mem_up {n p : Nat} (hp : p < n) {st s hi lo : Int} (hst : 0 < st)
    (hs : s = min (n : Int) lo) (hlo : 0 ≤ lo) (hub : hi ≤ n) :
    (∃ k, k < (if s < hi then (hi - s - 1) / st + 1 else 0).toNat ∧
      (s + (k : Int) * st).toNat = p) ↔ (lo ≤ (p : Int) ∧ st ∣ p - lo ∧ p < hi) := by
  constructor
  · rintro ⟨k, hk, rfl⟩
    split at hk
    · next hlt =>
      have hk' : (k : Int) ≤ (hi - s - 1) / st := by omega
      have hmul : (k : Int) * st ≤ hi - s - 1 :=
        Int.le_trans (Int.mul_le_mul_of_nonneg_right hk' (by omega))
          (Int.ediv_mul_le _ (by omega))
      have hge : 0 ≤ (k : Int) * st := Int.mul_nonneg (by omega) (by omega)
      refine ⟨by omega, ⟨k, ?_⟩, by omega⟩
      rw [Int.mul_comm st k]
      omega
    · simp at hk
  · rintro ⟨h1, ⟨c, hc⟩, h3⟩
    have hc0 : 0 ≤ c := by
      refine Classical.byContradiction fun hcc => ?_
      have : st * c ≤ st * (-1) := Int.mul_le_mul_of_nonneg_left (by omega) (by omega)
      omega
    refine ⟨c.toNat, ?_, ?_⟩
    · rw [if_pos (by omega)]
      have : c ≤ (hi - s - 1) / st := by
        rw [Int.le_ediv_iff_mul_le (by omega), Int.mul_comm]
        omega
      omega
    · have : ((c.toNat : Nat) : Int) = c := by omega
      rw [this, Int.mul_comm c st]
      omega

theorem adjust_down {n : Nat} {st : Int} (h : st < 0) (x : Int) :
    adjust n st x = max (-1) (min ((n : Int) - 1) (fromEnd n x)) := by
  simp only [adjust, fromEnd, h, if_true]
  (repeat' split) <;> omega

theorem adjust_up {n : Nat} {st : Int} (h : 0 < st) (x : Int) :
    adjust n st x = min (n : Int) (max 0 (fromEnd n x)) := by
  simp only [adjust, fromEnd, show ¬ (st < 0) by omega, if_false]
  (repeat' split) <;> omega

theorem positions_mem_step (n : Nat) (start stop : Option Int) (st : Int) (pos : List Nat)
    (h : positions n ⟨start, stop, some st⟩ = .ok pos) (p : Nat) (hp : p < n) :
    p ∈ pos ↔ InSlice n ⟨start, stop, some st⟩ p := by
  simp only [positions] at h
  split at h
  · cases h
  · next hne =>
    cases h
    simp only [InSlice, List.mem_map, List.mem_range]
    rcases Int.lt_or_lt_of_ne hne with hneg | hpos
    · simp only [hneg, if_true, show ¬ (0 < st) by omega, false_imp_iff, true_and, true_imp_iff]
      cases start with
      | none =>
        cases stop with
        | none =>
          simp only
          rw [mem_down hp hneg (hi := (n : Int) - 1) (by omega) (by omega)]
          simp
          omega
        | some y =>
          simp only [adjust_down hneg]
          rw [mem_down hp hneg (hi := (n : Int) - 1) (by omega) (by omega)]
          simp only [Option.some.injEq, forall_eq']
          omega
      | some x =>
        cases stop with
        | none =>
          simp only [adjust_down hneg]
          rw [mem_down hp hneg (hi := min ((n : Int) - 1) (fromEnd n x)) (by omega) (by omega)]
          simp
          omega
        | some y =>
          simp only [adjust_down hneg]
          rw [mem_down hp hneg (hi := min ((n : Int) - 1) (fromEnd n x)) (by omega) (by omega)]
          simp only [Option.some.injEq, forall_eq']
          omega
    · simp only [hpos, show ¬ (st < 0) by omega, if_false, false_imp_iff, and_true, true_imp_iff]
      cases start with
      | none =>
        cases stop with
        | none =>
          simp only
          rw [mem_up hp hpos (lo := 0) (by omega) (by omega) (by omega)]
          simp
          omega
        | some y =>
          simp only [adjust_up hpos]
          rw [mem_up hp hpos (lo := 0) (by omega) (by omega) (by omega)]
          simp only [Option.some.injEq, forall_eq']
          omega
      | some x =>
        cases stop with
        | none =>
          simp only [adjust_up hpos]
          rw [mem_up hp hpos (lo := max 0 (fromEnd n x)) (by omega) (by omega) (by omega)]
          simp
          omega
        | some y =>
          simp only [adjust_up hpos]
          rw [mem_up hp hpos (lo := max 0 (fromEnd n x)) (by omega) (by omega) (by omega)]
          simp only [Option.some.injEq, forall_eq']
          omega

/-- The positions of a slice are the designated ones. -/
theorem positions_mem (n : Nat) (s : Slice) (pos : List Nat) (h : positions n s = .ok pos)
    (p : Nat) (hp : p < n) : p ∈ pos ↔ InSlice n s p := by
  obtain ⟨start, stop, step⟩ := s
  cases step with
  | none => exact positions_mem_step n start stop 1 pos h p hp
  | some st => exact positions_mem_step n start stop st pos h p hp

theorem indexPositions_spec (n : Nat) (l : List Int) :
    ((∀ i ∈ l, 0 ≤ fromEnd n i ∧ fromEnd n i < n) →
      ∃ pos, indexPositions n l = .ok pos ∧ ∀ p, p ∈ pos ↔ ∃ i ∈ l, fromEnd n i = p) ∧
    ((¬ ∀ i ∈ l, 0 ≤ fromEnd n i ∧ fromEnd n i < n) →
      indexPositions n l = .error .indexError) := by
  induction l with
  | nil => exact ⟨fun _ => ⟨[], rfl, by simp⟩, fun h => absurd (by simp) h⟩
  | cons i t ih =>
    have hb : (-(n : Int) ≤ i ∧ i < n) ↔ (0 ≤ fromEnd n i ∧ fromEnd n i < n) := by
      unfold fromEnd
      split <;> omega
    constructor
    · intro h
      obtain ⟨pos, h1, h2⟩ := ih.1 fun j hj => h j (List.mem_cons_of_mem _ hj)
      refine ⟨(if i < 0 then i + n else i).toNat :: pos, ?_, ?_⟩
      · simp only [indexPositions, bind, Except.bind, h1]
        rw [if_pos (hb.2 (h i List.mem_cons_self))]
      · intro p
        simp only [List.mem_cons, h2, exists_eq_or_imp]
        have := h i List.mem_cons_self
        unfold fromEnd at this ⊢
        apply or_congr _ Iff.rfl
        split <;> split at this <;> omega
    · intro h
      simp only [indexPositions, bind, Except.bind]
      by_cases ht : ∀ j ∈ t, 0 ≤ fromEnd n j ∧ fromEnd n j < n
      · obtain ⟨pos, h1, _⟩ := ih.1 ht
        rw [h1]
        simp only
        rw [if_neg]
        intro hi
        refine h fun j hj => ?_
        rcases List.mem_cons.1 hj with rfl | hj
        · exact hb.1 hi
        · exact ht j hj
      · rw [ih.2 ht]

/-- `numpy.delete` along an axis. -/
theorem delete_spec (ax : Nat) (ixs : Indexer) (a b : Arr V) (h : delete ax ixs a = .ok b) :
    ∃ n kept, a.shape[ax]? = some n ∧ Acceptable n ixs ∧ kept.Pairwise (· < ·) ∧
      (∀ p, p ∈ kept ↔ p < n ∧ ¬ Designated n ixs p) ∧ b = takeAxis ax kept a := by
  unfold delete at h
  cases hn : a.shape[ax]? with
  | none => rw [hn] at h; cases h
  | some n =>
    rw [hn] at h
    simp only [bind, Except.bind] at h
    have key : ∀ pos : List Nat, (∀ p, p < n → (p ∈ pos ↔ Designated n ixs p)) →
        Acceptable n ixs →
        ∃ n' kept, some n = some n' ∧ Acceptable n' ixs ∧ kept.Pairwise (· < ·) ∧
          (∀ p, p ∈ kept ↔ p < n' ∧ ¬ Designated n' ixs p) ∧
          takeAxis ax ((List.range n).filter fun p => decide (p ∉ pos)) a = takeAxis ax kept a := by
      intro pos hpos hacc
      refine ⟨n, _, rfl, hacc, List.Pairwise.filter _ List.pairwise_lt_range, ?_, rfl⟩
      intro p
      simp only [List.mem_filter, List.mem_range, decide_eq_true_eq]
      constructor
      · rintro ⟨h1, h2⟩
        exact ⟨h1, fun hd => h2 ((hpos p h1).2 hd)⟩
      · rintro ⟨h1, h2⟩
        exact ⟨h1, fun hd => h2 ((hpos p h1).1 hd)⟩
    cases ixs with
    | slice s =>
      simp only at h
      cases hp : positions n s with
      | error e => rw [hp] at h; cases h
      | ok pos =>
        rw [hp] at h
        cases h
        refine key pos (fun p h1 => positions_mem n s pos hp p h1) ?_
        intro hz
        simp only [positions, hz, if_true] at hp
        cases hp
    | list l =>
      simp only at h
      by_cases hacc : ∀ i ∈ l, 0 ≤ fromEnd n i ∧ fromEnd n i < n
      · obtain ⟨pos, h1, h2⟩ := (indexPositions_spec n l).1 hacc
        rw [h1] at h
        cases h
        exact key pos (fun p _ => h2 p) hacc
      · rw [(indexPositions_spec n l).2 hacc] at h
        cases h

theorem delete_ok (ax : Nat) (ixs : Indexer) (a : Arr V) (n : Nat) (hn : a.shape[ax]? = some n)
    (h : Acceptable n ixs) : ∃ b, delete ax ixs a = .ok b := by
  simp only [delete, hn, bind, Except.bind]
  cases ixs with
  | slice s =>
    simp only [positions]
    rw [if_neg]
    · exact ⟨_, rfl⟩
    · intro h0
      cases hs : s.step with
      | none => rw [hs] at h0; exact absurd h0 (by decide)
      | some k => rw [hs] at h0; exact h (by rw [hs]; exact congrArg _ h0)
  | list l =>
    obtain ⟨pos, h1, _⟩ := (indexPositions_spec n l).1 h
    simp only [h1]
    exact ⟨_, rfl⟩

theorem takeAxis_keeps (ax : Nat) (kept : List Nat) (v : Var V) :
    KeepsRecords ax kept v { v with array := takeAxis ax kept v.array } := by
  refine ⟨rfl, rfl, rfl, rfl, rfl, rfl, ?_⟩
  intro idx j hj
  simp only [takeAxis, hj, Option.bind_some]
  constructor
  · intro p hp
    rw [hp]
    rfl
  · intro hp
    rw [hp]
    rfl

/-- C55: `delete` keeps, in every variable, the records that the indexer does not designate, in
their order, with their values; the dataset keeps its attributes and is as lazy as before. -/
theorem C55_delete (ds ds' : Dataset V) (hn : (ds.vars.map (·.name)).Nodup) (ixs : Indexer)
    (axis : String) (h : deleteDs ds ixs axis = .ok ds') :
    ds'.delayed = ds.delayed ∧ ds'.attrs = ds.attrs ∧ ds'.vars.length = ds.vars.length ∧
    ∀ (i : Nat) (v : Var V), ds.vars[i]? = some v → ∃ w, ds'.vars[i]? = some w ∧
      ∃ ax n kept, v.dims[ax]? = some axis ∧ v.array.shape[ax]? = some n ∧
        kept.Pairwise (· < ·) ∧ (∀ p, p ∈ kept ↔ p < n ∧ ¬ Designated n ixs p) ∧
        KeepsRecords ax kept v w := by
  simp only [deleteDs, bind, Except.bind] at h
  cases hm : mapPy (deleteVar ixs axis) ds.vars with
  | error e => rw [hm] at h; cases h
  | ok vars =>
    rw [hm] at h
    obtain ⟨_, h2, h3, _, _, h6⟩ := mk_spec _ _ _ _ _ _ h
    obtain ⟨m1, m2⟩ := mapPy_spec _ _ _ hm
    have hvar : ∀ (i : Nat) (v : Var V), ds.vars[i]? = some v → ∃ w, vars[i]? = some w ∧
        ∃ ax n kept, v.dims[ax]? = some axis ∧ v.array.shape[ax]? = some n ∧
          kept.Pairwise (· < ·) ∧ (∀ p, p ∈ kept ↔ p < n ∧ ¬ Designated n ixs p) ∧
          KeepsRecords ax kept v w := by
      intro i v hi
      obtain ⟨w, w1, w2⟩ := m2 i v hi
      refine ⟨w, w1, ?_⟩
      unfold deleteVar at w2
      cases hax : v.dims.idxOf? axis with
      | none => rw [hax] at w2; cases w2
      | some ax =>
        rw [hax] at w2
        simp only [bind, Except.bind] at w2
        cases hd : delete ax ixs v.array with
        | error e => rw [hd] at w2; cases w2
        | ok b =>
          rw [hd] at w2
          cases w2
          obtain ⟨n, kept, d1, _, d2, d3, rfl⟩ := delete_spec ax ixs v.array b hd
          exact ⟨ax, n, kept, idxOf?_getElem hax, d1, d2, d3, takeAxis_keeps ax kept v⟩
    have hnames : vars.map (·.name) = ds.vars.map (·.name) := by
      apply List.ext_getElem?
      intro i
      rw [List.getElem?_map, List.getElem?_map]
      cases hi : ds.vars[i]? with
      | none =>
        rw [List.getElem?_eq_none_iff] at hi
        rw [List.getElem?_eq_none (by omega)]
      | some v =>
        obtain ⟨w, w1, ax, n, kept, _, _, _, _, hk⟩ := hvar i v hi
        rw [w1]
        simp [hk.1]
    have hfold : ds'.vars = vars := by
      rw [h2]
      have := foldl_setVar_id vars [] (by rw [List.nil_append, hnames]; exact hn)
      rw [List.nil_append] at this
      exact this
    rw [hfold]
    exact ⟨h6 _ rfl, h3, m1, hvar⟩

theorem increasing_unique {l m : List Nat} (hl : l.Pairwise (· < ·)) (hm : m.Pairwise (· < ·))
    (h : ∀ p, p ∈ l ↔ p ∈ m) : l = m := by
  induction l generalizing m with
  | nil =>
    cases m with
    | nil => rfl
    | cons b m => exact absurd ((h b).2 List.mem_cons_self) (by simp)
  | cons a l ih =>
    cases m with
    | nil => exact absurd ((h a).1 List.mem_cons_self) (by simp)
    | cons b m =>
      rw [List.pairwise_cons] at hl hm
      have h1 : a = b := by
        have ha := (h a).1 List.mem_cons_self
        have hb := (h b).2 List.mem_cons_self
        rcases List.mem_cons.1 ha with ha | ha
        · exact ha
        · rcases List.mem_cons.1 hb with hb | hb
          · exact hb.symm
          · have := hm.1 a ha
            have := hl.1 b hb
            omega
      subst h1
      congr 1
      apply ih hl.2 hm.2
      intro p
      constructor
      · intro hp
        rcases List.mem_cons.1 ((h p).1 (List.mem_cons_of_mem _ hp)) with rfl | hp'
        · exact absurd (hl.1 p hp) (Nat.lt_irrefl _)
        · exact hp'
      · intro hp
        rcases List.mem_cons.1 ((h p).2 (List.mem_cons_of_mem _ hp)) with rfl | hp'
        · exact absurd (hm.1 p hp) (Nat.lt_irrefl _)
        · exact hp'

theorem lookup_resize (axis : String) (k : Nat) (d : String) (l : List (String × Nat)) :
    (l.map fun x => (x.1, if x.1 = axis then k else x.2)).lookup d =
      if d = axis then (l.lookup d).map fun _ => k else l.lookup d := by
  induction l with
  | nil => simp
  | cons x t ih =>
    obtain ⟨a, b⟩ := x
    simp only [List.map_cons, List.lookup_cons, ih]
    by_cases hda : d = a
    · subst hda
      simp only [beq_self_eq_true]
      by_cases hax : d = axis <;> simp [hax]
    · have hb : (d == a) = false := by simpa using hda
      simp only [hb]

/-- C55: `delete` succeeds when every variable has the dimension and the indexer is
acceptable. -/
theorem C55_delete_accepted (ds : Dataset V) (hc : Consistent ds) (ixs : Indexer)
    (axis : String) (n : Nat) (hd : ds.dims.lookup axis = some n) (ha : Acceptable n ixs)
    (hv : ∀ v ∈ ds.vars, axis ∈ v.dims ∧ v.dims.Nodup) :
    ∃ ds', deleteDs ds ixs axis = .ok ds' := by
  have hone : ∀ v ∈ ds.vars, ∃ ax b, v.dims.idxOf? axis = some ax ∧
      v.array.shape[ax]? = some n ∧ delete ax ixs v.array = .ok b := by
    intro v hm
    cases hax : v.dims.idxOf? axis with
    | none => exact absurd (hv v hm).1 (idxOf?_none.1 hax)
    | some ax =>
      obtain ⟨k, e1, e2⟩ := hc.sizes v hm ax axis (idxOf?_getElem hax)
      rw [hd] at e2
      cases e2
      obtain ⟨b, hb⟩ := delete_ok ax ixs v.array n e1 ha
      exact ⟨ax, b, rfl, e1, hb⟩
  obtain ⟨vars, hm⟩ := mapPy_exists (deleteVar ixs axis) ds.vars (by
    intro v hm
    obtain ⟨ax, b, h1, _, h3⟩ := hone v hm
    exact ⟨{ v with array := b }, by simp [deleteVar, h1, h3, bind, Except.bind]⟩)
  obtain ⟨m1, m2⟩ := mapPy_spec _ _ _ hm
  have hmem := mapPy_mem _ _ _ hm
  have hres : ∀ w ∈ vars, ∃ v ∈ ds.vars, w.name = v.name ∧ w.delayed = v.delayed ∧
      w.dims = v.dims ∧ ∃ (ax : Nat) (kept : List Nat), v.dims[ax]? = some axis ∧ ax < v.array.shape.length ∧
      kept.Pairwise (· < ·) ∧ (∀ p, p ∈ kept ↔ p < n ∧ ¬ Designated n ixs p) ∧
      w.array.shape = v.array.shape.set ax kept.length := by
    intro w hw
    obtain ⟨v, hv', hw'⟩ := hmem w hw
    obtain ⟨ax, b, h1, h2, h3⟩ := hone v hv'
    simp only [deleteVar, h1, h3, bind, Except.bind] at hw'
    cases hw'
    obtain ⟨n', kept, d1, _, d2, d3, rfl⟩ := delete_spec ax ixs v.array b h3
    rw [h2] at d1
    cases d1
    exact ⟨v, hv', rfl, rfl, rfl, ax, kept, idxOf?_getElem h1,
      (List.getElem?_eq_some_iff.1 h2).1, d2, d3, rfl⟩
  have hnames : vars.map (·.name) = ds.vars.map (·.name) := by
    apply List.ext_getElem?
    intro i
    rw [List.getElem?_map, List.getElem?_map]
    cases hi : ds.vars[i]? with
    | none =>
      rw [List.getElem?_eq_none_iff] at hi
      rw [List.getElem?_eq_none (by omega)]
    | some v =>
      obtain ⟨w, w1, w2⟩ := m2 i v hi
      obtain ⟨ax, b, h1, _, h3⟩ := hone v (List.mem_of_getElem? hi)
      simp only [deleteVar, h1, h3, bind, Except.bind] at w2
      cases w2
      rw [w1]
      rfl
  by_cases hne : vars = []
  · subst hne
    simp only [deleteDs, hm, bind, Except.bind, derive]
    exact ⟨_, rfl⟩
  · obtain ⟨w0, hw0⟩ := List.exists_mem_of_ne_nil _ hne
    obtain ⟨_, _, _, _, _, _, kept, _, _, k1, k2, _⟩ := hres w0 hw0
    obtain ⟨dims, hmk, _⟩ := mk_ok vars ds.attrs ds.chunks ds.limit ds.delayed
      (ds.dims.map fun x => (x.1, if x.1 = axis then kept.length else x.2))
      (by rw [hnames]; exact hc.names)
      (by
        intro w hw
        obtain ⟨v, hv', _, h2, _⟩ := hres w hw
        rw [h2]
        exact hc.kind v hv')
      (by
        intro w hw i d hi
        obtain ⟨v, hv', _, _, h3, ax, kept', h4, h4', h5, h6, h7⟩ := hres w hw
        have hk : kept' = kept := by
          apply increasing_unique h5 k1
          intro p
          rw [h6, k2]
        subst hk
        rw [h3] at hi
        obtain ⟨m, e1, e2⟩ := hc.sizes v hv' i d hi
        have hlook := lookup_resize axis kept'.length d
        by_cases hda : d = axis
        · subst hda
          have : i = ax := nodup_getElem? (hv v hv').2 hi h4
          subst this
          refine ⟨kept'.length, by rw [h7, List.getElem?_set_self h4'], ?_⟩
          rw [hlook, e2]
          simp
        · refine ⟨m, ?_, by rw [hlook, if_neg hda, e2]⟩
          rw [h7, List.getElem?_set_ne]
          · exact e1
          · rintro rfl
            rw [h4] at hi
            exact hda (Option.some.inj hi).symm)
    exact ⟨_, by simp only [deleteDs, hm, bind, Except.bind, derive, hmk]; rfl⟩

theorem positions_cases (n : Nat) (s : Slice) :
    (∃ pos, positions n s = .ok pos) ∨ positions n s = .error .valueError := by
  obtain ⟨start, stop, step⟩ := s
  cases step with
  | none => exact .inl ⟨_, rfl⟩
  | some k =>
    by_cases hk : k = 0
    · subst hk
      exact .inr rfl
    · exact .inl ⟨_, by simp only [positions]; rw [if_neg hk]⟩

/-- C55: `delete` raises `ValueError` when a variable has no such dimension, an index out of
bounds is an `IndexError`, and a step of zero a `ValueError`; nothing is changed.  (A dataset
with a variable without the dimension can be sliced by `isel`, not by `delete`.) -/
theorem C55_delete_refused (ds : Dataset V) (hc : Consistent ds) (ixs : Indexer) (axis : String)
    (v : Var V) (hv : v ∈ ds.vars)
    (h : axis ∉ v.dims ∨ ∀ n, ds.dims.lookup axis = some n → ¬ Acceptable n ixs) :
    deleteDs ds ixs axis = .error .valueError ∨ deleteDs ds ixs axis = .error .indexError := by
  have hone : ∀ u : Var V, (∃ w, deleteVar ixs axis u = .ok w) ∨
      deleteVar ixs axis u = .error .valueError ∨ deleteVar ixs axis u = .error .indexError := by
    intro u
    unfold deleteVar
    cases u.dims.idxOf? axis with
    | none => exact .inr (.inl rfl)
    | some ax =>
      simp only [bind, Except.bind, delete]
      cases u.array.shape[ax]? with
      | none => exact .inr (.inl rfl)
      | some n =>
        cases ixs with
        | slice s =>
          simp only
          cases hp : positions n s with
          | ok pos => exact .inl ⟨_, rfl⟩
          | error e =>
            rcases positions_cases n s with ⟨pos, h⟩ | h
            · rw [hp] at h; cases h
            · rw [hp] at h; cases h; exact .inr (.inl rfl)
        | list l =>
          simp only
          by_cases hacc : ∀ i ∈ l, 0 ≤ fromEnd n i ∧ fromEnd n i < n
          · obtain ⟨pos, h1, _⟩ := (indexPositions_spec n l).1 hacc
            rw [h1]
            exact .inl ⟨_, rfl⟩
          · rw [(indexPositions_spec n l).2 hacc]
            exact .inr (.inr rfl)
  have hbad : ¬ ∃ w, deleteVar ixs axis v = .ok w := by
    rintro ⟨w, hw⟩
    unfold deleteVar at hw
    cases hax : v.dims.idxOf? axis with
    | none => rw [hax] at hw; cases hw
    | some ax =>
      rw [hax] at hw
      simp only [bind, Except.bind] at hw
      have hin := List.mem_of_getElem? (idxOf?_getElem hax)
      rcases h with h | h
      · exact h hin
      · cases hd : delete ax ixs v.array with
        | error e => rw [hd] at hw; cases hw
        | ok b =>
          obtain ⟨n, _, d1, d2, _⟩ := delete_spec ax ixs v.array b hd
          obtain ⟨m, e1, e2⟩ := hc.sizes v hv ax axis (idxOf?_getElem hax)
          rw [d1] at e1
          cases e1
          exact h n e2 d2
  have hmap : ∀ l : List (Var V), v ∈ l → mapPy (deleteVar ixs axis) l = .error .valueError ∨
      mapPy (deleteVar ixs axis) l = .error .indexError := by
    intro l
    induction l with
    | nil => simp
    | cons u t ih =>
      intro hm
      simp only [mapPy, bind, Except.bind]
      rcases hone u with ⟨w, hw⟩ | hw | hw
      · rcases List.mem_cons.1 hm with rfl | hm
        · exact absurd ⟨w, hw⟩ hbad
        · rcases ih hm with ht | ht <;> simp [hw, ht]
      · simp [hw]
      · simp [hw]
  rcases hmap ds.vars hv with hm | hm <;> simp [deleteDs, bind, Except.bind, hm]

/-- C55: `select_vars` gives the named variables, unchanged, in the order of the names; a name
that is not in the dataset raises `KeyError`. -/
theorem C55_select_vars (ds : Dataset V) (hc : Consistent ds) (names : List String)
    (hn : names.Nodup) :
    ((∃ n ∈ names, ∀ v ∈ ds.vars, v.name ≠ n) → selectVars ds names = .error .keyError) ∧
    ((∀ n ∈ names, ∃ v ∈ ds.vars, v.name = n) → ∃ ds', selectVars ds names = .ok ds' ∧
      ds'.vars.map (·.name) = names ∧ (∀ v ∈ ds'.vars, v ∈ ds.vars) ∧ ds'.attrs = ds.attrs ∧
      Consistent ds' ∧ (names ≠ [] → ds'.delayed = ds.delayed)) := by
  constructor
  · rintro ⟨n, hn, hno⟩
    have hmap : ∀ l : List String, n ∈ l → mapPy (getVarE ds.vars) l = .error .keyError := by
      intro l
      induction l with
      | nil => simp
      | cons a t ih =>
        intro hm
        simp only [mapPy, bind, Except.bind, getVarE]
        cases hg : getVar ds.vars a with
        | none => rfl
        | some v =>
          have hm : n ∈ t := by
            rcases List.mem_cons.1 hm with rfl | hm
            · obtain ⟨g1, g2⟩ := getVar_some _ _ _ hg
              exact absurd g2 (hno v g1)
            · exact hm
          have := ih hm
          simp only [this]
    simp [selectVars, bind, Except.bind, hmap names hn]
  · intro hall
    have hget : ∀ n ∈ names, ∃ v, getVar ds.vars n = some v := by
      intro n hn
      obtain ⟨v, h1, h2⟩ := hall n hn
      exact ⟨v, by rw [← h2]; exact getVar_of_mem _ hc.names v h1⟩
    obtain ⟨vars, hm⟩ := mapPy_exists (getVarE ds.vars) names (by
      intro n hn
      obtain ⟨v, hv⟩ := hget n hn
      exact ⟨v, by simp [getVarE, hv]⟩)
    obtain ⟨m1, m2⟩ := mapPy_spec _ _ _ hm
    have hsub : ∀ v ∈ vars, v ∈ ds.vars := by
      intro v hv
      obtain ⟨n, hn, h⟩ := mapPy_mem _ _ _ hm v hv
      simp only [getVarE] at h
      cases hg : getVar ds.vars n with
      | none => rw [hg] at h; cases h
      | some u =>
        rw [hg] at h
        cases h
        exact (getVar_some _ _ _ hg).1
    have hnames : vars.map (·.name) = names := by
      apply List.ext_getElem?
      intro i
      rw [List.getElem?_map]
      cases hi : names[i]? with
      | none =>
        rw [List.getElem?_eq_none_iff] at hi
        rw [List.getElem?_eq_none (by omega)]
        rfl
      | some n =>
        obtain ⟨v, w1, w2⟩ := m2 i n hi
        rw [w1]
        simp only [getVarE] at w2
        cases hg : getVar ds.vars n with
        | none => rw [hg] at w2; cases w2
        | some u =>
          rw [hg] at w2
          cases w2
          simp [(getVar_some _ _ _ hg).2]
    by_cases hne : vars = []
    · subst hne
      refine ⟨⟨[], [], ds.attrs, ds.chunks, ds.limit, true⟩,
        by simp only [selectVars, hm, bind, Except.bind, derive]; rfl, hnames,
        by simp, rfl, ⟨by simp, by simp, by simp, by simp⟩, ?_⟩
      intro h
      exact absurd hnames.symm h
    · obtain ⟨dims, hmk, _⟩ := mk_ok vars ds.attrs ds.chunks ds.limit ds.delayed ds.dims
        (by rw [hnames]; exact hn) (fun v hv => hc.kind v (hsub v hv))
        (fun v hv => hc.sizes v (hsub v hv))
      rw [← mk_none_ok hne (fun v hv => hc.kind v (hsub v hv)) (by rw [hnames]; exact hn)] at hmk
      refine ⟨⟨dims, vars, ds.attrs, ds.chunks, ds.limit, ds.delayed⟩,
        by simp only [selectVars, hm, bind, Except.bind, derive, hmk], hnames, hsub, rfl, (mk_spec _ _ _ _ _ _ hmk).1, fun _ => rfl⟩

/-- The variable is selected by `select_variables_by_dims`. -/
def HasOneOf (dims : List String) (v : Var V) : Prop :=
  (dims = [] → v.dims = []) ∧ (dims ≠ [] → ∃ d ∈ v.dims, d ∈ dims)

/-- C55: `select_variables_by_dims` gives the variables with one of the dimensions, or the
others, unchanged and in their order. -/
theorem C55_select_by_dims (ds : Dataset V) (hc : Consistent ds) (dims : List String)
    (predicate : Bool) : ∃ ds', selectByDims ds dims predicate = .ok ds' ∧
      ds'.vars.Sublist ds.vars ∧
      (∀ v, v ∈ ds'.vars ↔ v ∈ ds.vars ∧ (HasOneOf dims v ↔ predicate = true)) ∧
      ds'.attrs = ds.attrs ∧ Consistent ds' ∧ (ds'.vars ≠ [] → ds'.delayed = ds.delayed) := by
  let cond : Var V → Bool := fun v =>
    if dims = [] then v.dims.isEmpty == predicate
    else (v.dims.any fun d => decide (d ∈ dims)) == predicate
  have hcond : ∀ v, cond v = true ↔ (HasOneOf dims v ↔ predicate = true) := by
    intro v
    simp only [cond, HasOneOf]
    by_cases hd : dims = []
    · simp only [hd, if_true, beq_iff_eq, ne_eq, not_true_eq_false, false_imp_iff, and_true,
        true_imp_iff]
      cases v.dims <;> cases predicate <;> simp
    · simp only [hd, if_false, beq_iff_eq, ne_eq, not_false_eq_true, true_imp_iff, false_imp_iff,
        true_and]
      rw [Bool.eq_iff_iff]
      simp
  have hmem : ∀ v, v ∈ ds.vars.filter cond ↔ v ∈ ds.vars ∧ (HasOneOf dims v ↔ predicate = true) := by
    intro v
    rw [List.mem_filter, hcond]
  by_cases hne : ds.vars.filter cond = []
  · refine ⟨⟨[], [], ds.attrs, ds.chunks, ds.limit, true⟩, ?_, by simp, ?_, rfl,
      ⟨by simp, by simp, by simp, by simp⟩, by simp⟩
    · show derive ds (ds.vars.filter cond) none = _
      rw [hne]
      rfl
    · intro v
      rw [← hmem v, hne]
  · obtain ⟨d', hmk, _⟩ := mk_ok (ds.vars.filter cond) ds.attrs ds.chunks ds.limit ds.delayed
      ds.dims ((List.Sublist.map _ List.filter_sublist).nodup hc.names)
      (fun v hv => hc.kind v (List.mem_filter.1 hv).1)
      (fun v hv => hc.sizes v (List.mem_filter.1 hv).1)
    rw [← mk_none_ok hne (fun v hv => hc.kind v (List.mem_filter.1 hv).1)
      ((List.Sublist.map _ List.filter_sublist).nodup hc.names)] at hmk
    exact ⟨_, hmk, List.filter_sublist, hmem, rfl, (mk_spec _ _ _ _ _ _ hmk).1, fun _ => rfl⟩

/-- C55: `drops_vars` removes the named variables and leaves the others unchanged, in their
order; it raises `KeyError` at the first name that is not (or no more) in the dataset. -/
theorem C55_drops_vars (ds : Dataset V) (names : List String) :
    ((dropVars ds names).2 = .ok () → (dropVars ds names).1 =
      { ds with vars := ds.vars.filter fun v => decide (v.name ∉ names) }) ∧
    ((dropVars ds names).2 = .ok () ↔ names.Nodup ∧ ∀ n ∈ names, ∃ v ∈ ds.vars, v.name = n) ∧
    ((dropVars ds names).2 = .ok () ∨ (dropVars ds names).2 = .error .keyError) := by
  induction names generalizing ds with
  | nil =>
    refine ⟨fun _ => ?_, by simp [dropVars], .inl rfl⟩
    show ds = _
    rw [List.filter_eq_self.2 (by simp)]
  | cons n t ih =>
    simp only [dropVars]
    cases hg : getVar ds.vars n with
    | none =>
      rw [getVar_none] at hg
      refine ⟨fun h => (by cases h), ⟨fun h => (by cases h), ?_⟩, .inr rfl⟩
      rintro ⟨_, h⟩
      obtain ⟨v, h1, h2⟩ := h n List.mem_cons_self
      exact absurd (h2 ▸ List.mem_map_of_mem h1) hg
    | some v =>
      obtain ⟨g1, g2⟩ := getVar_some _ _ _ hg
      obtain ⟨i1, i2, i3⟩ := ih { ds with vars := ds.vars.filter fun w => decide (w.name ≠ n) }
      refine ⟨fun h => ?_, i2.trans ?_, i3⟩
      · simp only [i1 h, List.filter_filter]
        congr 1
        apply List.filter_congr
        intro w _
        by_cases hw : w.name = n <;> simp [hw]
      · rw [List.nodup_cons]
        constructor
        · rintro ⟨h1, h2⟩
          refine ⟨⟨?_, h1⟩, ?_⟩
          · intro hn
            obtain ⟨w, w1, w2⟩ := h2 n hn
            exact of_decide_eq_true (List.mem_filter.1 w1).2 w2
          · intro m hm
            rcases List.mem_cons.1 hm with rfl | hm
            · exact ⟨v, g1, g2⟩
            · obtain ⟨w, w1, w2⟩ := h2 m hm
              exact ⟨w, (List.mem_filter.1 w1).1, w2⟩
        · rintro ⟨⟨h0, h1⟩, h2⟩
          refine ⟨h1, fun m hm => ?_⟩
          obtain ⟨w, w1, w2⟩ := h2 m (List.mem_cons_of_mem _ hm)
          refine ⟨w, List.mem_filter.2 ⟨w1, decide_eq_true ?_⟩, w2⟩
          intro he
          exact h0 (he ▸ w2 ▸ hm)

/-- C55: `rename` of one variable: it has the new name and is otherwise unchanged, so are the
other variables; a new name already in use or an unknown variable raises and changes nothing. -/
theorem C55_rename (ds : Dataset V) (hn : (ds.vars.map (·.name)).Nodup) (old new : String) :
    ((∃ v ∈ ds.vars, v.name = new) → rename ds [(old, new)] = (ds, .error .valueError)) ∧
    ((∀ v ∈ ds.vars, v.name ≠ new) → (∀ v ∈ ds.vars, v.name ≠ old) →
      rename ds [(old, new)] = (ds, .error .keyError)) ∧
    ((∀ v ∈ ds.vars, v.name ≠ new) → ∀ v ∈ ds.vars, v.name = old →
      (rename ds [(old, new)]).2 = .ok () ∧
      (rename ds [(old, new)]).1.dims = ds.dims ∧
      ∀ w, w ∈ (rename ds [(old, new)]).1.vars ↔
        (w ∈ ds.vars ∧ w.name ≠ old) ∨ w = { v with name := new }) := by
  have hnew : ∀ n, (getVar ds.vars n).isSome = true ↔ ∃ v ∈ ds.vars, v.name = n := by
    intro n
    rw [getVar_isSome]
    simp
  refine ⟨fun h => ?_, fun h1 h2 => ?_, fun h1 v hv he => ?_⟩
  · simp only [rename, if_pos ((hnew new).2 h)]
  · have hg : getVar ds.vars old = none := by
      rw [getVar_none]
      intro hm
      obtain ⟨v, hv, he⟩ := List.mem_map.1 hm
      exact h2 v hv he
    have : ¬ (getVar ds.vars new).isSome = true := fun h => by
      obtain ⟨v, hv, he⟩ := (hnew new).1 h
      exact h1 v hv he
    simp only [rename, if_neg this, hg]
  · have : ¬ (getVar ds.vars new).isSome = true := fun h => by
      obtain ⟨u, hu, he⟩ := (hnew new).1 h
      exact h1 u hu he
    have hg := getVar_of_mem _ hn v hv
    rw [he] at hg
    simp only [rename, if_neg this, hg, List.mem_append, List.mem_filter, decide_eq_true_eq,
      List.mem_singleton, true_and]
    simp

/-- C55: `add_variable` adds the given data, or fill values, under the name of the metadata,
and leaves the other variables unchanged. -/
theorem C55_add_variable (ds : Dataset V) (m : VarMeta V) (nv : Py V) (data : Option (Arr V))
    (h : (addVariable ds m nv data).2 = .ok ()) :
    (addVariable ds m nv data).1.dims = ds.dims ∧
    (addVariable ds m nv data).1.delayed = ds.delayed ∧
    (∀ n, n ≠ m.name → getVar (addVariable ds m nv data).1.vars n = getVar ds.vars n) ∧
    ∃ v, getVar (addVariable ds m nv data).1.vars m.name = some v ∧ v.dims = m.dims ∧
      v.fill = m.fill ∧ v.props = m.props ∧ v.delayed = ds.delayed ∧
      (∀ a, data = some a → v.array = a) ∧
      (data = none → ∃ x, (m.fill = some x ∨ (m.fill = none ∧ nv = .ok x)) ∧
        v.array = full (m.dims.filterMap fun d => ds.dims.lookup d) x) := by
  unfold addVariable at h ⊢
  split at h
  · cases h
  · next hd =>
    rw [if_neg hd]
    simp only at h ⊢
    split at h
    · cases h
    · next a ha =>
      simp only [Vw.getVar_setVar, true_and]
      refine ⟨fun n hn => by rw [if_neg (Ne.symm hn)], _, rfl, rfl, rfl, rfl, rfl, ?_, ?_⟩
      · intro b hb
        subst hb
        simp only at ha
        split at ha
        · cases ha
        · cases ha; rfl
      · intro hb
        subst hb
        simp only [bind, Except.bind] at ha
        cases hf : m.fill with
        | some x =>
          rw [hf] at ha
          cases ha
          exact ⟨x, .inl rfl, rfl⟩
        | none =>
          rw [hf] at ha
          cases hv : nv with
          | error e => rw [hv] at ha; cases ha
          | ok x =>
            rw [hv] at ha
            cases ha
            exact ⟨x, .inr ⟨rfl, rfl⟩, rfl⟩

namespace EffectsCase

def two : Dataset Nat where
  dims := [("x", 4), ("y", 2)]
  vars := [{ name := "a", delayed := false, dims := ["x"], array := tabulate [4] (·.sum),
             fill := none, props := 0 },
           { name := "b", delayed := false, dims := ["y", "x"],
             array := tabulate [2, 4] (·.sum), fill := none, props := 0 }]
  attrs := []
  chunks := []
  limit := 1
  delayed := false

theorem two_consistent : Consistent two := by
  refine ⟨by decide, by decide, ?_, ?_⟩
  · intro v hv
    simp only [two, List.mem_cons, List.not_mem_nil, or_false] at hv
    rcases hv with rfl | rfl <;> rfl
  · intro v hv i d hi
    simp only [two, List.mem_cons, List.not_mem_nil, or_false] at hv
    rcases hv with rfl | rfl <;>
      (match i, hi with
        | 0, hi => cases hi; exact ⟨_, rfl, rfl⟩
        | 1, hi => first | (cases hi; exact ⟨_, rfl, rfl⟩) | cases hi
        | i + 2, hi => cases hi)

/-- The records 3 and 1 are removed, the first one given from the end. -/
example : ∃ ds', deleteDs two (.list [-1, 1]) "x" = .ok ds' ∧
    ds'.vars.map (fun v => v.array.shape) = [[2], [2, 2]] ∧
    ds'.vars.map (fun v => v.array.get [1]) = [some 2, none] ∧
    ds'.vars.map (fun v => v.array.get [1, 1]) = [none, some 3] := by
  obtain ⟨ds', h⟩ := C55_delete_accepted two two_consistent (.list [-1, 1]) "x" 4 rfl
    (by intro i hi; simp at hi; rcases hi with rfl | rfl <;> decide) (by
      intro v hv
      simp only [two, List.mem_cons, List.not_mem_nil, or_false] at hv
      rcases hv with rfl | rfl <;> decide)
  refine ⟨ds', h, ?_⟩
  have : deleteDs two (.list [-1, 1]) "x" = .ok ds' := h
  cases this
  exact ⟨rfl, rfl, rfl⟩

/-- `[::-2]` designates the records 3 and 1. -/
example : InSlice 4 ⟨none, none, some (-2)⟩ 1 ∧ ¬ InSlice 4 ⟨none, none, some (-2)⟩ 0 := by
  constructor
  · refine ⟨by decide, fun _ => ⟨by decide, by decide, by simp⟩⟩
  · rintro ⟨_, h⟩
    exact absurd (h (by decide)).2.1 (by decide)

example : "y" ∉ ["x"] ∧ (deleteDs two (.list [0]) "y") = .error .valueError := ⟨by decide, rfl⟩

example : ((selectVars two ["b", "a"]).toOption.map fun d => d.vars.map (·.name)) =
    some ["b", "a"] ∧
    ((selectByDims two ["y"] false).toOption.map fun d => d.vars.map (·.name)) = some ["a"] ∧
    (dropVars two ["a"]).1.vars.map (·.name) = ["b"] ∧
    (rename two [("a", "c")]).1.vars.map (·.name) = ["b", "c"] := ⟨rfl, rfl, rfl, rfl⟩

end EffectsCase

end Verif
