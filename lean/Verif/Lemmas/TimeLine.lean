import Verif.Props.MergeTolerance
import Verif.Props.MergeDataset
import Verif.Props.AttributesLoad

/-! Lemmas on a collection filled with `merge_time_series`. -/

namespace Verif

open Spec Nd Ds TSD Sch

variable {V : Type} {x : Axis V} {sig : Signature V} {size : String → Nat} {keyOf : Int → Int}
  {sc : Pipe.Scheme V} {o : Obj V}

/-- The records at the positions `lo .. hi`. -/
theorem filter_eq_slice {α : Type} (p : α → Bool) (l : List α) (lo hi : Nat)
    (h : ∀ (i : Nat) (r : α), l[i]? = some r → (p r = true ↔ lo ≤ i ∧ i < hi)) :
    l.filter p = (l.take hi).drop lo := by
  induction l generalizing lo hi with
  | nil => simp
  | cons a t ih =>
    have h0 := h 0 a rfl
    have ht := ih (lo - 1) (hi - 1) (by
      intro i r hr
      have := h (i + 1) r (by simpa using hr)
      rw [this]
      omega)
    cases hi with
    | zero =>
      have : p a = false := by
        cases hp : p a with
        | false => rfl
        | true => have := h0.1 hp; omega
      rw [List.filter_cons, this]
      simpa using ht
    | succ n =>
      cases lo with
      | zero =>
        rw [List.filter_cons, h0.2 (by omega)]
        simpa using ht
      | succ m =>
        have : p a = false := by
          cases hp : p a with
          | false => rfl
          | true => have := h0.1 hp; omega
        rw [List.filter_cons, this]
        simpa using ht

/-- The keys of the records. -/
theorem keyAt_line (hb : ByTime x sc keyOf) {vars : List (Var V)} {l : List (Int × Content V)}
    (h : HoldsLine x sig size vars l) (i : Nat) (k : List Int) :
    KeyAt sc vars i k ↔ ∃ r, l[i]? = some r ∧ [keyOf r.1] = k := by
  obtain ⟨hn, hr, _⟩ := h
  obtain ⟨v, hv, hvn, hvd, hvt⟩ := hr.axis
  have hsh := hr.shapes v hv
  have harr := hr.arrays v hv
  have hvm := (List.mem_filter.1 hv).1
  rw [hvd] at hsh
  simp only [List.map_cons, List.map_nil, if_true] at hsh
  unfold KeyAt
  rw [hb.variables]
  constructor
  · rintro ⟨h1, h2⟩
    obtain ⟨v', g1, g2, y, g3, g4⟩ := h2 0 x.axis rfl
    have : v' = v := by
      have e1 := getVar_of_mem _ hn v' g1
      have e2 := getVar_of_mem _ hn v hvm
      rw [g2] at e1
      rw [hvn, e1] at e2
      exact Option.some.inj e2
    subst this
    have hin := (harr [i]).1 ⟨y, g3⟩
    rw [hsh] at hin
    have hlt : i < l.length := hin.2 0 i _ rfl rfl
    obtain ⟨r, hri⟩ : ∃ r, l[i]? = some r := ⟨l[i], List.getElem?_eq_getElem hlt⟩
    obtain ⟨y', y1, y2⟩ := hvt i r hri
    rw [g3] at y1
    cases y1
    rw [hb.keys _ _ y2] at g4
    refine ⟨r, hri, ?_⟩
    obtain ⟨a, ha⟩ := List.length_eq_one_iff.1 (show k.length = 1 from h1)
    rw [ha] at g4 ⊢
    simpa using g4
  · rintro ⟨r, hri, rfl⟩
    refine ⟨rfl, ?_⟩
    intro j name hj
    cases j with
    | succ n => simp at hj
    | zero =>
      simp only [List.getElem?_cons_zero, Option.some.injEq] at hj
      subst hj
      obtain ⟨y, y1, y2⟩ := hvt i r hri
      exact ⟨v, hvm, hvn, y, y1, hb.keys _ _ y2⟩

/-- The keys of strictly increasing records do not decrease. -/
theorem line_monotone (hb : ByTime x sc keyOf) {vars : List (Var V)} {l : List (Int × Content V)}
    (h : HoldsLine x sig size vars l) (hl : StrictSorted l) : KeysMonotone sc vars := by
  intro i j k k' hij hk hk'
  obtain ⟨r, hr, rfl⟩ := (keyAt_line hb h i k).1 hk
  obtain ⟨r', hr', rfl⟩ := (keyAt_line hb h j k').1 hk'
  have hlt : r.1 < r'.1 := by
    obtain ⟨h1, rfl⟩ := List.getElem?_eq_some_iff.1 hr
    obtain ⟨h2, rfl⟩ := List.getElem?_eq_some_iff.1 hr'
    exact List.pairwise_iff_getElem.1 hl i j h1 h2 hij
  have := hb.monotone r.1 r'.1 (by omega)
  rcases Int.lt_or_eq_of_le this with h | h
  · exact List.le_of_lt (List.Lex.rel h)
  · rw [h]; exact List.le_refl _

/-- The stored partitions hold the records `recs`, in the partition of their key. -/
structure LineInv (x : Axis V) (sig : Signature V) (size : String → Nat) (keyOf : Int → Int)
    (fs : Files (List Int) V) (recs : List Int → List (Int × Content V)) : Prop where
  holds : ∀ k vars, fs.parts k = some vars → HoldsRecords x sig size vars (recs k)
  empty : ∀ k, fs.parts k = none → recs k = []
  sorted : ∀ k, StrictSorted (recs k)
  keys : ∀ k, ∀ r ∈ recs k, [keyOf r.1] = k
  imm : ∀ iv, fs.imm = some iv → (iv.map (·.name)).Nodup ∧
    ∀ v ∈ iv, x.dim ∉ v.dims ∧ v.array.shape = v.dims.map size

/-- The immutable variables after an insertion. -/
theorem insert_imm {w : World (List Int) V} (haxis : o.imm = true → o.axis = o.dim)
    {faults : Faults (List Int)} {validate : Bool} {np : Option Int} {merge : Option (Sch.Merge V)}
    {ds ds' : Dataset V} {fs fs' : Files (List Int) V} {r : Py (List (List Int))}
    (h : Sch.insert w o faults validate np merge ds fs = (ds', fs', r)) :
    fs'.imm = fs.imm ∨ ∃ iv, fs'.imm = some iv ∧ (iv.map (·.name)).Nodup ∧
      ∀ v ∈ iv, v ∈ ds'.vars ∧ o.dim ∉ v.dims := by
  unfold Sch.insert at h
  split at h
  · cases h; exact .inl rfl
  · split at h
    · cases h; exact .inl rfl
    · split at h
      · cases h; exact .inl rfl
      · split at h
        · cases h; exact .inl rfl
        · next ds1 _ _ _ zds0 hz =>
          simp only [Prod.mk.injEq] at h
          obtain ⟨rfl, h⟩ := h
          obtain ⟨hc, m2, _⟩ := mk_spec _ _ _ _ _ _ hz
          have key : ∀ fs1 rz, takeImmutable o zds0 fs = (fs1, rz) →
              fs1.imm = fs.imm ∨ ∃ iv, fs1.imm = some iv ∧ (iv.map (·.name)).Nodup ∧
                ∀ v ∈ iv, v ∈ ds1.vars ∧ o.dim ∉ v.dims := by
            intro fs1 rz hti
            unfold takeImmutable at hti
            split at hti
            · next hoi =>
              split at hti
              · cases hti; exact .inl rfl
              · split at hti
                · cases hti; exact .inl rfl
                · next ids hids =>
                  split at hti
                  · cases hti; exact .inl rfl
                  · cases hti
                    rw [haxis hoi] at hids
                    obtain ⟨z1, z2⟩ := selectByDims_vars hc hids
                    refine .inr ⟨_, rfl, z1.names, ?_⟩
                    intro v hv
                    rw [z2] at hv
                    obtain ⟨e1, e2⟩ := List.mem_filter.1 hv
                    rw [m2] at e1
                    refine ⟨?_, by simpa using e2⟩
                    rcases foldl_setVar_mem _ _ _ e1 with h | h
                    · exact h
                    · cases h
            · cases hti; exact .inl rfl
          unfold insertReady at h
          cases hti : takeImmutable o zds0 fs with
          | mk fs1 rz =>
            have hk := key fs1 rz hti
            rw [hti] at h
            cases rz with
            | error e => cases h; exact hk
            | ok zds =>
              simp only at h
              split at h
              · cases h; exact hk
              · split at h
                · cases h; exact hk
                · split at h <;> (cases h; exact hk)

/-- What an insertion did to the records of the partition `k`. -/
def MergedInto (keyOf : Int → Int) (tol : Option Int) (l : List (Int × Content V))
    (fs fs' : Files (List Int) V) (recs : List Int → List (Int × Content V)) (k : List Int)
    (m : List (Int × Content V)) : Prop :=
  inPart keyOf k l ≠ [] ∧ fs'.parts k ≠ none ∧
  (fs.parts k = none ∧ m = inPart keyOf k l ∨
    fs.parts k ≠ none ∧ TS.mergeTimeSeries (recs k) (inPart keyOf k l) tol = .ok m)

/-- One insertion, whatever its outcome. -/
theorem line_step {w : World (List Int) V} (hb : ByTime x sc keyOf)
    (hsplit : w.split = Pipe.splitDataset sc) (hsc : GoodScheme sc)
    (haxis : o.imm = true → o.axis = o.dim) (hdims : ∀ m ∈ o.metas, m.dims.Nodup)
    (hx : x.dim = o.dim) {faults : Faults (List Int)} {validate : Bool} {np tol : Option Int}
    {ds ds' : Dataset V} (hi : Insertable o ds) (hok : ∀ v ∈ ds.vars, ArrOk v.array)
    {fs fs' : Files (List Int) V} (hs : Aligned o fs) {r : Py (List (List Int))}
    (h : Sch.insert w o faults validate np (some (TSD.mergeTimeSeries x tol)) ds fs = (ds', fs', r))
    {l : List (Int × Content V)} (hnew : HoldsLine x sig size ds'.vars l) (hl : StrictSorted l)
    {recs : List Int → List (Int × Content V)} (hinv : LineInv x sig size keyOf fs recs) :
    Aligned o fs' ∧ ∃ recs', LineInv x sig size keyOf fs' recs' ∧
      ∀ k, (fs'.parts k = fs.parts k ∧ recs' k = recs k ∨
        MergedInto keyOf tol l fs fs' recs k (recs' k)) ∧
      (r.isOk = true → inPart keyOf k l ≠ [] → MergedInto keyOf tol l fs fs' recs k (recs' k)) := by
  have hal : Aligned o fs' := by
    have := C30_insert w faults validate np (merge := some (TSD.mergeTimeSeries x tol))
      (fun f hf => by cases hf; exact C30_merge_time_series x tol) haxis hi hs
    rw [h] at this
    exact this
  refine ⟨hal, ?_⟩
  have himm : ∀ iv, fs'.imm = some iv → (iv.map (·.name)).Nodup ∧
      ∀ v ∈ iv, x.dim ∉ v.dims ∧ v.array.shape = v.dims.map size := by
    intro iv hiv
    rcases insert_imm haxis h with he | ⟨iv', e1, e2, e3⟩
    · rw [he] at hiv
      exact hinv.imm iv hiv
    · rw [e1] at hiv
      cases hiv
      refine ⟨e2, fun v hv => ?_⟩
      obtain ⟨g1, g2⟩ := e3 v hv
      rw [← hx] at g2
      exact ⟨g2, hnew.2.2 v g1 g2⟩
  have hpart : ∀ k, ∃ m, (∀ vars, fs'.parts k = some vars → HoldsRecords x sig size vars m) ∧
      (fs'.parts k = none → m = []) ∧
      (fs'.parts k = fs.parts k ∧ m = recs k ∨ MergedInto keyOf tol l fs fs' recs k m) ∧
      (r.isOk = true → inPart keyOf k l ≠ [] → MergedInto keyOf tol l fs fs' recs k m) := by
    rcases insert_core hsplit hsc haxis hdims hi hok hs h (.inr (line_monotone hb hnew hl)) with
      ⟨he, e, rfl⟩ |
      ⟨zds, pieces, n, c1, c2, c3, c4, c5, c6, c7, c8, c9, c10, c11, c12, c13, c14, c15, c16⟩
    · intro k
      refine ⟨recs k, fun vars hv => hinv.holds k vars (by rw [← he]; exact hv),
        fun hv => hinv.empty k (by rw [← he]; exact hv), .inl ⟨by rw [he], rfl⟩, fun hc => by cases hc⟩
    · obtain ⟨r1, r2⟩ := core_records c1 c2 c4 c9 c8 c10 c11 c12
      have hz0 := hnew.2.1
      rw [hx, ← c4] at hz0
      have hz : Series x sig size zds.delayed zds l := ⟨hz0, c5, rfl⟩
      have hlen : n = l.length := by
        have := series_dim hz
        rw [hx, c7] at this
        exact Option.some.inj this
      -- the records of a piece are those with its key
      have hslice : ∀ p ∈ pieces, inPart keyOf p.1 l = (l.take p.2.2).drop p.2.1 ∧
          inPart keyOf p.1 l ≠ [] := by
        intro p hp
        obtain ⟨g1, g2⟩ := r1 p hp
        refine ⟨?_, ?_⟩
        · apply filter_eq_slice
          intro i rc hrc
          rw [g2, keyAt_line hb hnew, decide_eq_true_eq]
          constructor
          · exact fun e => ⟨rc, hrc, e⟩
          · rintro ⟨rc', e1, e2⟩
            rw [hrc] at e1
            cases e1
            exact e2
        · obtain ⟨rc, e1, e2⟩ := (keyAt_line hb hnew _ _).1 ((g2 p.2.1).1 ⟨by omega, g1⟩)
          exact List.ne_nil_of_mem (List.mem_filter.2 ⟨List.mem_of_getElem? e1, decide_eq_true e2⟩)
      have hbound : ∀ p ∈ pieces, p.2.1 ≤ p.2.2 ∧ p.2.2 ≤ l.length := by
        intro p hp
        obtain ⟨g1, g2⟩ := r1 p hp
        refine ⟨by omega, ?_⟩
        obtain ⟨rc, e1, _⟩ := (keyAt_line hb hnew _ _).1 ((g2 (p.2.2 - 1)).1 ⟨by omega, by omega⟩)
        have := (List.getElem?_eq_some_iff.1 e1).1
        omega
      have heff : ∀ p ∈ pieces, EffectOn (some (TSD.mergeTimeSeries x tol)) zds.delayed
          (fs.parts p.1) (zds.vars.map (pieceVar o.dim p.2)) (fs'.parts p.1) →
          ∃ m, (∀ vars, fs'.parts p.1 = some vars → HoldsRecords x sig size vars m) ∧
            MergedInto keyOf tol l fs fs' recs p.1 m := by
        intro p hp he
        obtain ⟨s1, s2⟩ := hslice p hp
        have hpiece : HoldsRecords x sig size (zds.vars.map (pieceVar o.dim p.2))
            (inPart keyOf p.1 l) := by
          have := holds_piece hz0 p.2.1 p.2.2 (hbound p hp).1 (hbound p hp).2
          rw [hx] at this
          rw [s1]
          exact this
        cases hold' : fs.parts p.1 with
        | none =>
          rw [hold'] at he
          have he' : fs'.parts p.1 = some (zds.vars.map (pieceVar o.dim p.2)) := he
          refine ⟨_, fun vars hv => ?_, s2, by rw [he']; simp, .inl ⟨hold', rfl⟩⟩
          rw [he'] at hv
          cases hv
          exact hpiece
        | some vars =>
          rw [hold'] at he
          obtain ⟨a, q, r', e1, e2, e3, e4, e5, e6⟩ := he
          have ha := openGroup_series (hinv.holds _ _ hold') e1
          have hq : Series x sig size zds.delayed q (inPart keyOf p.1 l) :=
            ⟨by rw [e2]; exact hpiece, e3, e4⟩
          have hf := follows_merge ha hq tol
          cases hm : TS.mergeTimeSeries (recs p.1) (inPart keyOf p.1 l) tol with
          | error e =>
            rw [hm] at hf
            rw [show TSD.mergeTimeSeries x tol a q = _ from hf] at e5
            cases e5
          | ok m =>
            rw [hm] at hf
            obtain ⟨r'', f1, f2⟩ := hf
            rw [f1] at e5
            cases e5
            refine ⟨m, fun vars hv => ?_, s2, by rw [e6]; simp, .inr ⟨by rw [hold']; simp, hm⟩⟩
            rw [e6] at hv
            cases hv
            exact f2.toHoldsRecords
      have hsame : ∀ k, fs'.parts k = fs.parts k →
          (∀ vars, fs'.parts k = some vars → HoldsRecords x sig size vars (recs k)) ∧
          (fs'.parts k = none → recs k = []) := by
        intro k he
        rw [he]
        exact ⟨hinv.holds k, hinv.empty k⟩
      intro k
      by_cases hk : k ∈ pieces.map (·.1)
      · obtain ⟨p, hp, rfl⟩ := List.mem_map.1 hk
        by_cases hE : EffectOn (some (TSD.mergeTimeSeries x tol)) zds.delayed
          (fs.parts p.1) (zds.vars.map (pieceVar o.dim p.2)) (fs'.parts p.1)
        · obtain ⟨m, m1, m2⟩ := heff p hp hE
          exact ⟨m, m1, fun hn => absurd hn m2.2.1, .inr m2, fun _ _ => m2⟩
        · have he := (c14 p hp).resolve_right hE
          refine ⟨recs p.1, (hsame _ he).1, (hsame _ he).2, .inl ⟨he, rfl⟩, fun hr _ => ?_⟩
          cases r with
          | error e => cases hr
          | ok ks => exact absurd ((c16 ks rfl).2 p hp) hE
      · have he := c13 k hk
        refine ⟨recs k, (hsame _ he).1, (hsame _ he).2, .inl ⟨he, rfl⟩, fun _ hne => ?_⟩
        obtain ⟨rc, hrc⟩ := List.exists_mem_of_ne_nil _ hne
        obtain ⟨e1, e2⟩ := List.mem_filter.1 hrc
        obtain ⟨i, hi'⟩ := List.getElem?_of_mem e1
        exact absurd (r2 i k ((keyAt_line hb hnew i k).2 ⟨rc, hi', of_decide_eq_true e2⟩)) hk
  obtain ⟨recs', hrecs⟩ := Classical.axiomOfChoice hpart
  have hps : ∀ k, StrictSorted (inPart keyOf k l) := fun k => hl.filter _
  have hmerged : ∀ k, MergedInto keyOf tol l fs fs' recs k (recs' k) → StrictSorted (recs' k) ∧
      ∀ rc ∈ recs' k, [keyOf rc.1] = k := by
    intro k hm
    have hin : ∀ rc ∈ inPart keyOf k l, [keyOf rc.1] = k := fun rc hrc =>
      of_decide_eq_true (List.mem_filter.1 hrc).2
    rcases hm.2.2 with ⟨_, e⟩ | ⟨_, e⟩
    · rw [e]
      exact ⟨hps k, hin⟩
    · obtain ⟨h1, _, h3, _⟩ := C05_outcome _ _ _ tol (hinv.sorted k) (hps k) e
      refine ⟨h1, fun rc hrc => ?_⟩
      rcases h3 rc hrc with hrc | ⟨hrc, _⟩
      · exact hin rc hrc
      · exact hinv.keys k rc hrc
  refine ⟨recs', ⟨fun k => (hrecs k).1, fun k => (hrecs k).2.1, ?_, ?_, himm⟩,
    fun k => (hrecs k).2.2⟩
  · intro k
    rcases (hrecs k).2.2.1 with ⟨_, e⟩ | hm
    · rw [e]; exact hinv.sorted k
    · exact (hmerged k hm).1
  · intro k
    rcases (hrecs k).2.2.1 with ⟨_, e⟩ | hm
    · rw [e]; exact hinv.keys k
    · exact (hmerged k hm).2

/-- The partitions opened one after the other. -/
theorem opened_series {fs : Files (List Int) V} {recs : List Int → List (Int × Content V)}
    (hinv : LineInv x sig size keyOf fs recs) (b : Bool) (ps : List (List Int))
    (hps : ∀ k ∈ ps, fs.parts k ≠ none) :
    ∃ gs : List (Dataset V × List (Int × Content V)),
      mapPy (Upd.openPart b none fs.parts) ps = .ok (gs.map (·.1)) ∧
      gs.map (·.2) = ps.map recs ∧ ∀ g ∈ gs, Series x sig size b g.1 g.2 := by
  induction ps with
  | nil => exact ⟨[], rfl, rfl, by simp⟩
  | cons k t ih =>
    obtain ⟨gs, h1, h2, h3⟩ := ih fun k' hk' => hps k' (List.mem_cons_of_mem _ hk')
    obtain ⟨vars, hv⟩ := Option.ne_none_iff_exists'.1 (hps k List.mem_cons_self)
    have hh := hinv.holds k vars hv
    obtain ⟨g, hg, _⟩ := mk_shaped (vars.map fun v => { v with delayed := b }) [] [] 0 b x.dim
      (recs k).length size (by simpa [Function.comp_def] using hh.names) (by simp)
      (by
        intro v hvm
        obtain ⟨u, hu, rfl⟩ := List.mem_map.1 hvm
        exact hh.shapes u hu)
    have hopen : Upd.openGroup b none vars = .ok g := by
      unfold Upd.openGroup
      rw [show (vars.filter fun v => match (none : Option (List String)) with
        | none => true
        | some l => decide (v.name ∈ l)) = vars from List.filter_eq_self.2 fun _ _ => rfl]
      exact hg
    refine ⟨(g, recs k) :: gs, ?_, by simp [h2], ?_⟩
    · have : Upd.openPart b none fs.parts k = .ok g := by
        simp only [Upd.openPart, hv]
        exact hopen
      simp only [mapPy, this, h1, bind, Except.bind, List.map_cons]
    · intro y hy
      rcases List.mem_cons.1 hy with rfl | hy
      · exact openGroup_series hh hopen
      · exact h3 y hy

/-- The records of partitions in the order of their keys. -/
theorem flatMap_sorted (hmono : ∀ s t, s ≤ t → keyOf s ≤ keyOf t)
    {recs : List Int → List (Int × Content V)} (hs : ∀ k, StrictSorted (recs k))
    (hk : ∀ k, ∀ r ∈ recs k, [keyOf r.1] = k) (ps : List (List Int)) (hps : ps.Pairwise (· < ·)) :
    StrictSorted (ps.flatMap recs) := by
  induction ps with
  | nil => simp [StrictSorted]
  | cons k t ih =>
    rw [List.pairwise_cons] at hps
    rw [List.flatMap_cons]
    refine List.pairwise_append.2 ⟨hs k, ih hps.2, ?_⟩
    intro a ha c hc
    obtain ⟨k', hk', hc'⟩ := List.mem_flatMap.1 hc
    have hlt := hps.1 k' hk'
    rw [← hk k a ha, ← hk k' c hc'] at hlt
    refine Classical.byContradiction fun hn => ?_
    have hle := hmono c.1 a.1 (by omega)
    have : ¬ ([keyOf a.1] < [keyOf c.1]) := by
      rw [List.not_lt]
      rcases Int.lt_or_eq_of_le hle with h | h
      · exact List.le_of_lt (List.Lex.rel h)
      · rw [h]; exact List.le_refl _
    exact this hlt

/-- The load of a collection that holds a time series. -/
theorem line_load {w : World (List Int) V} (hx : x.dim = o.dim)
    (hmono : ∀ s t, s ≤ t → keyOf s ≤ keyOf t) {fs : Files (List Int) V}
    {recs : List Int → List (Int × Content V)} (hinv : LineInv x sig size keyOf fs recs)
    (hal : Aligned o fs) (hlist : OrderedListing w fs.parts) (le : List Int → List Int → Bool)
    (delayed : Bool) (filters : List Int → Bool)
    (hsel : ∃ k, fs.parts k ≠ none ∧ filters k = true) :
    ∃ zds L, Sch.load w o le delayed none filters none fs = .ok (some zds) ∧
      HoldsLine x sig size zds.vars L ∧ StrictSorted L ∧
      ∀ r, r ∈ L ↔ filters [keyOf r.1] = true ∧ r ∈ recs [keyOf r.1] := by
  rw [C65_aligned_load w o fs hal]
  show ∃ zds L, Ld.load (optsOf o delayed none fs) fs.parts (w.list fs.parts) filters = _ ∧ _
  generalize hps : (w.list fs.parts).filter filters = ps
  have hmem : ∀ k, k ∈ ps ↔ fs.parts k ≠ none ∧ filters k = true := by
    intro k
    rw [← hps, List.mem_filter, hlist.2]
  have hne : ps ≠ [] := by
    obtain ⟨k, hk⟩ := hsel
    exact List.ne_nil_of_mem ((hmem k).2 hk)
  have hlt : ps.Pairwise (· < ·) := by
    rw [← hps]
    exact hlist.1.filter _
  obtain ⟨gs, g1, g2, g3⟩ := opened_series hinv delayed ps fun k hk => ((hmem k).1 hk).1
  -- the groups one after the other
  have hjoin : ∃ z, Upd.joinGroups o.dim (gs.map (·.1)) = .ok z ∧
      Series x sig size delayed z (ps.flatMap recs) := by
    have hfl : ps.flatMap recs = (gs.map (·.2)).flatten := by rw [g2, List.flatMap_def]
    rw [hfl, ← hx]
    cases gs with
    | nil =>
      cases ps with
      | nil => exact absurd rfl hne
      | cons _ _ => simp at g2
    | cons a t =>
      cases t with
      | nil => exact ⟨a.1, rfl, by simpa using g3 a (by simp)⟩
      | cons c t =>
        obtain ⟨r, r1, r2⟩ := series_concat (g3 a (by simp)) (c :: t) (by simp)
          (fun p hp => g3 p (List.mem_cons_of_mem _ hp))
        exact ⟨r, r1, r2⟩
  obtain ⟨z, z1, z2⟩ := hjoin
  -- the immutable variables
  have himm : ∀ iv, (optsOf o delayed none fs).imm = some iv → (iv.map (·.name)).Nodup ∧
      (∀ v ∈ iv, x.dim ∉ v.dims ∧ v.array.shape = v.dims.map size) ∧
      ∀ v ∈ iv, ∃ m ∈ o.metas, m.name = v.name ∧ o.dim ∉ m.dims := by
    intro iv h
    simp only [optsOf] at h
    split at h
    · cases h
      cases hi : fs.imm with
      | none => simp
      | some iv =>
        obtain ⟨i1, i2⟩ := hinv.imm iv hi
        exact ⟨i1, i2, fun v hv => (hal.immNames iv hi v.name).1 (List.mem_map_of_mem hv)⟩
    · cases h
  have hzn : ∀ v ∈ z.vars, ∃ m ∈ o.metas, m.name = v.name ∧ o.dim ∈ m.dims := by
    intro v hv
    obtain ⟨k, hk⟩ := List.exists_mem_of_ne_nil _ hne
    obtain ⟨vars, hvars⟩ := Option.ne_none_iff_exists'.1 ((hmem k).1 hk).1
    have h1 := z2.signature v.name
    have h2 := (hinv.holds k vars hvars).signature v.name
    rw [getVar_of_mem _ z2.names v hv] at h1
    rw [← h1] at h2
    obtain ⟨u, hu, _⟩ := Option.map_eq_some_iff.1 h2
    obtain ⟨u1, u2⟩ := getVar_some _ _ _ hu
    exact ((hal.parts k vars hvars).names v.name).1 (List.mem_map.2 ⟨u, u1, u2⟩)
  have hfresh : ∀ iv, (optsOf o delayed none fs).imm = some iv → ∀ v ∈ z.vars, ∀ u ∈ iv,
      u.name ≠ v.name := by
    intro iv h v hv u hu he
    obtain ⟨m, m1, m2, m3⟩ := (himm iv h).2.2 u hu
    obtain ⟨m', m1', m2', m3'⟩ := hzn v hv
    have : m = m' := eq_of_nodup_map hal.nodup m1 m1' (by rw [m2, m2', he])
    subst this
    exact m3 m3'
  have hfin : ∃ r, Ld.finish (optsOf o delayed none fs) (gs.map (·.1)) = .ok r ∧
      HoldsLine x sig size r.vars (ps.flatMap recs) := by
    have hzd : ∀ v ∈ z.vars, x.dim ∈ v.dims := fun v hv => (z2.dims v hv).2
    cases hi : (optsOf o delayed none fs).imm with
    | none =>
      refine ⟨z, ?_, z2.names, ?_, fun v hv hn => absurd (hzd v hv) hn⟩
      · simp only [Ld.finish, bind, Except.bind, hi]
        rw [show Upd.joinGroups (optsOf o delayed none fs).dim (gs.map (·.1)) = .ok z from z1]
      · rw [List.filter_eq_self.2 fun v hv => decide_eq_true (hzd v hv)]
        exact z2.toHoldsRecords
    | some iv =>
      obtain ⟨i1, i2, i3⟩ := himm iv hi
      have hgood : GoodImm o.dim size fs.parts iv := by
        refine ⟨i1, ?_, fun v hv => by rw [← hx]; exact i2 v hv⟩
        intro p vars hp v hv u hu he
        obtain ⟨m, m1, m2, m3⟩ := i3 u hu
        obtain ⟨m', m1', m2', m3'⟩ := ((hal.parts p vars hp).names v.name).1 (List.mem_map_of_mem hv)
        have : m = m' := eq_of_nodup_map hal.nodup m1 m1' (by rw [m2, m2', he])
        subst this
        exact m3 m3'
      have hdel : ∀ g ∈ gs.map (·.1), g.delayed = delayed := by
        intro g hg
        obtain ⟨p, hp, rfl⟩ := List.mem_map.1 hg
        exact (g3 p hp).kind
      have hfrom : ∀ g ∈ gs.map (·.1), DimsFrom g := by
        intro g hg
        obtain ⟨q, _, hq⟩ := mapPy_mem _ _ _ g1 g hg
        exact openPart_dimsFrom hq
      obtain ⟨ids, r, h1, h2, h3, h4, h5⟩ := merge_imm (N := (ps.flatMap recs).length) hgood delayed none
        (joinGroups_delayed hdel z1) (joinGroups_dimsFrom hfrom z1)
        (by
          intro v hv
          rw [← hx]
          exact z2.shapes v hv) (hfresh iv hi)
      have hidn : (ids.vars.map (·.name)).Nodup := (mk_spec _ _ _ _ _ _ h1).1.names
      have hidm : ∀ u ∈ ids.vars, ∃ v ∈ iv, u = { v with delayed := delayed } :=
        fun u hu => (h5 u hu).2
      refine ⟨r, ?_, ?_, ?_, ?_⟩
      · simp only [Ld.finish, bind, Except.bind, hi]
        rw [show Upd.joinGroups (optsOf o delayed none fs).dim (gs.map (·.1)) = .ok z from z1]
        simp only
        rw [show Upd.openGroup (optsOf o delayed none fs).delayed (optsOf o delayed none fs).sel iv =
          .ok ids from h1]
        simp only [h2]
      · rw [h3, List.map_append, List.nodup_append]
        refine ⟨z2.names, hidn, ?_⟩
        intro a ha c hc he
        obtain ⟨v, hv, rfl⟩ := List.mem_map.1 ha
        obtain ⟨u, hu, rfl⟩ := List.mem_map.1 hc
        obtain ⟨u', hu', rfl⟩ := hidm u hu
        exact hfresh iv hi v hv u' hu' he.symm
      · rw [h3, List.filter_append, List.filter_eq_self.2 fun v hv => decide_eq_true (hzd v hv)]
        have : ids.vars.filter (fun v => decide (x.dim ∈ v.dims)) = [] := by
          rw [List.filter_eq_nil_iff]
          intro u hu
          obtain ⟨u', hu', rfl⟩ := hidm u hu
          simpa using (i2 u' hu').1
        rw [this, List.append_nil]
        exact z2.toHoldsRecords
      · intro v hv hn
        rw [h3] at hv
        rcases List.mem_append.1 hv with hv | hv
        · exact absurd (hzd v hv) hn
        · obtain ⟨u', hu', rfl⟩ := hidm v hv
          exact (i2 u' hu').2
  obtain ⟨r, hr, hline⟩ := hfin
  refine ⟨r, ps.flatMap recs, ?_, hline, flatMap_sorted hmono hinv.sorted hinv.keys ps hlt, ?_⟩
  · simp only [Ld.load, hps, if_neg hne, bind, Except.bind]
    rw [show mapPy (Upd.openPart (optsOf o delayed none fs).delayed (optsOf o delayed none fs).sel
      fs.parts) ps = .ok (gs.map (·.1)) from g1]
    simp only [hr]
  · intro rc
    rw [List.mem_flatMap]
    constructor
    · rintro ⟨k, hk, hrc⟩
      have := hinv.keys k rc hrc
      subst this
      exact ⟨((hmem _).1 hk).2, hrc⟩
    · rintro ⟨hf, hrc⟩
      refine ⟨_, (hmem _).2 ⟨?_, hf⟩, hrc⟩
      intro hn
      rw [hinv.empty _ hn] at hrc
      cases hrc

end Verif
