import Verif.Lemmas.PipelineLoad
import Verif.Lemmas.PipelineAccept

/-! The insertion of a dataset into a collection: C10 and C22 for whole datasets. -/

namespace Verif

open Spec Nd Ds Sch Pipe

variable {V : Type}

/-- The slice of a variable holds its records. -/
theorem pieceVar_records {dim : String} {c : Nat × Nat} {v : Var V} (hd : v.dims.Nodup) :
    RecordsOf dim c.1 c.2 v (pieceVar dim c v) := by
  refine ⟨rfl, rfl, rfl, rfl, ?_, ?_⟩
  · intro ax hax
    have hi : v.dims.idxOf? dim = some ax := by
      cases h : v.dims.idxOf? dim with
      | none => exact absurd (List.mem_of_getElem? hax) (idxOf?_none.1 h)
      | some k => rw [nodup_getElem? hd (idxOf?_getElem h) hax]
    simp only [pieceVar, hi, piece, takeAxis, List.length_map, List.length_range, true_and]
    intro idx j hj
    rw [hj, Option.bind_some, List.getElem?_map]
    constructor
    · intro hlt
      rw [List.getElem?_range hlt]
      rfl
    · intro hle
      rw [List.getElem?_eq_none (by simpa using hle)]
      rfl
  · intro hn
    simp only [pieceVar, idxOf?_none.2 hn]

theorem pieceVar_pieceOf {dim : String} {c : Nat × Nat} {vars : List (Var V)}
    (hd : ∀ v ∈ vars, v.dims.Nodup) :
    PieceOf dim c.1 c.2 vars (vars.map (pieceVar dim c)) := by
  refine ⟨by simp, fun j v hj => ⟨pieceVar dim c v, by rw [List.getElem?_map, hj]; rfl,
    pieceVar_records (hd v (List.mem_of_getElem? hj))⟩⟩

/-- C10 for a dataset: an accepted split gives slices that follow each other, with increasing
keys, and each record of a slice has the keys of the slice.  Missing: eager data with unsorted
keys. -/
theorem C10_dataset_partial (sc : Scheme V) (hsc : GoodScheme sc) (zds : Dataset V)
    (hok : ∀ v ∈ zds.vars, ArrOk v.array) (ps : List (List Int × (Nat × Nat)))
    (h : splitDataset sc zds = .ok ps)
    (hs : zds.delayed = true ∨ KeysMonotone sc zds.vars) :
    ∃ n, (∀ name ∈ sc.variables, ∃ v ∈ zds.vars, v.name = name ∧ v.array.shape = [n]) ∧
      Chain 0 n (ps.map (·.2)) ∧ (ps.map (·.1)).Pairwise (· < ·) ∧
      ∀ p ∈ ps, ∀ i, p.2.1 ≤ i → i < p.2.2 → KeyAt sc zds.vars i p.1 :=
  (splitDataset_spec hsc hok h hs).2

/-- C10 for a dataset: a variable of the partitioning that the dataset lacks, or that does not
have one dimension, is refused before anything is split. -/
theorem C10_dataset_refused (sc : Scheme V) (zds : Dataset V) (name : String)
    (hn : name ∈ sc.variables)
    (hbad : ∀ v ∈ zds.vars, v.name = name → v.array.shape.length ≠ 1) :
    splitDataset sc zds = .error .keyError ∨ splitDataset sc zds = .error .valueError := by
  have key : ∀ l : List String, name ∈ l →
      keyVars zds l = .error .keyError ∨ keyVars zds l = .error .valueError := by
    intro l
    induction l with
    | nil => simp
    | cons a t ih =>
      intro hl
      simp only [keyVars, bind, Except.bind, getVarE]
      cases hg : getVar zds.vars a with
      | none => exact .inl rfl
      | some v =>
        obtain ⟨g1, g2⟩ := getVar_some _ _ _ hg
        simp only [Split.checkDims, List.all_cons, List.all_nil, Bool.and_true,
          decide_eq_true_eq]
        by_cases h1 : v.array.shape.length = 1
        · rw [if_pos h1]
          have ht : name ∈ t := by
            rcases List.mem_cons.1 hl with rfl | ht
            · exact absurd h1 (hbad v g1 g2)
            · exact ht
          rcases ih ht with hh | hh <;> rw [hh] <;> simp
        · rw [if_neg h1]
          exact .inr rfl
  rcases key _ hn with hh | hh <;> simp [splitDataset, bind, Except.bind, hh]

/-- What the records of the dataset `ds` with the keys `k` are: the records `lo .. hi`. -/
def RecordsWithKey (sc : Scheme V) (vars : List (Var V)) (k : List Int) (lo hi : Nat) : Prop :=
  lo < hi ∧ ∀ i, (lo ≤ i ∧ i < hi) ↔ KeyAt sc vars i k

/-- C22, failure or not, from the description of the insertion. -/
theorem core_records {sc : Scheme V} {dim : String} {ds' zds : Dataset V} {n : Nat}
    {pieces : List (List Int × (Nat × Nat))} (hcd : Consistent ds')
    (hok : ∀ v ∈ ds'.vars, ArrOk v.array ∧ v.dims.Nodup)
    (hzv : zds.vars = (ds'.vars.filter fun v => decide (dim ∈ v.dims)))
    (hkeys : ∀ name ∈ sc.variables, ∃ v ∈ zds.vars, v.name = name ∧ v.dims = [dim] ∧
      v.array.shape = [n]) (hne : sc.variables ≠ [])
    (hch : Chain 0 n (pieces.map (·.2))) (hinc : (pieces.map (·.1)).Pairwise (· < ·))
    (hk : ∀ p ∈ pieces, ∀ i, p.2.1 ≤ i → i < p.2.2 → KeyAt sc zds.vars i p.1) :
    (∀ p ∈ pieces, RecordsWithKey sc ds'.vars p.1 p.2.1 p.2.2) ∧
      ∀ i k, KeyAt sc ds'.vars i k → k ∈ pieces.map (·.1) := by
  have hup : ∀ i k, KeyAt sc zds.vars i k → KeyAt sc ds'.vars i k := by
    intro i k hk
    refine ⟨hk.1, fun j name hj => ?_⟩
    obtain ⟨v, h1, h2⟩ := hk.2 j name hj
    rw [hzv] at h1
    exact ⟨v, (List.mem_filter.1 h1).1, h2⟩
  have hlt : ∀ i k, KeyAt sc ds'.vars i k → i < n := by
    intro i k hki
    cases hv : sc.variables with
    | nil => exact absurd hv hne
    | cons name t =>
      obtain ⟨v, h1, h2, x, h3, _⟩ := hki.2 0 name (by rw [hv]; rfl)
      obtain ⟨v', e1, e2, e3, e4⟩ := hkeys name (by rw [hv]; exact List.mem_cons_self)
      rw [hzv] at e1
      have g1 := getVar_of_mem _ hcd.names v h1
      have g2 := getVar_of_mem _ hcd.names v' (List.mem_filter.1 e1).1
      rw [h2] at g1
      rw [e2, g1] at g2
      cases g2
      have := ((hok v h1).1 [i]).1 ⟨x, h3⟩
      rw [e4] at this
      exact (inside_one n i).1 this
  have hcover : ∀ i, i < n → ∃ p ∈ pieces, p.2.1 ≤ i ∧ i < p.2.2 := by
    intro i hi
    obtain ⟨c, hc, h1, _⟩ := C09_exactly_one n _ hch i hi
    obtain ⟨p, hp, rfl⟩ := List.mem_map.1 hc
    exact ⟨p, hp, h1⟩
  have hnd : (pieces.map (·.1)).Nodup := hinc.imp fun h he => by
    rw [he] at h; exact List.lt_irrefl _ h
  constructor
  · intro p hp
    constructor
    · have : ∀ (l : List (Nat × Nat)) (a : Nat), Chain a n l → ∀ r ∈ l, r.1 < r.2 := by
        intro l
        induction l with
        | nil => simp
        | cons r l ih =>
          intro a ha r' hr'
          obtain ⟨_, h1, h2⟩ := ha
          rcases List.mem_cons.1 hr' with rfl | hr'
          · exact h1
          · exact ih _ h2 r' hr'
      exact this _ 0 hch p.2 (List.mem_map_of_mem hp)
    · intro i
      constructor
      · rintro ⟨h1, h2⟩
        exact hup i p.1 (hk p hp i h1 h2)
      · intro hki
        obtain ⟨q, hq, h1, h2⟩ := hcover i (hlt i _ hki)
        have hqk := keyAt_unique hcd.names (hup i q.1 (hk q hq i h1 h2)) hki
        have : q = p := by
          obtain ⟨a, ha⟩ := List.getElem?_of_mem hq
          obtain ⟨b, hb⟩ := List.getElem?_of_mem hp
          have h1 : (pieces.map (·.1))[a]? = some p.1 := by rw [List.getElem?_map, ha, ← hqk]; rfl
          have h2 : (pieces.map (·.1))[b]? = some p.1 := by rw [List.getElem?_map, hb]; rfl
          obtain ⟨la, ea⟩ := List.getElem?_eq_some_iff.1 h1
          obtain ⟨lb, eb⟩ := List.getElem?_eq_some_iff.1 h2
          have := (List.getElem_inj hnd).1 (ea.trans eb.symm)
          subst this
          rw [ha] at hb
          exact Option.some.inj hb
        subst this
        exact ⟨h1, h2⟩
  · intro i k hki
    obtain ⟨q, hq, h1, h2⟩ := hcover i (hlt i _ hki)
    have := keyAt_unique hcd.names (hup i q.1 (hk q hq i h1 h2)) hki
    rw [← this]
    exact List.mem_map_of_mem hq

/-- C22 for datasets: an insertion that returns puts, for every variable with the dimension of
the partitioning, the records of each key into the partition of this key (created, overwritten
or given by the merge callback), leaves the other partitions unchanged, stores the other
variables the first time, and returns the keys of the dataset in increasing order.  `ds'` is
the dataset completed with the missing variables (C47).  Missing: unsorted keys accepted by
the eager split (C10), an axis with another name than its dimension when there are variables
without this dimension (C30). -/
theorem C22_dataset_partial (w : World (List Int) V) (o : Obj V) (sc : Scheme V)
    (hsplit : w.split = splitDataset sc) (hsc : GoodScheme sc)
    (haxis : o.imm = true → o.axis = o.dim) (hdims : ∀ m ∈ o.metas, m.dims.Nodup)
    (faults : Faults (List Int)) (validate : Bool) (np : Option Int)
    (merge : Option (Sch.Merge V)) (ds ds' : Dataset V) (hi : Insertable o ds)
    (hok : ∀ v ∈ ds.vars, ArrOk v.array) (fs fs' : Files (List Int) V) (hs : Aligned o fs)
    (ks : List (List Int))
    (h : Sch.insert w o faults validate np merge ds fs = (ds', fs', .ok ks))
    (hsort : ds'.delayed = true ∨ KeysMonotone sc ds'.vars) :
    ks.Pairwise (· < ·) ∧ (∀ k, k ∈ ks ↔ ∃ i, KeyAt sc ds'.vars i k) ∧
    (∀ k, k ∉ ks → fs'.parts k = fs.parts k) ∧
    (∀ k ∈ ks, ∃ lo hi piece, RecordsWithKey sc ds'.vars k lo hi ∧
      PieceOf o.dim lo hi (ds'.vars.filter fun v => decide (o.dim ∈ v.dims)) piece ∧
      EffectOn merge ds'.delayed (fs.parts k) piece (fs'.parts k)) ∧
    fs'.imm = (if o.imm then (match fs.imm with
      | some l => some l
      | none => some (ds'.vars.filter fun v => decide (o.dim ∉ v.dims))) else fs.imm) := by
  rcases insert_core hsplit hsc haxis hdims hi hok hs h hsort with ⟨_, e, he⟩ |
    ⟨zds, pieces, n, c1, c2, c3, c4, c5, c6, c7, c8, c9, c10, c11, c12, c13, c14, c15, c16⟩
  · cases he
  · obtain ⟨rfl, heff⟩ := c16 ks rfl
    obtain ⟨r1, r2⟩ := core_records c1 c2 c4 c9 c8 c10 c11 c12
    refine ⟨c11, ?_, c13, ?_, c15⟩
    · intro k
      constructor
      · intro hk
        obtain ⟨p, hp, rfl⟩ := List.mem_map.1 hk
        obtain ⟨h1, h2⟩ := r1 p hp
        exact ⟨p.2.1, (h2 p.2.1).1 ⟨Nat.le_refl _, h1⟩⟩
      · rintro ⟨i, hki⟩
        exact r2 i k hki
    · intro k hk
      obtain ⟨p, hp, rfl⟩ := List.mem_map.1 hk
      refine ⟨p.2.1, p.2.2, zds.vars.map (pieceVar o.dim p.2), r1 p hp, ?_, ?_⟩
      · rw [c4]
        exact pieceVar_pieceOf fun v hv => (c2 v (List.mem_filter.1 hv).1).2
      · rw [← c6]
        exact heff p hp

/-- C22 for datasets: an insertion that raises leaves each partition as it was or as the
complete insertion makes it. -/
theorem C22_dataset_failed_partial (w : World (List Int) V) (o : Obj V) (sc : Scheme V)
    (hsplit : w.split = splitDataset sc) (hsc : GoodScheme sc)
    (haxis : o.imm = true → o.axis = o.dim) (hdims : ∀ m ∈ o.metas, m.dims.Nodup)
    (faults : Faults (List Int)) (validate : Bool) (np : Option Int)
    (merge : Option (Sch.Merge V)) (ds ds' : Dataset V) (hi : Insertable o ds)
    (hok : ∀ v ∈ ds.vars, ArrOk v.array) (fs fs' : Files (List Int) V) (hs : Aligned o fs)
    (e : PyErr) (h : Sch.insert w o faults validate np merge ds fs = (ds', fs', .error e))
    (hsort : ds'.delayed = true ∨ KeysMonotone sc ds'.vars) (k : List Int) :
    fs'.parts k = fs.parts k ∨ ∃ lo hi piece, RecordsWithKey sc ds'.vars k lo hi ∧
      PieceOf o.dim lo hi (ds'.vars.filter fun v => decide (o.dim ∈ v.dims)) piece ∧
      EffectOn merge ds'.delayed (fs.parts k) piece (fs'.parts k) := by
  rcases insert_core hsplit hsc haxis hdims hi hok hs h hsort with ⟨he, _⟩ |
    ⟨zds, pieces, n, c1, c2, c3, c4, c5, c6, c7, c8, c9, c10, c11, c12, c13, c14, c15, c16⟩
  · exact .inl (by rw [he])
  · obtain ⟨r1, r2⟩ := core_records c1 c2 c4 c9 c8 c10 c11 c12
    by_cases hk : k ∈ pieces.map (·.1)
    · obtain ⟨p, hp, rfl⟩ := List.mem_map.1 hk
      refine (c14 p hp).imp_right fun heff => ?_
      refine ⟨p.2.1, p.2.2, zds.vars.map (pieceVar o.dim p.2), r1 p hp, ?_, ?_⟩
      · rw [c4]
        exact pieceVar_pieceOf fun v hv => (c2 v (List.mem_filter.1 hv).1).2
      · rw [← c6]
        exact heff
    · exact .inl (c13 k hk)

/-- C22 for datasets: after an insertion into an empty collection, loading the collection gives
the dataset: the same variables with the same dimensions, values and properties, lazy or not as
the load asks.  The listing gives the partitions in the order of their keys (C16).  Missing: as
for `C22_dataset_partial`. -/
theorem C22_dataset_roundtrip_partial (w : World (List Int) V) (o : Obj V) (sc : Scheme V)
    (hsplit : w.split = splitDataset sc) (hsc : GoodScheme sc)
    (haxis : o.imm = true → o.axis = o.dim) (hdims : ∀ m ∈ o.metas, m.dims.Nodup)
    (faults : Faults (List Int)) (validate : Bool) (np : Option Int)
    (merge : Option (Sch.Merge V)) (ds ds' : Dataset V) (hi : Insertable o ds)
    (hok : ∀ v ∈ ds.vars, ArrOk v.array) (fs fs' : Files (List Int) V) (hs : Aligned o fs)
    (hempty : ∀ p, fs.parts p = none) (himm : fs.imm = none) (ks : List (List Int))
    (h : Sch.insert w o faults validate np merge ds fs = (ds', fs', .ok ks)) (hne : ks ≠ [])
    (hsort : ds'.delayed = true ∨ KeysMonotone sc ds'.vars)
    (hlist : (w.list fs'.parts).Pairwise (· < ·) ∧
      ∀ p, p ∈ w.list fs'.parts ↔ fs'.parts p ≠ none)
    (le : List Int → List Int → Bool) (d : Bool) :
    ∃ r, Sch.load w o le d none (fun _ => true) none fs' = .ok (some r) ∧
      r.vars.Perm (ds'.vars.map fun v => { v with delayed := d }) := by
  rcases insert_core hsplit hsc haxis hdims hi hok hs h hsort with ⟨_, e, he⟩ |
    ⟨zds, pieces, n, c1, c2, c3, c4, c5, c6, c7, c8, c9, c10, c11, c12, c13, c14, c15, c16⟩
  · cases he
  · obtain ⟨rfl, heff⟩ := c16 ks rfl
    have hst : ∀ p ∈ pieces, fs'.parts p.1 = some (zds.vars.map (pieceVar o.dim p.2)) := by
      intro p hp
      have := heff p hp
      rw [hempty p.1] at this
      exact this
    have hzsub : ∀ v ∈ zds.vars, v ∈ ds'.vars ∧ o.dim ∈ v.dims := by
      intro v hv
      rw [c4] at hv
      exact ⟨(List.mem_filter.1 hv).1, of_decide_eq_true (List.mem_filter.1 hv).2⟩
    have hlisting : w.list fs'.parts = pieces.map (·.1) := by
      apply Coll.sorted_unique hlist.1 c11
      intro k
      rw [hlist.2 k]
      constructor
      · intro hk
        refine Classical.byContradiction fun hc => hk ?_
        rw [c13 k hc, hempty k]
      · intro hk
        obtain ⟨p, hp, rfl⟩ := List.mem_map.1 hk
        rw [hst p hp]
        simp
    have hpne : pieces ≠ [] := by
      rintro rfl
      exact hne rfl
    obtain ⟨groups, r, j1, j2, j3, j4⟩ := join_pieces c5 (fun v hv => c2 v (hzsub v hv).1) c7 d
      hpne c10 hst
    suffices hl : ∃ r, Ld.load (optsOf o d none fs') fs'.parts (w.list fs'.parts)
        (fun _ => true) = .ok (some r) ∧
        r.vars.Perm (ds'.vars.map fun v => { v with delayed := d }) by
      obtain ⟨r, hr, hp⟩ := hl
      refine ⟨r, ?_, hp⟩
      have hnames : ∀ v ∈ r.vars, v.name ∈ metaNames o.metas := by
        intro v hv
        obtain ⟨u, hu, rfl⟩ := List.mem_map.1 (hp.mem_iff.1 hv)
        exact (c3.names u.name).1 (List.mem_map_of_mem hu)
      simp only [Sch.load, hr, filled, fillAttrs, bind, Except.bind, if_pos hnames]
    have hload : Ld.load (optsOf o d none fs') fs'.parts (w.list fs'.parts)
        (fun _ => true) =
        (Ld.finish (optsOf o d none fs') groups).map some := by
      simp only [Ld.load, hlisting]
      rw [List.filter_eq_self.2 fun _ _ => rfl, if_neg hne]
      have j1' : mapPy (Upd.openPart (optsOf o d none fs').delayed (optsOf o d none fs').sel
          fs'.parts) (pieces.map (·.1)) = .ok groups := j1
      simp only [bind, Except.bind, j1']
      cases Ld.finish _ groups <;> rfl
    rw [hload]
    cases hoi : o.imm with
    | false =>
      refine ⟨r, ?_, ?_⟩
      · simp [Ld.finish, optsOf, hoi, bind, Except.bind, j2, Except.map]
      · rw [j3, c4]
        apply List.Perm.of_eq
        apply congrArg
        rw [List.filter_eq_self]
        intro v hv
        obtain ⟨m, hm, he⟩ := List.mem_map.1 ((c3.names v.name).1 (List.mem_map_of_mem hv))
        rw [c3.dims v hv m hm he]
        refine decide_eq_true (Classical.byContradiction fun hcn => ?_)
        rw [hs.immutable.2 ⟨m, hm, hcn⟩] at hoi
        cases hoi
    | true =>
      rw [hoi, himm] at c15
      simp only [if_true] at c15
      obtain ⟨size, hsize⟩ := consistent_sizes c1 c3.ranks
      have hgood : GoodImm o.dim size fs'.parts
          (ds'.vars.filter fun v => decide (o.dim ∉ v.dims)) := by
        refine ⟨(List.Sublist.map _ List.filter_sublist).nodup c1.names, ?_, ?_⟩
        · intro p vars hp v hv x hx
          obtain ⟨x1, x2⟩ := List.mem_filter.1 hx
          have x2 := of_decide_eq_true x2
          by_cases hpk : p ∈ pieces.map (·.1)
          · obtain ⟨q, hq, rfl⟩ := List.mem_map.1 hpk
            rw [hst q hq] at hp
            cases hp
            obtain ⟨u, hu, rfl⟩ := List.mem_map.1 hv
            obtain ⟨u1, u2⟩ := hzsub u hu
            intro he
            have g1 := getVar_of_mem _ c1.names x x1
            have g2 := getVar_of_mem _ c1.names u u1
            rw [show (pieceVar o.dim q.2 u).name = u.name from rfl] at he
            rw [he, g2] at g1
            cases g1
            exact x2 u2
          · rw [c13 p hpk, hempty p] at hp
            cases hp
        · intro x hx
          obtain ⟨x1, x2⟩ := List.mem_filter.1 hx
          exact ⟨of_decide_eq_true x2, hsize x x1⟩
      obtain ⟨ids, r', m1, m2, m3, _, _⟩ := merge_imm hgood d none
        (joinGroups_delayed (fun g hg => (j4 g hg).1) j2)
        (joinGroups_dimsFrom (fun g hg => (j4 g hg).2) j2) (N := size o.dim)
        (by
          intro v hv
          rw [j3] at hv
          obtain ⟨u, hu, rfl⟩ := List.mem_map.1 hv
          show u.array.shape = _
          rw [hsize u (hzsub u hu).1]
          apply List.map_congr_left
          intro e _
          split
          · next he => rw [he]
          · rfl)
        (by
          intro v hv x hx
          rw [j3] at hv
          obtain ⟨u, hu, rfl⟩ := List.mem_map.1 hv
          obtain ⟨x1, x2⟩ := List.mem_filter.1 hx
          obtain ⟨u1, u2⟩ := hzsub u hu
          intro he
          have g1 := getVar_of_mem _ c1.names x x1
          have g2 := getVar_of_mem _ c1.names u u1
          rw [show (asDelayed d u).name = u.name from rfl] at he
          rw [he, g2] at g1
          cases g1
          exact of_decide_eq_true x2 u2)
      refine ⟨r', ?_, ?_⟩
      · simp only [Ld.finish, optsOf, hoi, bind, Except.bind, j2, c15, if_true, m1, m2, Except.map]
      · have hids : ids.vars = (ds'.vars.filter fun v => decide (o.dim ∉ v.dims)).map
            (asDelayed d) := by
          unfold Upd.openGroup at m1
          rw [List.filter_eq_self.2 fun _ _ => rfl] at m1
          obtain ⟨_, k2, _⟩ := mk_spec _ _ _ _ _ _ m1
          rw [k2]
          have := foldl_setVar_id ((ds'.vars.filter fun v => decide (o.dim ∉ v.dims)).map
            (asDelayed d)) [] (by
              simp only [List.nil_append, List.map_map]
              exact (List.Sublist.map _ List.filter_sublist).nodup c1.names)
          rw [List.nil_append] at this
          exact this
        rw [m3, j3, hids, c4, ← List.map_append]
        apply List.Perm.map
        have := List.filter_append_perm (fun v : Var V => decide (o.dim ∈ v.dims)) ds'.vars
        simpa using this

theorem insertAll_ok {P : Type} [DecidableEq P] {dim : String} {zds : Dataset V} {n : Nat}
    (hc : Consistent zds) (hok : ∀ v ∈ zds.vars, ArrOk v.array ∧ v.dims.Nodup)
    (hd : zds.dims.lookup dim = some n) {faults : Faults P} (hf : ∀ p, faults.write p = false)
    (bs : List (List (P × (Nat × Nat)))) (hb : ∀ p ∈ bs.flatten, p.2.1 ≤ p.2.2 ∧ p.2.2 ≤ n)
    (st : Upd.Store P V) : ∃ st', insertAll none faults dim zds st bs = (st', .ok ()) := by
  have hbatch : ∀ (l : List (P × (Nat × Nat))), (∀ p ∈ l, p.2.1 ≤ p.2.2 ∧ p.2.2 ≤ n) →
      ∀ st : Upd.Store P V, ∃ st', insertBatch none faults dim zds st l = (st', .ok ()) := by
    intro l
    induction l with
    | nil => intro _ st; exact ⟨st, rfl⟩
    | cons x t ih =>
      intro hl st
      obtain ⟨h1, h2⟩ := hl x List.mem_cons_self
      obtain ⟨dims, hisel⟩ := isel_piece zds hc hok dim n hd x.2 h1 h2
      have ht : ∃ st1, insertTask none faults dim zds st x = .ok st1 := by
        simp only [insertTask, bind, Except.bind, hisel, perform, hf]
        cases st x.1 <;> exact ⟨_, rfl⟩
      obtain ⟨st1, ht⟩ := ht
      obtain ⟨st', h⟩ := ih (fun p hp => hl p (List.mem_cons_of_mem _ hp)) st1
      exact ⟨st', by simp only [insertBatch, ht, h]⟩
  induction bs generalizing st with
  | nil => exact ⟨st, rfl⟩
  | cons b t ih =>
    obtain ⟨st1, h1⟩ := hbatch b (fun p hp => hb p (by
      rw [List.flatten_cons]; exact List.mem_append_left _ hp)) st
    obtain ⟨st', h2⟩ := ih (fun p hp => hb p (by
      rw [List.flatten_cons]; exact List.mem_append_right _ hp)) st1
    exact ⟨st', by simp only [insertAll, h1, h2]⟩

/-- C22 for datasets: a dataset with the variables of the collection, sorted keys and at least
one record is inserted without error, when nothing has to be merged and the files can be
written. -/
theorem C22_dataset_accepted (w : World (List Int) V) (o : Obj V) (sc : Scheme V)
    (hsplit : w.split = splitDataset sc) (hsc : GoodScheme sc)
    (haxis : o.imm = true → o.axis = o.dim) (hdims : ∀ m ∈ o.metas, m.dims.Nodup)
    (faults : Faults (List Int)) (hf : ∀ p, faults.write p = false) (validate : Bool)
    (np : Option Int) (hnp : ∀ n, np = some n → 1 ≤ n) (ds : Dataset V) (hi : Insertable o ds)
    (hnames : ∀ n, n ∈ ds.vars.map (·.name) ↔ n ∈ o.metas.map (·.name))
    (hval : validate = true → w.sameMeta ds o.metas = true)
    (hok : ∀ v ∈ ds.vars, ArrOk v.array) (fs : Files (List Int) V) (hs : Aligned o fs)
    (hne : sc.variables ≠ []) (hkeys : ∀ name ∈ sc.variables, ∃ v ∈ ds.vars, v.name = name ∧
      v.dims = [o.dim] ∧ ∀ i x, v.array.get [i] = some x → (sc.asKey x).isSome)
    (hrec : ∃ i k, KeyAt sc ds.vars i k) (hm : KeysMonotone sc ds.vars) :
    ∃ fs' ks, Sch.insert w o faults validate np none ds fs = (ds, fs', .ok ks) ∧ ks ≠ [] := by
  have hmiss : missing o.metas ds = .ok [] := by
    unfold missing
    rw [if_neg (by
      rintro ⟨v, hv, hn⟩
      exact hn ((hnames v.name).1 (List.mem_map_of_mem hv)))]
    congr 1
    rw [List.filter_eq_nil_iff]
    intro m hmem
    have := (hnames m.name).2 (List.mem_map_of_mem hmem)
    simpa using this
  obtain ⟨name, hname⟩ := List.exists_mem_of_ne_nil _ hne
  have hvne : ds.vars ≠ [] := by
    obtain ⟨v, hv, _⟩ := hkeys name hname
    exact List.ne_nil_of_mem hv
  obtain ⟨dims0, hz, _⟩ := mk_ok ds.vars [] ds.chunks ds.limit ds.delayed ds.dims
    hi.consistent.names hi.consistent.kind hi.consistent.sizes
  rw [← mk_none_ok hvne hi.consistent.kind hi.consistent.names] at hz
  have hw : Whole o ds.vars := ⟨hi.consistent.names, hnames, hi.dims, hi.ranks⟩
  obtain ⟨hc, _⟩ := mk_spec _ _ _ _ _ _ hz
  have hmem : ∀ v ∈ ds.vars, o.imm = false → o.dim ∈ v.dims := by
    intro v hv hoi
    obtain ⟨m, hm', he⟩ := List.mem_map.1 ((hnames v.name).1 (List.mem_map_of_mem hv))
    rw [hi.dims v hv m hm' he]
    refine Classical.byContradiction fun hcn => ?_
    rw [hs.immutable.2 ⟨m, hm', hcn⟩] at hoi
    cases hoi
  generalize hzds0 : ({ dims := dims0, vars := ds.vars, attrs := [], chunks := ds.chunks,
                        limit := ds.limit, delayed := ds.delayed } : Dataset V) = zds0 at hz hc
  have hv0 : zds0.vars = ds.vars := by rw [← hzds0]
  -- the immutable variables
  have htake : ∃ fs1 zds, takeImmutable o zds0 fs = (fs1, .ok zds) ∧
      zds.vars = ds.vars.filter fun v => decide (o.dim ∈ v.dims) := by
    unfold takeImmutable
    cases hoi : o.imm with
    | false =>
      refine ⟨fs, zds0, rfl, ?_⟩
      rw [hv0, List.filter_eq_self.2]
      intro v hv
      exact decide_eq_true (hmem v hv hoi)
    | true =>
      simp only [if_true, haxis hoi]
      obtain ⟨zds, h1⟩ := selectByDims_ok hc o.dim true (by
        rw [hv0]
        obtain ⟨v, hv, _, hd, _⟩ := hkeys name hname
        exact List.ne_nil_of_mem (List.mem_filter.2 ⟨hv, by simp [hd]⟩))
      obtain ⟨ids, h2⟩ := selectByDims_ok hc o.dim false (by
        rw [hv0]
        obtain ⟨m, hm', hd⟩ := hs.immutable.1 hoi
        obtain ⟨v, hv, he⟩ := List.mem_map.1 ((hnames m.name).2 (List.mem_map_of_mem hm'))
        refine List.ne_nil_of_mem (List.mem_filter.2 ⟨hv, ?_⟩)
        rw [hi.dims v hv m hm' he.symm]
        simpa using hd)
      have hzv : zds.vars = ds.vars.filter fun v => decide (o.dim ∈ v.dims) := by
        rw [(selectByDims_vars hc h1).2, hv0]
        simp
      cases hfi : fs.imm with
      | some l => exact ⟨fs, zds, by rw [h1], hzv⟩
      | none =>
        have hids : ids.vars ≠ [] := by
          rw [(selectByDims_vars hc h2).2, hv0]
          obtain ⟨m, hm', hd⟩ := hs.immutable.1 hoi
          obtain ⟨v, hv, he⟩ := List.mem_map.1 ((hnames m.name).2 (List.mem_map_of_mem hm'))
          refine List.ne_nil_of_mem (List.mem_filter.2 ⟨hv, ?_⟩)
          rw [hi.dims v hv m hm' he.symm]
          simpa using hd
        refine ⟨{ fs with imm := some ids.vars }, zds, ?_, hzv⟩
        simp only [h2, hids, if_false, h1]
  obtain ⟨fs1, zds, ht, hzv⟩ := htake
  obtain ⟨_, a2, _, _, a5⟩ := takeImmutable_spec haxis hs (by rw [hv0]; exact hw) hc ht
  obtain ⟨hpart, _⟩ := a5 zds rfl
  have hsub : ∀ v ∈ zds.vars, v ∈ ds.vars ∧ o.dim ∈ v.dims := by
    intro v hv
    rw [hzv] at hv
    exact ⟨(List.mem_filter.1 hv).1, of_decide_eq_true (List.mem_filter.1 hv).2⟩
  have hokz : ∀ v ∈ zds.vars, ArrOk v.array ∧ v.dims.Nodup := by
    intro v hv
    obtain ⟨v1, _⟩ := hsub v hv
    refine ⟨hok v v1, ?_⟩
    obtain ⟨m, hm', he⟩ := List.mem_map.1 ((hnames v.name).1 (List.mem_map_of_mem v1))
    rw [hi.dims v v1 m hm' he]
    exact hdims m hm'
  -- the length of the dimension
  have hin : ∀ nm ∈ sc.variables, ∃ v ∈ zds.vars, v ∈ ds.vars ∧ v.name = nm ∧
      v.dims = [o.dim] ∧ ∀ i x, v.array.get [i] = some x → (sc.asKey x).isSome := by
    intro nm hnm
    obtain ⟨v, h1, h2, h3, h4⟩ := hkeys nm hnm
    refine ⟨v, ?_, h1, h2, h3, h4⟩
    rw [hzv]
    exact List.mem_filter.2 ⟨h1, by simp [h3]⟩
  obtain ⟨v0, z0, d0, n0, e0, _⟩ := hin name hname
  obtain ⟨n, _, hlook⟩ := hpart.consistent.sizes v0 z0 0 o.dim (by rw [e0]; rfl)
  have hshape : ∀ v ∈ zds.vars, v.dims = [o.dim] → v.array.shape = [n] := by
    intro v hv hd
    obtain ⟨m, e1, e2⟩ := hpart.consistent.sizes v hv 0 o.dim (by rw [hd]; rfl)
    rw [hlook] at e2
    cases e2
    have hr := hpart.ranks v hv
    rw [hd] at hr
    obtain ⟨k, hk⟩ := List.length_eq_one_iff.1 hr
    rw [hk] at e1
    simp only [List.getElem?_cons_zero, Option.some.injEq] at e1
    rw [hk, e1]
  have hpos : 0 < n := by
    obtain ⟨i, k, hk⟩ := hrec
    obtain ⟨j, hj⟩ := List.getElem?_of_mem hname
    obtain ⟨u, u1, u2, x, u3, _⟩ := hk.2 j name hj
    have g1 := getVar_of_mem _ hi.consistent.names u u1
    have g2 := getVar_of_mem _ hi.consistent.names v0 d0
    rw [u2] at g1
    rw [n0, g1] at g2
    cases g2
    have := (hok v0 u1 [i]).1 ⟨x, u3⟩
    rw [hshape v0 z0 e0] at this
    have := (inside_one n i).1 this
    omega
  have hup : ∀ i k, KeyAt sc zds.vars i k → KeyAt sc ds.vars i k := by
    intro i k hk
    refine ⟨hk.1, fun j nm hj => ?_⟩
    obtain ⟨v, h1, h2⟩ := hk.2 j nm hj
    exact ⟨v, (hsub v h1).1, h2⟩
  have hmono : KeysMonotone sc zds.vars := fun i j k l hij hk hl =>
    hm i j k l hij (hup i k hk) (hup j l hl)
  obtain ⟨pieces, hp, hpne⟩ := splitDataset_ok hsc hpart.consistent.names
    (fun v hv => (hokz v hv).1) hne hpos (fun nm hnm => by
      obtain ⟨v, h1, _, h2, h3, h4⟩ := hin nm hnm
      exact ⟨v, h1, h2, hshape v h1 h3, h4⟩) hmono
  obtain ⟨_, n', s1, s2, _, _⟩ := splitDataset_spec hsc (fun v hv => (hokz v hv).1) hp
    (.inr hmono)
  have hnn : n' = n := by
    obtain ⟨v, h1, h2, h3⟩ := s1 name hname
    have g1 := getVar_of_mem _ hpart.consistent.names v h1
    have g2 := getVar_of_mem _ hpart.consistent.names v0 z0
    rw [h2] at g1
    rw [n0, g1] at g2
    cases g2
    rw [hshape v0 z0 e0] at h3
    injection h3 with h3
    exact h3.symm
  subst hnn
  have hbound : ∀ p ∈ pieces, p.2.1 ≤ p.2.2 ∧ p.2.2 ≤ n' := by
    have : ∀ (l : List (Nat × Nat)) (a : Nat), Chain a n' l →
        a ≤ n' ∧ ∀ c ∈ l, c.1 ≤ c.2 ∧ c.2 ≤ n' := by
      intro l
      induction l with
      | nil => intro a ha; exact ⟨Nat.le_of_eq ha, by simp⟩
      | cons c t ih =>
        intro a ha
        obtain ⟨e1, e2, e3⟩ := ha
        obtain ⟨j1, j2⟩ := ih _ e3
        refine ⟨by omega, fun d hd => ?_⟩
        rcases List.mem_cons.1 hd with rfl | hd
        · exact ⟨Nat.le_of_lt e2, j1⟩
        · exact j2 d hd
    intro p hp'
    exact (this _ 0 s2).2 p.2 (List.mem_map_of_mem hp')
  obtain ⟨bs, hbs⟩ : ∃ bs, Batches.insertBatches pieces np = .ok bs := by
    cases np with
    | none =>
      obtain ⟨bs, h, _⟩ := C19_split_sequence pieces none hpne (by simp)
      exact ⟨bs, h⟩
    | some n =>
      obtain ⟨bs, h, _⟩ := C19_insert_batches pieces n hpne (hnp n rfl)
      exact ⟨bs, h⟩
  have hflat := batches_flatten pieces np bs hbs
  obtain ⟨st', hst⟩ := insertAll_ok hpart.consistent hokz hlook hf bs
    (fun p hp' => hbound p (by rw [← hflat]; exact hp')) fs1.parts
  refine ⟨{ fs1 with parts := st' }, pieces.map (·.1), ?_, ?_⟩
  · have hv : (validate && !w.sameMeta ds o.metas) = false := by
      cases validate with
      | false => rfl
      | true => rw [hval rfl]; rfl
    simp only [Sch.insert, hmiss, complete, hv, Bool.false_eq_true, if_false, setForInsertion, hz,
      insertReady, ht, hsplit, hp, hbs, hst]
  · intro he
    exact hpne (List.map_eq_nil_iff.1 he)

end Verif
