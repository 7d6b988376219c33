import Verif.Props.MergeDataset
import Verif.Props.PipelineCases

/-! Cases that meet the hypotheses of the theorems of Props/MergeDataset: datasets with the
variables `t`, the axis, and `z`, which has two dimensions; then an insertion into a collection
that has a partition. -/

namespace Verif

open Spec Nd Ds TSD

namespace MergeCase

def axis : Axis Int := { asTime := some, axis := "t", dim := "x" }

def dates (a b c : Int) (i : Nat) : Int := if i = 0 then a else if i = 1 then b else c

def series (n : Nat) (time : Nat → Int) (shift : Int) : Dataset Int :=
  { dims := [("x", n), ("y", 2)],
    vars := [PipeCase.var "t" ["x"] [n] (fun i => time i.sum),
      PipeCase.var "z" ["x", "y"] [n, 2] (fun i => shift + i.sum)],
    attrs := [], chunks := [], limit := 1, delayed := true }

/-- `C01_dataset_not_dates`: negative numbers are not dates. -/
def positive : Axis Int := { axis with asTime := fun i => if i < 0 then none else some i }

example : mergeTimeSeries positive none (series 3 (dates 1 2 3) 0) (series 2 (dates 4 (-1) 0) 7) =
    .error .typeError :=
  C01_dataset_not_dates positive none _ _ (PipeCase.var "t" ["x"] [2] fun i => dates 4 (-1) 0 i.sum)
    rfl (-1) (by decide) rfl fun _ => ⟨[1, 2, 3], by decide⟩

def signature : Signature Int := fun n =>
  if n = "t" then some (["x"], none, 0) else if n = "z" then some (["x", "y"], none, 0) else none

def sizes : String → Nat := fun _ => 2

theorem series_holds (n : Nat) (time : Nat → Int) (shift : Int) :
    ∃ l, Series axis signature sizes true (series n time shift) l := by
  obtain ⟨l, _, hl⟩ := holds_exists axis n sizes (series n time shift).vars (by
      simp [series, PipeCase.var]) (by
      intro v hv
      simp only [series, List.mem_cons, List.not_mem_nil, or_false] at hv
      rcases hv with rfl | rfl <;> exact Vw.tabulate_arrOk _ _) (by
      intro v hv
      simp only [series, List.mem_cons, List.not_mem_nil, or_false] at hv
      rcases hv with rfl | rfl <;> simp [PipeCase.var, axis]) (by
      intro v hv
      simp only [series, List.mem_cons, List.not_mem_nil, or_false] at hv
      rcases hv with rfl | rfl <;> rfl) _ List.mem_cons_self rfl rfl (by
      intro j y _ h
      cases h)
  refine ⟨l, ?_, ?_, rfl⟩
  · have : (fun m => (getVar (series n time shift).vars m).map fun v => (v.dims, v.fill, v.props)) =
        signature := by
      funext m
      simp only [series, getVar_cons, PipeCase.var, signature]
      by_cases h1 : m = "t"
      · subst h1; rfl
      · rw [if_neg (Ne.symm h1), if_neg h1]
        by_cases h2 : m = "z"
        · subst h2; rfl
        · rw [if_neg (Ne.symm h2), if_neg h2]
          rfl
    rw [← this]
    exact hl
  · refine ⟨?_, ?_, ?_, ?_⟩
    · simp [series]
    · simp [series, PipeCase.var]
    · intro v hv
      simp only [series, List.mem_cons, List.not_mem_nil, or_false] at hv
      rcases hv with rfl | rfl <;> rfl
    · intro v hv i d hi
      simp only [series, List.mem_cons, List.not_mem_nil, or_false] at hv
      rcases hv with rfl | rfl <;>
        (match i, hi with
          | 0, hi => cases hi; exact ⟨_, rfl, rfl⟩
          | 1, hi => first | (cases hi; exact ⟨_, rfl, rfl⟩) | cases hi
          | i + 2, hi => cases hi)

/-- The records of the datasets, with their times. -/
theorem series_axis (n : Nat) (time : Nat → Int) (shift : Int) (ts : List Int)
    (h : times axis (series n time shift) = .ok ts) :
    ∃ l, Series axis signature sizes true (series n time shift) l ∧ l.map (·.1) = ts := by
  obtain ⟨l, hl⟩ := series_holds n time shift
  refine ⟨l, hl, ?_⟩
  have := series_times hl
  rw [h] at this
  exact (Except.ok.inj this).symm

theorem sorted_of_times {l : List (Int × Content Int)} (h : (l.map (·.1)).Pairwise (· < ·)) :
    StrictSorted l := List.pairwise_map.1 h

theorem three {l : List (Int × Content Int)} {a b c : Int} (h : l.map (·.1) = [a, b, c]) :
    ∃ p q r, l = [p, q, r] ∧ p.1 = a ∧ q.1 = b ∧ r.1 = c := by
  match l, h with
  | [p, q, r], h =>
    simp only [List.map_cons, List.map_nil, List.cons.injEq, and_true] at h
    exact ⟨p, q, r, rfl, h⟩

/-- The dates 0, 4, 9 and the inserted date 4: the record 4 is replaced; with the dates 0, 4, 5
the record 5 is lost. -/
example :
    (∃ le li r, Series axis signature sizes true (series 3 (dates 0 4 9) 0) le ∧
      Series axis signature sizes true (series 1 (fun _ => 4) 100) li ∧
      TSD.mergeTimeSeries axis none (series 3 (dates 0 4 9) 0)
        (series 1 (fun _ => 4) 100) = .ok r ∧
      Series axis signature sizes true r (merged le li 4 4) ∧
      (merged le li 4 4).map (·.1) = [0, 4, 9]) ∧
    ∃ le li, Series axis signature sizes true (series 3 (dates 0 4 5) 0) le ∧
      Series axis signature sizes true (series 1 (fun _ => 4) 100) li ∧
      ¬ ∃ r, TSD.mergeTimeSeries axis none (series 3 (dates 0 4 5) 0)
        (series 1 (fun _ => 4) 100) = .ok r ∧
        Series axis signature sizes true r (merged le li 4 4) := by
  obtain ⟨li, hi, hit⟩ := series_axis 1 (fun _ => 4) 100 [4] rfl
  have hlo : IsMin 4 (li.map (·.1)) := by rw [hit]; simp [IsMin]
  have hhi : IsMax 4 (li.map (·.1)) := by rw [hit]; simp [IsMax]
  constructor
  · obtain ⟨le, he, het⟩ := series_axis 3 (dates 0 4 9) 0 [0, 4, 9] rfl
    have hs : StrictSorted le := sorted_of_times (by rw [het]; decide)
    have hne : le ≠ [] := by rintro rfl; cases het
    obtain ⟨r, h1, h2⟩ := (C01_dataset_partial he hi 4 4 (hs.imp fun h => by omega) hne hlo
      hhi).2 (.inl fun r hr => by
        have : r.1 ∈ le.map (·.1) := List.mem_map_of_mem hr
        rw [het] at this
        simp at this
        omega)
    refine ⟨le, li, r, he, hi, h1, h2, ?_⟩
    obtain ⟨a, c, d, rfl, ha, hc, hd⟩ := three het
    simp [merged, ha, hc, hd, hit]
  · obtain ⟨le, he, het⟩ := series_axis 3 (dates 0 4 5) 0 [0, 4, 5] rfl
    have hs : StrictSorted le := sorted_of_times (by rw [het]; decide)
    have hne : le ≠ [] := by rintro rfl; cases het
    refine ⟨le, li, he, hi, fun hc => ?_⟩
    obtain ⟨a, c, d, rfl, ha, _, hd⟩ := three het
    rcases (C01_dataset_partial he hi 4 4 (hs.imp fun h => by omega) hne hlo hhi).1 hc with h | h
    · exact h d (by simp) (by rw [hd]; rfl)
    · have := h a (by simp)
      omega

/-- With a tolerance of 3: the inserted dates 3, 6, 20 cover 5; the existing record 12 is
kept. -/
example : ∃ le li r m,
    Series axis signature sizes true (series 3 (dates 0 5 12) 0) le ∧
    Series axis signature sizes true (series 3 (dates 3 6 20) 100) li ∧
    TSD.mergeTimeSeries axis (some 3) (series 3 (dates 0 5 12) 0)
      (series 3 (dates 3 6 20) 100) = .ok r ∧
    Series axis signature sizes true r m ∧
    ∀ rec, rec ∈ m ↔ rec ∈ li ∨ (rec ∈ le ∧ ¬ Covered 3 (li.map (·.1)) rec.1) := by
  obtain ⟨le, he, het⟩ := series_axis 3 (dates 0 5 12) 0 [0, 5, 12] rfl
  obtain ⟨li, hi, hit⟩ := series_axis 3 (dates 3 6 20) 100 [3, 6, 20] rfl
  obtain ⟨r, m, h1, h2, _, h3⟩ := C05_dataset_partial he hi 3
    (sorted_of_times (by rw [het]; decide)) (sorted_of_times (by rw [hit]; decide))
    (by rintro rfl; cases het) (by rintro rfl; cases hit) (by decide) (by
      rintro r hr a ⟨pre, post, h, _⟩ hc
      have hm : r.1 ∈ le.map (·.1) := List.mem_map_of_mem hr
      have ha : a ∈ li.map (·.1) := by rw [h]; simp
      rw [het] at hm
      rw [hit] at ha
      simp at hm ha
      omega)
  exact ⟨le, li, r, m, he, hi, h1, h2, h3⟩

/-- The axis of the collection of Props/PipelineCases. -/
def axisX : Axis Int := { asTime := some, axis := "x", dim := "x" }

/-- A partition with the keys 1 and the dates 1 and 7. -/
def old : List (Var Int) :=
  [PipeCase.var "key" ["x"] [2] (fun _ => 1), PipeCase.var "x" ["x"] [2] (fun i => 1 + 6 * i.sum),
   PipeCase.var "z" ["x", "y"] [2, 2] (fun i => 1000 + i.sum)]

def files : Sch.Files (List Int) Int :=
  { PipeCase.files with
    parts := fun p => if p = [1] then some old else none
    imm := some [PipeCase.var "lut" ["y"] [2] (fun i => 5 + i.sum)] }

theorem aligned : Aligned PipeCase.obj files := by
  refine ⟨by decide, PipeCase.aligned.keys, PipeCase.aligned.config, ?_, ?_, ?_, ?_,
    [[1]], ?_⟩
  · intro p vars h
    simp only [files] at h
    split at h
    · cases h
      refine ⟨by simp [old, PipeCase.var], ?_, ?_, fun _ => 2, ?_⟩
      · intro n
        simp [old, PipeCase.var, PipeCase.obj, PipeCase.metas]
        constructor
        · rintro (rfl | rfl | rfl) <;> simp
        · rintro (⟨rfl, _⟩ | ⟨rfl, _⟩ | ⟨rfl, _⟩) <;> simp
      · intro v hv m hm he
        simp only [old, List.mem_cons, List.not_mem_nil, or_false] at hv
        simp only [PipeCase.obj, PipeCase.metas, List.mem_cons, List.not_mem_nil, or_false] at hm
        rcases hv with rfl | rfl | rfl <;> rcases hm with rfl | rfl | rfl | rfl <;>
          first | rfl | (simp [PipeCase.var] at he)
      · intro v hv
        simp only [old, List.mem_cons, List.not_mem_nil, or_false] at hv
        rcases hv with rfl | rfl | rfl <;> rfl
    · cases h
  · simp [PipeCase.obj, PipeCase.metas]
  · intro _ _ h
    cases h
  · intro iv h n
    cases h
    simp [PipeCase.var, PipeCase.obj, PipeCase.metas]
    constructor
    · rintro rfl; simp
    · rintro rfl; simp
  · intro p hp
    simp only [files] at hp
    split at hp
    · next h => simp [h]
    · exact absurd rfl hp

/-- The insertion of the dataset of Props/PipelineCases: the dates 0, 1 of the key 1 are merged
with the dates 1, 7 of the partition, the key 2 is created. -/
theorem inserted : ∃ fs', Sch.insert PipeCase.world PipeCase.obj .never true none
    (some (TSD.mergeTimeSeries axisX none)) PipeCase.dataset files =
      (PipeCase.dataset, fs', .ok [[1], [2]]) := ⟨_, rfl⟩

def signatureX : Signature Int := fun n =>
  if n = "key" then some (["x"], none, 0) else if n = "x" then some (["x"], none, 0)
  else if n = "z" then some (["x", "y"], none, 0) else none

/-- The variables `key`, `x` and `z` hold records. -/
theorem holds_vars (n : Nat) (f g h : List Nat → Int) :
    ∃ l, l.length = n ∧ HoldsRecords axisX signatureX sizes
      [PipeCase.var "key" ["x"] [n] f, PipeCase.var "x" ["x"] [n] g,
        PipeCase.var "z" ["x", "y"] [n, 2] h] l := by
  obtain ⟨l, hn, hl⟩ := holds_exists axisX n sizes
      [PipeCase.var "key" ["x"] [n] f, PipeCase.var "x" ["x"] [n] g,
        PipeCase.var "z" ["x", "y"] [n, 2] h] (by
      simp [PipeCase.var]) (by
      intro v hv
      simp only [List.mem_cons, List.not_mem_nil, or_false] at hv
      rcases hv with rfl | rfl | rfl <;> exact Vw.tabulate_arrOk _ _) (by
      intro v hv
      simp only [List.mem_cons, List.not_mem_nil, or_false] at hv
      rcases hv with rfl | rfl | rfl <;> simp [PipeCase.var, axisX]) (by
      intro v hv
      simp only [List.mem_cons, List.not_mem_nil, or_false] at hv
      rcases hv with rfl | rfl | rfl <;> rfl) _ (List.mem_cons_of_mem _ List.mem_cons_self)
      rfl rfl (by
      intro j y _ h
      cases h)
  refine ⟨l, hn, ?_⟩
  have : (fun m => (getVar [PipeCase.var "key" ["x"] [n] f, PipeCase.var "x" ["x"] [n] g,
        PipeCase.var "z" ["x", "y"] [n, 2] h] m).map fun v => (v.dims, v.fill, v.props)) =
      signatureX := by
    funext m
    simp only [getVar_cons, PipeCase.var, signatureX]
    by_cases h1 : m = "key"
    · subst h1; rfl
    · rw [if_neg (Ne.symm h1), if_neg h1]
      by_cases h2 : m = "x"
      · subst h2; rfl
      · rw [if_neg (Ne.symm h2), if_neg h2]
        by_cases h3 : m = "z"
        · subst h3; rfl
        · rw [if_neg (Ne.symm h3), if_neg h3]
          rfl
  rw [← this]
  exact hl

theorem holds_times {n : Nat} {f g h : List Nat → Int} {l : List (Int × Content Int)}
    (hl : HoldsRecords axisX signatureX sizes
      [PipeCase.var "key" ["x"] [n] f, PipeCase.var "x" ["x"] [n] g,
        PipeCase.var "z" ["x", "y"] [n, 2] h] l) (hn : l.length = n) :
    ∀ j, (hj : j < n) → (l[j]?).map (·.1) = some (g [j]) := by
  intro j hj
  obtain ⟨v, hv, hvn, _, hvt⟩ := hl.axis
  have hve : v = PipeCase.var "x" ["x"] [n] g := by
    simp only [List.mem_cons, List.not_mem_nil, or_false] at hv
    rcases hv with rfl | rfl | rfl
    · simp [PipeCase.var, axisX] at hvn
    · rfl
    · simp [PipeCase.var, axisX] at hvn
  subst hve
  have e : l[j]? = some l[j] := List.getElem?_eq_getElem (by omega)
  obtain ⟨y, y1, y2⟩ := hvt j _ e
  have := Vw.tabulate_get [n] g [j] ((inside_one n j).2 hj)
  rw [show (PipeCase.var "x" ["x"] [n] g).array.get [j] = _ from this] at y1
  cases y1
  rw [e, Option.map_some, ← y2]
  rfl

/-- After the insertion the partition of the key 1 has the dates 0, 1, 7. -/
example : ∃ fs' vars m, Sch.insert PipeCase.world PipeCase.obj .never true none
    (some (TSD.mergeTimeSeries axisX none)) PipeCase.dataset files =
      (PipeCase.dataset, fs', .ok [[1], [2]]) ∧ fs'.parts [1] = some vars ∧
    HoldsRecords axisX signatureX sizes vars m ∧ m.map (·.1) = [0, 1, 7] := by
  obtain ⟨fs', hin⟩ := inserted
  obtain ⟨lo, hlo, holdl⟩ := holds_vars 2 (fun _ => 1) (fun i => 1 + 6 * i.sum)
    (fun i => 1000 + i.sum)
  obtain ⟨ln, hln, hnewl⟩ := holds_vars 3 PipeCase.keyOf (fun i => i.sum) (fun i => 10 * i.sum)
  have ho : lo.map (·.1) = [1, 7] := by
    have h0 := holds_times holdl hlo 0 (by decide)
    have h1 := holds_times holdl hlo 1 (by decide)
    match lo, hlo with
    | [a, c], _ => simp at h0 h1; simp [h0, h1]
  have hn : ln.map (·.1) = [0, 1, 2] := by
    have h0 := holds_times hnewl hln 0 (by decide)
    have h1 := holds_times hnewl hln 1 (by decide)
    have h2 := holds_times hnewl hln 2 (by decide)
    match ln, hln with
    | [a, c, d], _ => simp at h0 h1 h2; simp [h0, h1, h2]
  have hso : Sorted lo := by
    have : (lo.map (·.1)).Pairwise (· ≤ ·) := by rw [ho]; decide
    exact List.pairwise_map.1 this
  obtain ⟨a, c, vars, g1, g2, g3, g4⟩ := C22_merge_records_partial PipeCase.world PipeCase.obj
    PipeCase.scheme rfl (by intro h; cases h) (fun _ => rfl) PipeCase.dims .never true none axisX
    rfl PipeCase.dataset PipeCase.dataset PipeCase.insertable PipeCase.arrOk files fs' aligned
    [[1], [2]] hin (.inl rfl) (fun _ => lo) ln (by
      intro k vars hk
      simp only [files] at hk
      split at hk
      · cases hk; exact holdl
      · cases hk) hnewl [1] (by simp) (by simp [files]) hso (by
      intro h
      rw [h] at ho
      cases ho)
  have hac : a = 0 ∧ c = 2 := by
    obtain ⟨b1, b2⟩ := g1
    have k0 : KeyAt PipeCase.scheme PipeCase.dataset.vars a [1] := (b2 a).1 ⟨Nat.le_refl _, b1⟩
    have hat : ∀ i < 2, KeyAt PipeCase.scheme PipeCase.dataset.vars i [1] := by
      intro i hi
      refine ⟨rfl, ?_⟩
      intro j name hj
      match j, hj with
      | 0, hj =>
        simp only [PipeCase.scheme, List.getElem?_cons_zero, Option.some.injEq] at hj
        subst hj
        refine ⟨PipeCase.key, by simp [PipeCase.dataset], rfl, PipeCase.keyOf [i],
          Vw.tabulate_get [3] PipeCase.keyOf [i] ((inside_one 3 i).2 (by omega)), ?_⟩
        have : i = 0 ∨ i = 1 := by omega
        rcases this with rfl | rfl <;> rfl
      | j + 1, hj => simp [PipeCase.scheme] at hj
    have h0 := (b2 0).2 (hat 0 (by decide))
    have h1 := (b2 1).2 (hat 1 (by decide))
    have h2 : ¬ (a ≤ 2 ∧ 2 < c) := by
      intro h
      have := (PipeCase.keyAt 2 [1] ((b2 2).1 h)).2
      revert this
      decide
    omega
  obtain ⟨rfl, rfl⟩ := hac
  have hsl : ((ln.take 2).drop 0).map (·.1) = [0, 1] := by
    simp only [List.drop_zero, List.map_take, hn, List.take_succ_cons, List.take_zero]
  refine ⟨fs', vars, _, hin, g3, g4 0 1 (by rw [hsl]; simp [IsMin]) (by rw [hsl]; simp [IsMax])
    (by
      intro r hr
      have : r.1 ∈ lo.map (·.1) := List.mem_map_of_mem hr
      rw [ho] at this
      simp at this
      omega), ?_⟩
  have e1 : lo.filter (fun r => decide (r.1 < 0)) = [] := by
    rw [List.filter_eq_nil_iff]
    intro r hr
    have : r.1 ∈ lo.map (·.1) := List.mem_map_of_mem hr
    rw [ho] at this
    simp at this ⊢
    omega
  have e2 : (lo.filter (fun r => decide (1 < r.1))).map (·.1) = [7] := by
    have : (lo.filter (fun r => decide (1 < r.1))).map (·.1) =
        (lo.map (·.1)).filter (fun t => decide (1 < t)) := by
      rw [List.filter_map]
      rfl
    rw [this, ho]
    rfl
  simp only [merged, e1, List.map_append, hsl, e2, List.map_nil]
  rfl

end MergeCase

end Verif
