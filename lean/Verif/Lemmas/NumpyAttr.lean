import Verif.Spec.NumpyAttr
import Verif.Lemmas.ConfigText
import Verif.Lemmas.Sort

/-! Lemmas on the attributes given with values of numpy. -/

namespace Verif.Na

open Spec
open Json (V Key)

theorem item_writable (s : Scalar) : Writable (item s) ↔ Simple s ∨ Counted s := by
  cases s with
  | date u t => cases t <;> cases u <;> simp [item, Writable, Simple, Counted]
  | duration u t => cases t <;> cases u <;> simp [item, Writable, Simple, Counted]
  | _ => simp [item, Writable, Simple, Counted]

theorem item_stands (s : Scalar) (h : Simple s) : StandsFor s (item s) := by
  cases s with
  | date u t => cases t <;> cases u <;> simp_all [item, Simple, StandsFor]
  | duration u t => cases t <;> cases u <;> simp_all [item, Simple, StandsFor]
  | _ => simp_all [item, Simple, StandsFor]

theorem item_counted (s : Scalar) (h : Counted s) : ∃ i, item s = .int i := by
  cases s with
  | date u t => cases t <;> cases u <;> simp_all [item, Counted]
  | duration u t => cases t <;> cases u <;> simp_all [item, Counted]
  | _ => simp_all [Counted]

theorem item_scalar (s : Scalar) : ∀ l, item s ≠ .list l := by
  intro l
  cases s with
  | date u t => cases t <;> cases u <;> simp [item]
  | duration u t => cases t <;> cases u <;> simp [item]
  | _ => simp [item]

theorem item_read (s : Scalar) (h : Writable (item s)) : readAs (item s) = item s := by
  cases s with
  | date u t => cases t <;> cases u <;> simp_all [item, Writable, readAs]
  | duration u t => cases t <;> cases u <;> simp_all [item, Writable, readAs]
  | _ => simp_all [item, Writable, readAs]

theorem tolist_writable (shape : List Nat) (f : List Nat → Scalar) :
    Writable (tolist shape f) ↔ ∀ ix, InShape shape ix → Writable (item (f ix)) := by
  induction shape generalizing f with
  | nil =>
    constructor
    · intro h ix hi
      cases ix with
      | nil => exact h
      | cons => simp [InShape] at hi
    · intro h
      exact h [] trivial
  | cons n s ih =>
    simp only [tolist, Writable, Cft.writableElems_iff]
    constructor
    · intro h ix hi
      match ix, hi with
      | i :: ix, ⟨h1, h2⟩ =>
        exact (ih fun ix => f (i :: ix)).1
          (h _ (List.mem_map.2 ⟨i, List.mem_range.2 h1, rfl⟩)) ix h2
    · intro h v hv
      obtain ⟨i, hi, rfl⟩ := List.mem_map.1 hv
      exact (ih _).2 fun ix hx => h (i :: ix) ⟨List.mem_range.1 hi, hx⟩

theorem tolist_read (shape : List Nat) (f : List Nat → Scalar)
    (h : Writable (tolist shape f)) : readAs (tolist shape f) = tolist shape f := by
  induction shape generalizing f with
  | nil => exact item_read _ h
  | cons n s ih =>
    simp only [tolist, Writable, Cft.writableElems_iff] at h
    simp only [tolist, readAs, Cft.readElems_map, List.map_map]
    congr 1
    refine List.map_congr_left fun i hi => ih _ (h _ (List.mem_map.2 ⟨i, hi, rfl⟩))

theorem tolist_nested (shape : List Nat) (f : List Nat → Scalar) :
    NestedAs shape (tolist shape f) := by
  induction shape generalizing f with
  | nil => exact item_scalar _
  | cons n s ih =>
    refine ⟨_, rfl, by simp, fun x hx => ?_⟩
    obtain ⟨i, -, rfl⟩ := List.mem_map.1 hx
    exact ih _

theorem tolist_entry (shape : List Nat) (f : List Nat → Scalar) (ix : List Nat)
    (h : InShape shape ix) : entry (tolist shape f) ix = some (item (f ix)) := by
  induction shape generalizing f ix with
  | nil =>
    cases ix with
    | nil => simp [tolist, entry]
    | cons => simp [InShape] at h
  | cons n s ih =>
    match ix, h with
    | i :: ix, ⟨h1, h2⟩ =>
      simp only [tolist, entry, List.getElem?_map, List.getElem?_range h1, Option.map_some,
        Option.bind_some]
      exact ih _ ix h2

mutual
theorem inside_held : (a : Arg) → Writable (inside a) → ¬ Foreign a → HeldAs a (readAs (inside a))
  | .scalar s, hw, hf => by
    cases s with
    | float d f => cases d <;> simp_all [Foreign, inside, HeldAs, readAs, StandsFor]
    | str t => simp [inside, HeldAs, readAs, StandsFor]
    | _ => simp [Foreign] at hf
  | .array s f, _, hf => by simp [Foreign] at hf
  | .list l, hw, _ => by
    rw [inside, Writable] at hw
    rw [inside, readAs, HeldAs]
    exact ⟨_, rfl, insides_held l hw⟩
  | .tuple l, hw, _ => by
    rw [inside, Writable] at hw
    rw [inside, readAs, HeldAs]
    exact ⟨_, rfl, insides_held l hw⟩
  | .py v, _, _ => by rw [inside, HeldAs]

theorem insides_held : (l : List Arg) → WritableElems (insides l) →
    HeldAll l (readElems (insides l))
  | [], _ => by simp [insides, readElems, HeldAll]
  | a :: t, hw => by
    rw [insides, WritableElems] at hw
    rw [insides, readElems, HeldAll]
    refine ⟨inside_held a hw.1 fun hf => ?_, insides_held t hw.2⟩
    cases a with
    | scalar s =>
      cases s with
      | float d f => cases d <;> simp_all [Foreign, inside, Writable]
      | _ => simp_all [Foreign, inside, Writable]
    | array s f => simp [inside, Writable] at hw
    | _ => simp [Foreign] at hf
end

theorem foreign_inside {a : Arg} (h : Foreign a) : inside a = .other := by
  cases a with
  | scalar s =>
    cases s with
    | float d f => cases d <;> simp_all [Foreign, inside]
    | _ => simp_all [Foreign, inside]
  | array s f => simp [inside]
  | _ => simp [Foreign] at h

theorem insides_map (l : List Arg) : insides l = l.map inside := by
  induction l with
  | nil => simp [insides]
  | cons a t ih => simp [insides, ih]

theorem heldIn_bad {a b : Arg} (h : HeldIn a b) (hf : ¬ Writable (inside a)) :
    ¬ Writable (inside b) := by
  induction h with
  | list hm =>
    intro hw
    rw [inside, Writable, Cft.writableElems_iff, insides_map] at hw
    exact hf (hw _ (List.mem_map.2 ⟨_, hm, rfl⟩))
  | tuple hm =>
    intro hw
    rw [inside, Writable, Cft.writableElems_iff, insides_map] at hw
    exact hf (hw _ (List.mem_map.2 ⟨_, hm, rfl⟩))
  | listStep hm _ ih =>
    intro hw
    rw [inside, Writable, Cft.writableElems_iff, insides_map] at hw
    exact ih (hw _ (List.mem_map.2 ⟨_, hm, rfl⟩))
  | tupleStep hm _ ih =>
    intro hw
    rw [inside, Writable, Cft.writableElems_iff, insides_map] at hw
    exact ih (hw _ (List.mem_map.2 ⟨_, hm, rfl⟩))

/-- What is read of an attribute that could be written. -/
theorem encode_held (a : Arg) (hw : Writable (encode a)) (hn : NoCounted a) :
    HeldAs a (readAs (encode a)) := by
  cases a with
  | scalar s =>
    rw [encode, item_read s hw, HeldAs]
    exact item_stands s (((item_writable s).1 hw).resolve_right hn)
  | array shape f =>
    rw [encode, tolist_read shape f hw, HeldAs]
    refine ⟨tolist_nested shape f, fun ix hx => ⟨_, tolist_entry shape f ix hx, ?_⟩⟩
    have := (tolist_writable shape f).1 hw ix hx
    exact item_stands _ (((item_writable _).1 this).resolve_right (hn ix hx))
  | list l => exact inside_held _ hw (by simp [Foreign])
  | tuple l => exact inside_held _ hw (by simp [Foreign])
  | py v => exact inside_held _ hw (by simp [Foreign])

/-! ### Equality -/

mutual
/-- The keys of every dictionary are distinct. -/
def Distinct : V → Prop
  | .list l => DistinctElems l
  | .tuple l => DistinctElems l
  | .dict d => DistinctPairs d
  | .other => False
  | _ => True

def DistinctElems : List V → Prop
  | [] => True
  | v :: t => Distinct v ∧ DistinctElems t

def DistinctPairs : List (Key × V) → Prop
  | [] => True
  | (k, v) :: t => k ∉ t.map (·.1) ∧ Distinct v ∧ DistinctPairs t
end

theorem lookup_skip (k : Key) (pre rest : List (Key × V)) (h : k ∉ pre.map (·.1)) :
    (pre ++ rest).lookup k = rest.lookup k := by
  induction pre with
  | nil => rfl
  | cons a t ih =>
    rw [List.map_cons, List.mem_cons, not_or] at h
    rw [List.cons_append, List.lookup_cons, beq_eq_false_iff_ne.2 h.1]
    exact ih h.2

mutual
theorem pyEq_self : (v : V) → Distinct v → (pyEq v v = true ↔ NoNan v)
  | .null, _ => by simp [pyEq, NoNan]
  | .bool b, _ => by simp [pyEq, NoNan]
  | .int i, _ => by simp [pyEq, NoNan]
  | .float f, _ => by simp [pyEq, NoNan]
  | .str s, _ => by simp [pyEq, NoNan]
  | .list l, h => by
    rw [Distinct] at h
    rw [pyEq, NoNan]
    exact pyEqs_self l h
  | .tuple l, h => by
    rw [Distinct] at h
    rw [pyEq, NoNan]
    exact pyEqs_self l h
  | .dict d, h => by
    rw [Distinct] at h
    rw [pyEq, NoNan, beq_self_eq_true, Bool.true_and]
    exact pyIncl_self d [] h (by simp)
  | .other, h => by rw [Distinct] at h; exact h.elim

theorem pyEqs_self : (l : List V) → DistinctElems l → (pyEqs l l = true ↔ NoNanElems l)
  | [], _ => by simp [pyEqs, NoNanElems]
  | v :: t, h => by
    rw [DistinctElems] at h
    rw [pyEqs, NoNanElems, Bool.and_eq_true, pyEq_self v h.1, pyEqs_self t h.2]

theorem pyIncl_self : (d : List (Key × V)) → (pre : List (Key × V)) → DistinctPairs d →
    (∀ k ∈ d.map (·.1), k ∉ pre.map (·.1)) → (pyIncl d (pre ++ d) = true ↔ NoNanPairs d)
  | [], _, _, _ => by simp [pyIncl, NoNanPairs]
  | (k, v) :: t, pre, h, hp => by
    rw [DistinctPairs] at h
    have h1 : (pre ++ (k, v) :: t).lookup k = some v := by
      rw [lookup_skip k pre _ (hp k (by simp))]
      simp
    have h2 := pyIncl_self t (pre ++ [(k, v)]) h.2.2 (by
      intro x hx hm
      rw [List.map_append, List.mem_append] at hm
      rcases hm with hm | hm
      · exact hp x (by simp only [List.map_cons, List.mem_cons]; exact .inr hx) hm
      · simp only [List.map_cons, List.map_nil, List.mem_singleton] at hm
        exact h.1 (hm ▸ hx))
    rw [List.append_assoc, List.singleton_append] at h2
    rw [pyIncl, NoNanPairs, Bool.and_eq_true, h1, h2]
    show pyEq v v = true ∧ _ ↔ _
    rw [pyEq_self v h.2.1]
end

mutual
theorem distinct_unaltered : (v : V) → Unaltered v → Distinct v
  | .null, _ => by simp [Distinct]
  | .bool b, _ => by simp [Distinct]
  | .int i, _ => by simp [Distinct]
  | .float f, _ => by simp [Distinct]
  | .str s, _ => by simp [Distinct]
  | .list l, h => by
    rw [Unaltered] at h
    rw [Distinct]
    exact distinct_elems l h
  | .tuple l, h => by rw [Unaltered] at h; exact h.elim
  | .dict d, h => by
    rw [Unaltered] at h
    rw [Distinct]
    exact distinct_pairs d h
  | .other, h => by rw [Unaltered] at h; exact h.elim

theorem distinct_elems : (l : List V) → UnalteredElems l → DistinctElems l
  | [], _ => by simp [DistinctElems]
  | v :: t, h => by
    rw [UnalteredElems] at h
    rw [DistinctElems]
    exact ⟨distinct_unaltered v h.1, distinct_elems t h.2⟩

theorem distinct_pairs : (d : List (Key × V)) → UnalteredPairs d → DistinctPairs d
  | [], _ => by simp [DistinctPairs]
  | (k, v) :: t, h => by
    rw [UnalteredPairs] at h
    rw [DistinctPairs]
    exact ⟨h.2.1, distinct_unaltered v h.2.2.1, distinct_pairs t h.2.2.2⟩
end

theorem distinctElems_iff (l : List V) : DistinctElems l ↔ ∀ v ∈ l, Distinct v := by
  induction l with
  | nil => simp [DistinctElems]
  | cons a t ih => simp [DistinctElems, ih]

theorem noNanElems_iff (l : List V) : NoNanElems l ↔ ∀ v ∈ l, NoNan v := by
  induction l with
  | nil => simp [NoNanElems]
  | cons a t ih => simp [NoNanElems, ih]

open Cft (Var Ds Conf encodeVar encodeDs sortAttrs sortVars pairV readVar readDs)

theorem distinct_var {v : Var} (h : EachVar Unaltered v) : Distinct (encodeVar v) := by
  have hd : ∀ x ∈ (sortAttrs v.attrs).map pairV, Distinct x := by
    intro x hx
    obtain ⟨a, ha, rfl⟩ := List.mem_map.1 hx
    simp only [pairV, Distinct, DistinctElems, and_true, true_and]
    exact distinct_unaltered _ (h.attrs a (Cft.mem_sortAttrs.1 ha))
  simp only [encodeVar, Distinct, DistinctPairs, distinctElems_iff]
  refine ⟨by simp, hd, by simp, distinct_unaltered _ h.compressor, by simp, ?_, by simp, trivial,
    by simp, distinct_unaltered _ h.fill, by simp, fun x hx => distinct_unaltered _ (h.filters x hx),
    by simp, trivial, trivial⟩
  intro x hx
  obtain ⟨s, -, rfl⟩ := List.mem_map.1 hx
  simp [Distinct]

theorem distinct_ds {d : Ds} (h : EachDs Unaltered d) : Distinct (encodeDs d) := by
  have hp : ∀ l : List (String × V), (∀ a ∈ l, Unaltered a.2) →
      ∀ x ∈ l.map pairV, Distinct x := by
    intro l hl x hx
    obtain ⟨a, ha, rfl⟩ := List.mem_map.1 hx
    simp only [pairV, Distinct, DistinctElems, and_true, true_and]
    exact distinct_unaltered _ (hl a ha)
  simp only [encodeDs, Distinct, DistinctPairs, distinctElems_iff]
  refine ⟨by simp, hp _ fun a ha => h.attrs a (Cft.mem_sortAttrs.1 ha), by simp, ?_, by simp, ?_,
    by simp, hp _ h.chunks, by simp, trivial, trivial⟩
  · intro x hx
    obtain ⟨s, -, rfl⟩ := List.mem_map.1 hx
    simp [Distinct]
  · intro x hx
    obtain ⟨v, hv, rfl⟩ := List.mem_map.1 hx
    exact distinct_var (h.vars v (Cft.mem_sortVars.1 hv))

theorem noNan_var (v : Var) : NoNan (encodeVar v) ↔ EachVar NoNan v := by
  simp only [encodeVar, NoNan, NoNanPairs, noNanElems_iff, and_true, true_and]
  constructor
  · rintro ⟨h1, h2, -, h3, h4⟩
    refine ⟨fun a ha => ?_, h2, h3, h4⟩
    have := h1 _ (List.mem_map.2 ⟨a, Cft.mem_sortAttrs.2 ha, rfl⟩)
    simpa [pairV, NoNan, NoNanElems] using this
  · intro h
    refine ⟨?_, h.compressor, ?_, h.fill, h.filters⟩
    · intro x hx
      obtain ⟨a, ha, rfl⟩ := List.mem_map.1 hx
      simpa [pairV, NoNan, NoNanElems] using h.attrs a (Cft.mem_sortAttrs.1 ha)
    · intro x hx
      obtain ⟨s, -, rfl⟩ := List.mem_map.1 hx
      simp [NoNan]

theorem noNan_ds (d : Ds) : NoNan (encodeDs d) ↔ EachDs NoNan d := by
  simp only [encodeDs, NoNan, NoNanPairs, noNanElems_iff, and_true]
  constructor
  · rintro ⟨h1, -, h2, h3⟩
    refine ⟨fun a ha => ?_, fun v hv => ?_, fun a ha => ?_⟩
    · have := h1 _ (List.mem_map.2 ⟨a, Cft.mem_sortAttrs.2 ha, rfl⟩)
      simpa [pairV, NoNan, NoNanElems] using this
    · exact (noNan_var v).1 (h2 _ (List.mem_map.2 ⟨v, Cft.mem_sortVars.2 hv, rfl⟩))
    · have := h3 _ (List.mem_map.2 ⟨a, ha, rfl⟩)
      simpa [pairV, NoNan, NoNanElems] using this
  · intro h
    refine ⟨?_, ?_, ?_, ?_⟩
    · intro x hx
      obtain ⟨a, ha, rfl⟩ := List.mem_map.1 hx
      simpa [pairV, NoNan, NoNanElems] using h.attrs a (Cft.mem_sortAttrs.1 ha)
    · intro x hx
      obtain ⟨s, -, rfl⟩ := List.mem_map.1 hx
      simp [NoNan]
    · intro x hx
      obtain ⟨v, hv, rfl⟩ := List.mem_map.1 hx
      exact (noNan_var v).2 (h.vars v (Cft.mem_sortVars.1 hv))
    · intro x hx
      obtain ⟨a, ha, rfl⟩ := List.mem_map.1 hx
      simpa [pairV, NoNan, NoNanElems] using h.chunks a ha

theorem isort_again {α : Type} (key : α → String) (l : List α) :
    Sort.isort (fun a b => decide (key a ≤ key b)) (Sort.isort (fun a b => decide (key a ≤ key b)) l)
      = Sort.isort (fun a b => decide (key a ≤ key b)) l := by
  refine Sort.isort_of_pairwise _ (Sort.isort_pairwise (fun a b c hab hbc => ?_)
    (fun a b => ?_) l)
  · simp only [decide_eq_true_eq] at *
    exact String.le_trans hab hbc
  · simp only [Bool.or_eq_true, decide_eq_true_eq]
    exact String.le_total _ _

theorem map_unaltered (l : List (String × V)) (hl : ∀ a ∈ l, Unaltered a.2) :
    (l.map fun x => (x.1, readAs x.2)) = l := by
  induction l with
  | nil => rfl
  | cons a t ih =>
    rw [List.map_cons, ih fun b hb => hl b (by simp [hb]),
      (Json.readAs_unaltered _ (hl a (by simp))).2]

theorem encodeVar_read {v : Var} (h : EachVar Unaltered v) : encodeVar (readVar v) = encodeVar v := by
  have h1 : ((sortAttrs v.attrs).map fun x => (x.1, readAs x.2)) = sortAttrs v.attrs :=
    map_unaltered _ fun a ha => h.attrs a (Cft.mem_sortAttrs.1 ha)
  have h2 : v.filters.map readAs = v.filters := by
    have := h.filters
    generalize v.filters = l at this
    induction l with
    | nil => rfl
    | cons a t ih =>
      rw [List.map_cons, ih fun b hb => this b (by simp [hb]),
        (Json.readAs_unaltered _ (this a (by simp))).2]
  have h3 : sortAttrs (sortAttrs v.attrs) = sortAttrs v.attrs :=
    isort_again (fun a : Cft.Attr => a.1) v.attrs
  simp only [readVar, encodeVar, h1, h2, h3, (Json.readAs_unaltered _ h.compressor).2,
    (Json.readAs_unaltered _ h.fill).2]

theorem encodeDs_read {d : Ds} (h : EachDs Unaltered d) : encodeDs (readDs d) = encodeDs d := by
  have h1 : ((sortAttrs d.attrs).map fun x => (x.1, readAs x.2)) = sortAttrs d.attrs :=
    map_unaltered _ fun a ha => h.attrs a (Cft.mem_sortAttrs.1 ha)
  have h3 : sortAttrs (sortAttrs d.attrs) = sortAttrs d.attrs :=
    isort_again (fun a : Cft.Attr => a.1) d.attrs
  have h4 : sortVars ((sortVars d.vars).map readVar) = (sortVars d.vars).map readVar := by
    refine Sort.isort_of_pairwise _ ?_
    rw [List.pairwise_map]
    refine Sort.isort_pairwise (le := fun a b : Var => decide (a.name ≤ b.name))
      (fun a b c hab hbc => ?_) (fun a b => ?_) d.vars
    · simp only [decide_eq_true_eq] at *
      exact String.le_trans hab hbc
    · simp only [Bool.or_eq_true, decide_eq_true_eq]
      exact String.le_total _ _
  have h5 : ((sortVars d.vars).map readVar).map encodeVar = (sortVars d.vars).map encodeVar := by
    rw [List.map_map]
    exact List.map_congr_left fun v hv => encodeVar_read (h.vars v (Cft.mem_sortVars.1 hv))
  simp only [readDs, encodeDs, h1, h3, h4, h5, map_unaltered _ h.chunks]

end Verif.Na
