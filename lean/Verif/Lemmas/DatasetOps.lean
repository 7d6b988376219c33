import Verif.Lemmas.Dataset
import Verif.Lemmas.Array

/-! Slices of a dataset along one dimension. -/

namespace Verif

open Spec Nd Ds

variable {V : Type}

/-- The slice `c` of a variable along the dimension `d`. -/
def pieceVar (d : String) (c : Nat × Nat) (v : Var V) : Var V :=
  { v with array := match v.dims.idxOf? d with
      | none => v.array
      | some ax => piece ax v.array c }

theorem idxOf?_none {l : List String} {d : String} : l.idxOf? d = none ↔ d ∉ l := by
  simp [List.idxOf?_eq_none_iff]

theorem idxOf?_cons (e d : String) (l : List String) :
    (e :: l).idxOf? d = if e = d then some 0 else (l.idxOf? d).map (· + 1) := by
  rw [List.idxOf?, List.findIdx?_cons]
  by_cases h : e = d
  · simp [h]
  · have : (e == d) = false := by simpa using h
    simp [h, this]

theorem idxOf?_getElem {l : List String} {d : String} {ax : Nat} (h : l.idxOf? d = some ax) :
    l[ax]? = some d := by
  induction l generalizing ax with
  | nil => simp [List.idxOf?] at h
  | cons e t ih =>
    rw [idxOf?_cons] at h
    split at h
    · next he => cases h; simp [he]
    · cases hi : t.idxOf? d with
      | none => rw [hi] at h; cases h
      | some k =>
        rw [hi] at h
        cases h
        simpa using ih hi

theorem nodup_getElem? {l : List String} (h : l.Nodup) {i j : Nat} {d : String}
    (hi : l[i]? = some d) (hj : l[j]? = some d) : i = j := by
  induction l generalizing i j with
  | nil => simp at hi
  | cons e t ih =>
    rw [List.nodup_cons] at h
    cases i with
    | zero =>
      cases j with
      | zero => rfl
      | succ j =>
        simp only [List.getElem?_cons_zero, Option.some.injEq] at hi
        exact absurd (hi ▸ List.mem_of_getElem? (by simpa using hj)) h.1
    | succ i =>
      cases j with
      | zero =>
        simp only [List.getElem?_cons_zero, Option.some.injEq] at hj
        exact absurd (hj ▸ List.mem_of_getElem? (by simpa using hi)) h.1
      | succ j =>
        have := ih h.2 (i := i) (j := j) (by simpa using hi) (by simpa using hj)
        omega

theorem getitem_piece (d : String) (c : Nat × Nat) (n : Nat) (h1 : c.1 ≤ c.2) (h2 : c.2 ≤ n)
    (dims : List String) (hnd : dims.Nodup) (k : Nat) (a : Arr V) (ha : ArrOk a)
    (hs : ∀ (i : Nat) (e : String), dims[i]? = some e →
      ∃ m, a.shape[k + i]? = some m ∧ (e = d → m = n)) :
    getitem k (dims.map (sliceOf [(d, .slice ⟨some c.1, some c.2, none⟩)])) a =
      .ok (match dims.idxOf? d with
        | none => a
        | some ax => piece (k + ax) a c) := by
  induction dims generalizing k with
  | nil => rfl
  | cons e t ih =>
    rw [List.nodup_cons] at hnd
    have ih' := ih hnd.2 (k + 1) fun i e he => by
      have := hs (i + 1) e (by simpa using he)
      rwa [show k + (i + 1) = k + 1 + i by omega] at this
    obtain ⟨m, hm, hmn⟩ := hs 0 e rfl
    rw [Nat.add_zero] at hm
    simp only [List.map_cons, getitem, bind, Except.bind, ih']
    by_cases hed : e = d
    · subst hed
      have hmn := hmn rfl
      subst hmn
      have hnone : t.idxOf? e = none := idxOf?_none.2 hnd.1
      have hsl : sliceOf [(e, .slice ⟨some c.1, some c.2, none⟩)] e =
          .slice ⟨some c.1, some c.2, none⟩ := by simp [sliceOf]
      simp only [hnone, selAxis, hm, hsl, bind, Except.bind, positions_range m c.1 c.2 h1 h2,
        idxOf?_cons, if_true, Nat.add_zero]
      rfl
    · have hsl : sliceOf [(d, .slice ⟨some c.1, some c.2, none⟩)] e = .slice .all := by
        simp [sliceOf, lookup_cons, hed]
      rw [idxOf?_cons, if_neg hed]
      have hb : ∀ b : Arr V, ArrOk b → b.shape[k]? = some m →
          selAxis k (sliceOf [(d, .slice ⟨some c.1, some c.2, none⟩)] e) b = .ok b := by
        intro b hb hbs
        simp only [selAxis, hbs, hsl, bind, Except.bind, positions_all, takeAxis_range hb hbs]
      cases hi : t.idxOf? d with
      | none =>
        simp only [Option.map_none]
        exact hb a ha hm
      | some ax =>
        simp only [Option.map_some]
        rw [show k + 1 + ax = k + (ax + 1) by omega]
        obtain ⟨m', hm', hmn'⟩ := hs (ax + 1) d (by simpa using idxOf?_getElem hi)
        have hmn' := hmn' rfl
        subst hmn'
        refine hb _ ?_ ?_
        · exact takeAxis_arrOk ha hm' _ fun p hp => by
            obtain ⟨q, hq, rfl⟩ := List.mem_map.1 hp
            rw [List.mem_range] at hq
            omega
        · rw [(piece_shape (k + (ax + 1)) a c (List.getElem?_eq_some_iff.1 hm').1).1,
            List.getElem?_set, if_neg (by omega), hm]

theorem mapPy_congr {α β : Type} (f g : α → Py β) (l : List α) (h : ∀ x ∈ l, f x = g x) :
    mapPy f l = mapPy g l := by
  induction l with
  | nil => rfl
  | cons x t ih =>
    simp only [mapPy, h x (by simp), ih fun y hy => h y (by simp [hy])]

/-- The pieces of the variables of a dataset are a dataset. -/
theorem mk_pieces (ds : Dataset V) (hc : Consistent ds)
    (hok : ∀ v ∈ ds.vars, ArrOk v.array ∧ v.dims.Nodup) (d : String) (c : Nat × Nat) :
    ∃ dims, mk (ds.vars.map (pieceVar d c)) ds.attrs ds.chunks ds.limit (some ds.delayed) =
      .ok { dims, vars := ds.vars.map (pieceVar d c), attrs := ds.attrs, chunks := ds.chunks,
            limit := ds.limit, delayed := ds.delayed } := by
  obtain ⟨dims, hmk, _⟩ := mk_ok (ds.vars.map (pieceVar d c)) ds.attrs ds.chunks ds.limit
    ds.delayed ((d, c.2 - c.1) :: ds.dims)
    (by
      rw [List.map_map]
      exact hc.names)
    (by
      intro v hv
      obtain ⟨w, hw, rfl⟩ := List.mem_map.1 hv
      exact hc.kind w hw)
    (by
      intro v hv
      obtain ⟨w, hw, rfl⟩ := List.mem_map.1 hv
      intro i e he
      have he : w.dims[i]? = some e := he
      obtain ⟨m, hm1, hm2⟩ := hc.sizes w hw i e he
      rw [lookup_cons]
      simp only [pieceVar]
      cases hi : w.dims.idxOf? d with
      | none =>
        rw [idxOf?_none] at hi
        have : e ≠ d := fun hc => hi (hc ▸ List.mem_of_getElem? he)
        exact ⟨m, hm1, by rw [if_neg this, hm2]⟩
      | some ax =>
        have hax := idxOf?_getElem hi
        obtain ⟨m', hm1', _⟩ := hc.sizes w hw ax d hax
        have hlt := (List.getElem?_eq_some_iff.1 hm1').1
        by_cases hed : e = d
        · subst hed
          have := nodup_getElem? (hok w hw).2 he hax
          subst this
          exact ⟨c.2 - c.1, (piece_shape i w.array c hlt).2, by simp⟩
        · have hne : ax ≠ i := by
            rintro rfl
            rw [hax] at he
            cases he
            exact hed rfl
          refine ⟨m, ?_, by rw [if_neg hed, hm2]⟩
          simp only
          rw [(piece_shape ax w.array c hlt).1, List.getElem?_set, if_neg hne, hm1])
  exact ⟨dims, hmk⟩

theorem isel_piece (ds : Dataset V) (hc : Consistent ds)
    (hok : ∀ v ∈ ds.vars, ArrOk v.array ∧ v.dims.Nodup) (d : String) (n : Nat)
    (hd : ds.dims.lookup d = some n) (c : Nat × Nat) (h1 : c.1 ≤ c.2) (h2 : c.2 ≤ n) :
    ∃ dims, isel ds [(d, .slice ⟨some c.1, some c.2, none⟩)] =
      .ok { dims, vars := ds.vars.map (pieceVar d c), attrs := ds.attrs, chunks := ds.chunks,
            limit := ds.limit, delayed := ds.delayed } := by
  have hvars : mapPy (fun v : Var V =>
      v.isel (v.dims.map (sliceOf [(d, .slice ⟨some c.1, some c.2, none⟩)]))) ds.vars =
      .ok (ds.vars.map (pieceVar d c)) := by
    apply mapPy_ok
    intro v hv
    have := getitem_piece d c n h1 h2 v.dims (hok v hv).2 0 v.array (hok v hv).1
      fun i e he => by
        obtain ⟨m, hm1, hm2⟩ := hc.sizes v hv i e he
        refine ⟨m, by simpa using hm1, ?_⟩
        rintro rfl
        rw [hd] at hm2
        cases hm2
        rfl
    simp only [Var.isel, bind, Except.bind, this, pieceVar, Nat.zero_add]
  obtain ⟨dims, hmk⟩ := mk_pieces ds hc hok d c
  refine ⟨dims, ?_⟩
  unfold isel
  rw [if_neg (by
    rintro ⟨s, hs, hn⟩
    rw [List.mem_singleton] at hs
    subst hs
    rw [hd] at hn
    cases hn)]
  simp only [bind, Except.bind, hvars, derive, hmk]

theorem concat_pieces (ds : Dataset V) (hc : Consistent ds)
    (hok : ∀ v ∈ ds.vars, ArrOk v.array ∧ v.dims.Nodup) (d : String) (n : Nat)
    (hd : ds.dims.lookup d = some n) (c : Nat × Nat) (cs : List (Nat × Nat)) (hcs : cs ≠ [])
    (hcut : Cuts 0 n (c :: cs)) (first : Dataset V) (rest : List (Dataset V))
    (hf : first.vars = ds.vars.map (pieceVar d c) ∧ first.attrs = ds.attrs ∧
      first.chunks = ds.chunks ∧ first.limit = ds.limit ∧ first.delayed = ds.delayed)
    (hr : rest.length = cs.length ∧ ∀ (i : Nat) (c : Nat × Nat), cs[i]? = some c →
      ∃ r, rest[i]? = some r ∧ r.vars = ds.vars.map (pieceVar d c) ∧ r.delayed = ds.delayed) :
    ∃ dims, concat first rest d =
      .ok { dims, vars := ds.vars, attrs := ds.attrs, chunks := ds.chunks, limit := ds.limit,
            delayed := ds.delayed } ∧ Extends dims ds.dims := by
  have hrmem : ∀ r ∈ rest, r.delayed = ds.delayed := by
    intro r hr'
    obtain ⟨i, hi⟩ := List.getElem?_of_mem hr'
    have hlt : i < cs.length := by
      rw [← hr.1]; exact (List.getElem?_eq_some_iff.1 hi).1
    obtain ⟨r', h1, _, h3⟩ := hr.2 i cs[i] (List.getElem?_eq_getElem hlt)
    rw [hi] at h1
    cases h1
    exact h3
  have hws : ∀ v ∈ ds.vars, mapPy (fun o : Dataset V => getVarE o.vars v.name) rest =
      .ok (cs.map fun c => pieceVar d c v) := by
    intro v hv
    have hget : ∀ (c : Nat × Nat) (r : Dataset V), r.vars = ds.vars.map (pieceVar d c) →
        getVarE r.vars v.name = .ok (pieceVar d c v) := by
      intro c r hr
      have : getVar r.vars v.name = some (pieceVar d c v) := by
        rw [hr]
        exact getVar_of_mem _ (by rw [List.map_map]; exact hc.names) (pieceVar d c v)
          (List.mem_map_of_mem hv)
      simp only [getVarE, this]
    have hr2 := hr.2
    have hr1 := hr.1
    clear hr hrmem hcut hcs
    induction cs generalizing rest with
    | nil =>
      have : rest = [] := List.length_eq_zero_iff.1 (by simpa using hr1)
      subst this
      rfl
    | cons c0 ct ih =>
      cases rest with
      | nil => simp at hr1
      | cons r0 rt =>
        obtain ⟨r, h1, h2, _⟩ := hr2 0 c0 rfl
        simp only [List.getElem?_cons_zero, Option.some.injEq] at h1
        subst h1
        have := ih rt (fun i c hi => by
          simpa using hr2 (i + 1) c (by simpa using hi)) (by simpa using hr1)
        simp only [mapPy, bind, Except.bind, hget c0 r0 h2, this, List.map_cons]
  have hrne : rest ≠ [] := by
    rintro rfl
    have := hr.1
    simp only [List.length_nil] at this
    exact hcs (List.length_eq_zero_iff.1 this.symm)
  have hvars : mapPy (fun v : Var V => do
      let ws ← mapPy (fun o : Dataset V => getVarE o.vars v.name) rest
      concatVar v ws d) (ds.vars.map (pieceVar d c)) = .ok ds.vars := by
    have : ∀ l : List (Var V), (∀ v ∈ l, v ∈ ds.vars) → mapPy (fun v : Var V => do
      let ws ← mapPy (fun o : Dataset V => getVarE o.vars v.name) rest
      concatVar v ws d) (l.map (pieceVar d c)) = .ok l := by
      intro l
      induction l with
      | nil => intro _; rfl
      | cons v t ih =>
        intro hl
        have hv := hl v (by simp)
        have hone : concatVar (pieceVar d c v) (cs.map fun c => pieceVar d c v) d = .ok v := by
          unfold concatVar
          rw [if_neg (by simpa using hcs)]
          rw [if_neg (by
            rintro ⟨o, ho, hne⟩
            obtain ⟨c', _, rfl⟩ := List.mem_map.1 ho
            exact hne rfl)]
          simp only [pieceVar]
          cases hi : v.dims.idxOf? d with
          | none => rfl
          | some ax =>
            obtain ⟨m, hm1, hm2⟩ := hc.sizes v hv ax d (idxOf?_getElem hi)
            rw [hd] at hm2
            cases hm2
            have := concatenate_pieces (hok v hv).1 hm1 (c :: cs) (by simp) hcut
            simp only [List.map_map]
            rw [List.map_cons] at this
            have e : (List.map ((fun x : Var V => x.array) ∘ fun c => ({ v with
                array := piece ax v.array c } : Var V)) cs) = cs.map (piece ax v.array) := rfl
            rw [e, this]
        have hws' := hws v hv
        have : mapPy (fun o : Dataset V => getVarE o.vars (pieceVar d c v).name) rest =
          .ok (cs.map fun c => pieceVar d c v) := hws'
        simp only [List.map_cons, mapPy, bind, Except.bind, this, hone]
        have := ih fun w hw => hl w (by simp [hw])
        simp only [bind, Except.bind] at this
        rw [this]
    exact this ds.vars fun _ h => h
  obtain ⟨dims, hmk, hext⟩ := mk_ok ds.vars ds.attrs ds.chunks ds.limit ds.delayed ds.dims
    hc.names hc.kind hc.sizes
  refine ⟨dims, ?_, hext⟩
  unfold concat
  rw [if_neg hrne, if_neg (by
    rintro ⟨o, ho, hne⟩
    exact hne (by rw [hrmem o ho, hf.2.2.2.2]))]
  rw [hf.1, hvars]
  simp only [bind, Except.bind, derive, hf.2.1, hf.2.2.1, hf.2.2.2.1, hf.2.2.2.2, hmk]

end Verif
