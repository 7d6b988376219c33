import Verif.Lemmas.PipelineInsert
import Verif.Lemmas.Index

/-! Loading the pieces of a dataset gives the dataset. -/

namespace Verif

open Spec Nd Ds Sch Pipe Upd

variable {P V : Type} [DecidableEq P]

/-- The same variable, read eagerly or lazily. -/
def asDelayed (d : Bool) (v : Var V) : Var V := { v with delayed := d }

theorem chain_cuts {a n : Nat} {l : List (Nat × Nat)} (h : Chain a n l) : Cuts a n l := by
  induction l generalizing a with
  | nil => exact h
  | cons c t ih =>
    obtain ⟨h1, h2, h3⟩ := h
    exact ⟨h1, Nat.le_of_lt h2, ih h3⟩

theorem piece_whole {dim : String} {n : Nat} {v : Var V} (ho : ArrOk v.array)
    (hs : ∀ ax : Nat, v.dims[ax]? = some dim → v.array.shape[ax]? = some n) :
    pieceVar dim (0, n) v = v := by
  unfold pieceVar
  cases hi : v.dims.idxOf? dim with
  | none => rfl
  | some ax =>
    have h1 := hs ax (idxOf?_getElem hi)
    have : piece ax v.array (0, n) = v.array := by
      have he : (List.range (n - 0)).map (0 + ·) = List.range n := by simp
      show takeAxis ax ((List.range (n - 0)).map (0 + ·)) v.array = v.array
      rw [he]
      exact takeAxis_range ho h1
    simp only [this]

omit [DecidableEq P] in
/-- Reading the pieces of a dataset, one after the other. -/
theorem join_pieces {zds : Dataset V} (hc : Consistent zds)
    (hok : ∀ v ∈ zds.vars, ArrOk v.array ∧ v.dims.Nodup) {dim : String} {n : Nat}
    (hd : zds.dims.lookup dim = some n) (d : Bool) {st : Store P V}
    {ps : List (P × (Nat × Nat))} (hne : ps ≠ []) (hch : Chain 0 n (ps.map (·.2)))
    (hst : ∀ p ∈ ps, st p.1 = some (zds.vars.map (pieceVar dim p.2))) :
    ∃ groups r, mapPy (openPart d none st) (ps.map (·.1)) = .ok groups ∧
      joinGroups dim groups = .ok r ∧ r.vars = zds.vars.map (asDelayed d) ∧
      (∀ g ∈ groups, g.delayed = d ∧ DimsFrom g) := by
  -- the dataset as it is read
  let z : Dataset V := { dims := zds.dims, vars := zds.vars.map (asDelayed d), attrs := [],
                         chunks := [], limit := 0, delayed := d }
  have hzc : Consistent z := by
    refine ⟨hc.keys, ?_, ?_, ?_⟩
    · show ((zds.vars.map (asDelayed d)).map (·.name)).Nodup
      rw [List.map_map]
      exact hc.names
    · intro v hv
      obtain ⟨w, _, rfl⟩ := List.mem_map.1 hv
      rfl
    · intro v hv
      obtain ⟨w, hw, rfl⟩ := List.mem_map.1 hv
      exact hc.sizes w hw
  have hzok : ∀ v ∈ z.vars, ArrOk v.array ∧ v.dims.Nodup := by
    intro v hv
    obtain ⟨w, hw, rfl⟩ := List.mem_map.1 hv
    exact hok w hw
  have hcomm : ∀ c : Nat × Nat, (zds.vars.map (pieceVar dim c)).map (asDelayed d) =
      z.vars.map (pieceVar dim c) := by
    intro c
    simp only [z, List.map_map]
    rfl
  have hopen : ∀ p ∈ ps, ∃ g, openPart d none st p.1 = .ok g ∧
      g.vars = z.vars.map (pieceVar dim p.2) ∧ g.attrs = [] ∧ g.chunks = [] ∧ g.limit = 0 ∧
      g.delayed = d := by
    intro p hp
    obtain ⟨dims, hmk⟩ := mk_pieces z hzc hzok dim p.2
    let g : Dataset V := { z with dims := dims, vars := z.vars.map (pieceVar dim p.2) }
    refine ⟨g, ?_, rfl, rfl, rfl, rfl, rfl⟩
    unfold openPart
    rw [hst p hp]
    simp only [openGroup]
    rw [List.filter_eq_self.2 fun _ _ => rfl]
    exact (congrArg (fun l => mk l [] [] 0 (some d)) (hcomm p.2)).trans hmk
  obtain ⟨groups, hg⟩ := mapPy_exists (openPart d none st) (ps.map (·.1)) (by
    intro q hq
    obtain ⟨p, hp, rfl⟩ := List.mem_map.1 hq
    obtain ⟨g, h1, _⟩ := hopen p hp
    exact ⟨g, h1⟩)
  obtain ⟨g1, g2⟩ := mapPy_spec _ _ _ hg
  have hgroup : ∀ (i : Nat) (p : P × (Nat × Nat)), ps[i]? = some p → ∃ g, groups[i]? = some g ∧
      g.vars = z.vars.map (pieceVar dim p.2) ∧ g.attrs = [] ∧ g.chunks = [] ∧ g.limit = 0 ∧
      g.delayed = d := by
    intro i p hi
    obtain ⟨g, e1, e2⟩ := g2 i p.1 (by rw [List.getElem?_map, hi]; rfl)
    obtain ⟨g', h1, h2⟩ := hopen p (List.mem_of_getElem? hi)
    rw [h1] at e2
    cases e2
    exact ⟨g, e1, h2⟩
  have hall : ∀ g ∈ groups, g.delayed = d ∧ DimsFrom g := by
    intro g hgm
    obtain ⟨q, hq, ho⟩ := mapPy_mem _ _ _ hg g hgm
    refine ⟨?_, openPart_dimsFrom ho⟩
    obtain ⟨p, hp, rfl⟩ := List.mem_map.1 hq
    obtain ⟨g', h1, _, _, _, _, h2⟩ := hopen p hp
    rw [h1] at ho
    cases ho
    exact h2
  have hjoin : ∃ r, joinGroups dim groups = .ok r ∧ r.vars = zds.vars.map (asDelayed d) := by
    match ps, hne, hch, g1, hgroup with
    | [p], _, hch, g1, hgroup =>
      obtain ⟨g, e1, e2, _⟩ := hgroup 0 p rfl
      match groups, g1, e1 with
      | [g'], _, e1 =>
        simp only [List.getElem?_cons_zero, Option.some.injEq] at e1
        subst e1
        refine ⟨g', rfl, ?_⟩
        rw [e2]
        show z.vars.map (pieceVar dim p.2) = z.vars
        obtain ⟨h1, h2, h3⟩ := hch
        have hp2 : p.2 = (0, n) := by
          simp only [List.map_nil, Chain] at h3
          exact Prod.ext h1 h3
        rw [hp2]
        conv => rhs; rw [← List.map_id z.vars]
        apply List.map_congr_left
        intro v hv
        refine piece_whole (hzok v hv).1 fun ax hax => ?_
        obtain ⟨m, e1, e2⟩ := hzc.sizes v hv ax dim hax
        rw [show z.dims.lookup dim = some n from hd] at e2
        cases e2
        exact e1
    | p :: q :: t, _, hch, g1, hgroup =>
      obtain ⟨g, e1, e2⟩ := hgroup 0 p rfl
      match groups, g1, e1, hgroup with
      | [g'], g1, _, _ => simp at g1
      | g' :: g'' :: rest, g1, e1, hgroup =>
        simp only [List.getElem?_cons_zero, Option.some.injEq] at e1
        subst e1
        obtain ⟨dims, hcat, _⟩ := concat_pieces z hzc hzok dim n hd p.2 ((q :: t).map (fun x => x.2))
          (by simp) (chain_cuts (l := p.2 :: (q :: t).map (fun x => x.2)) hch) g' (g'' :: rest) e2
          (by
            refine ⟨by simpa using g1, ?_⟩
            intro i c hi
            rw [List.getElem?_map] at hi
            cases hx : (q :: t)[i]? with
            | none => rw [hx] at hi; cases hi
            | some x =>
              rw [hx] at hi
              cases hi
              obtain ⟨g3, f1, f2, _, _, _, f3⟩ := hgroup (i + 1) x (by simpa using hx)
              exact ⟨g3, by simpa using f1, f2, f3⟩)
        exact ⟨_, hcat, rfl⟩
  obtain ⟨r, j1, j2⟩ := hjoin
  exact ⟨groups, r, hg, j1, j2, hall⟩

end Verif
