import Verif.Spec.ViewUpdate
import Verif.Lemmas.ViewUpdate
import Verif.Lemmas.Joined
import Verif.Props.ViewLoad
import Verif.Props.Overlap

/-! Lemmas about the datasets that a view gives to a function. -/

namespace Verif

open Spec Nd Ds Upd Vw

variable {D P V H : Type} [DecidableEq D] [DecidableEq P] [DecidableEq H]

/-- The dataset opened for a partition. -/
def Opened (e : Env D V H) (st : State D P V H) (sel : Option (List String)) (del : Bool) (p : P)
    (g : Dataset V) : Prop :=
  ∃ vars, viewStore e st p = some vars ∧ Consistent g ∧ g.delayed = del ∧
    (∀ v ∈ vars, Chosen sel v.name → getVar g.vars v.name = some { v with delayed := del }) ∧
    (∀ n w, getVar g.vars n = some w → Chosen sel n ∧
      ∃ v, getVar vars n = some v ∧ v ∈ vars ∧ w = { v with delayed := del })

omit [DecidableEq D] [DecidableEq P] [DecidableEq H] in
theorem loadOne_opened {e : Env D V H} {st : State D P V H} {size : P → Nat}
    {other : String → Nat} (hg : GoodView e st size other) {sel : Option (List String)}
    (hc : DimsCovered e st sel ∨ ViewOnly e st sel) (del : Bool) {p : P} {vars : List (Var V)}
    (hp : viewStore e st p = some vars) :
    ∃ g, loadOne e del (selectNames e.refMeta sel) (selectNames st.metas sel)
        (st.files e.refDir p) (st.files e.base p) [] = .ok g ∧ Opened e st sel del p g ∧
      (DimsCovered e st sel → g.dims.lookup e.dim = some (size p)) := by
  by_cases hd : DimsCovered e st sel
  · obtain ⟨g, h1, h2, h3, h4, h5, h6⟩ := loadOne_whole hg hd del hp
    exact ⟨g, by rw [h1 []]; rfl, ⟨vars, hp, h2, h3, h5, h6⟩, fun _ => h4⟩
  · rcases hc with hc | hc
    · exact absurd hc hd
    · obtain ⟨g, h1, h2, h3, h4, h5⟩ := loadOne_viewOnly hg hc del hp
      exact ⟨g, h1 [], ⟨vars, hp, h2, h3, h4, h5⟩, fun h => absurd h hd⟩

omit [DecidableEq D] [DecidableEq P] [DecidableEq H] in
theorem partitions_selected (e : Env D V H) (listing : List P) (filters : P → Bool)
    (st : State D P V H) (hl : ∀ p ∈ listing, st.files e.refDir p ≠ none) :
    partitions e listing filters st.files = selected e listing filters st := by
  unfold partitions selected
  rw [List.filter_filter]
  apply List.filter_congr
  intro p hp
  obtain ⟨r, hr⟩ := Option.ne_none_iff_exists'.1 (hl p hp)
  rw [Bool.and_comm]
  congr 1
  simp only [viewStore, hr]
  cases st.files e.base p <;> rfl

omit [DecidableEq D] [DecidableEq P] [DecidableEq H] in
/-- The datasets given to the function. -/
theorem loadList_ok {e : Env D V H} {st : State D P V H} {size : P → Nat}
    {other : String → Nat} (hg : GoodView e st size other) {sel : Option (List String)}
    (hc : DimsCovered e st sel ∨ ViewOnly e st sel) (del : Bool) (listing : List P)
    (filters : P → Bool) (hl : ∀ p ∈ listing, st.files e.refDir p ≠ none) :
    ∃ dsl, loadList e del sel st.metas (partitions e listing filters st.files) st.files =
        .ok dsl ∧ dsl.map (·.2) = selected e listing filters st ∧
      ∀ x ∈ dsl, Opened e st sel del x.2 x.1 ∧
        (DimsCovered e st sel → x.1.dims.lookup e.dim = some (size x.2)) := by
  rw [partitions_selected e listing filters st hl]
  have hsel : ∀ p ∈ selected e listing filters st, ∃ vars, viewStore e st p = some vars := by
    intro p hp
    have := (List.mem_filter.1 hp).2
    simp only [Bool.and_eq_true] at this
    exact Option.isSome_iff_exists.1 this.2
  generalize selected e listing filters st = ps at hsel
  unfold loadList
  induction ps with
  | nil => exact ⟨[], rfl, rfl, fun x hx => by cases hx⟩
  | cons p t ih =>
    obtain ⟨vars, hp⟩ := hsel p (List.mem_cons_self ..)
    obtain ⟨g, h1, h2, h3⟩ := loadOne_opened hg hc del hp
    obtain ⟨dsl, i1, i2, i3⟩ := ih fun q hq => hsel q (List.mem_cons_of_mem _ hq)
    refine ⟨(g, p) :: dsl, by simp only [mapPy, h1, bind, Except.bind, i1] at i1 ⊢, by
      simp [i2], fun x hx => ?_⟩
    rcases List.mem_cons.1 hx with rfl | hx
    · exact ⟨h2, h3⟩
    · exact i3 x hx

omit [DecidableEq D] [DecidableEq P] [DecidableEq H] in
/-- The datasets opened for the partitions, joined. -/
theorem opened_shows {e : Env D V H} {st : State D P V H} {size : P → Nat}
    {other : String → Nat} (hg : GoodView e st size other) {sel : Option (List String)}
    {del : Bool} {dsl : List (Dataset V × P)} (hne : dsl ≠ [])
    (ho : ∀ x ∈ dsl, Opened e st sel del x.2 x.1) :
    ∃ zds, joinGroups e.dim (dsl.map (·.1)) = .ok zds ∧ Consistent zds ∧
      Shows e st size sel (dsl.map (·.2)) zds := by
  obtain ⟨zds, h1, h2, h3, h4⟩ := joined_holds (del := del) (sel := sel) hg.uniform
    (ps := dsl.map (·.2)) (groups := dsl.map (·.1)) (by simp) (by simpa using hne) (by
      intro j q hq
      rw [List.getElem?_map] at hq
      cases hx : dsl[j]? with
      | none => rw [hx] at hq; cases hq
      | some x =>
        rw [hx] at hq
        cases hq
        obtain ⟨vars, o1, o2, o3, o4, o5⟩ := ho x (List.mem_of_getElem? hx)
        exact ⟨x.1, vars, by rw [List.getElem?_map, hx]; rfl, o1, o2, o3, o4, o5⟩)
  exact ⟨zds, h1, h2, h3, fun v hv => (h4 v hv).1⟩

omit [DecidableEq D] [DecidableEq P] [DecidableEq H] in
theorem opened_alone {e : Env D V H} {st : State D P V H} {size : P → Nat}
    {other : String → Nat} (hg : GoodView e st size other) {sel : Option (List String)}
    {del : Bool} {p : P} {g : Dataset V} (ho : Opened e st sel del p g) :
    Shows e st size sel [p] g := by
  obtain ⟨zds, h1, _, h2⟩ := opened_shows (dsl := [(g, p)]) hg (by simp) (by
    intro x hx
    rw [List.mem_singleton.1 hx]
    exact ho)
  cases h1
  exact h2

theorem calcSlice_sizes (dim : String) (size : P → Nat) (p : P) (l : List (Dataset V × P))
    (hsz : ∀ x ∈ l, x.1.dims.lookup dim = some (size x.2)) (k : Nat)
    (hk : (l.map (·.2))[k]? = some p) (hfirst : p ∉ (l.map (·.2)).take k) (start : Nat)
    (last : Nat × Nat) :
    calcSlice dim p start last l = .ok (start + (((l.map (·.2)).take k).map size).sum,
      start + (((l.map (·.2)).take k).map size).sum + size p) := by
  induction l generalizing k start last with
  | nil => simp at hk
  | cons x t ih =>
    obtain ⟨g, q⟩ := x
    simp only [calcSlice, hsz (g, q) (List.mem_cons_self ..)]
    cases k with
    | zero =>
      simp only [List.map_cons, List.getElem?_cons_zero, Option.some.injEq] at hk
      subst hk
      simp
    | succ k =>
      simp only [List.map_cons, List.take_succ_cons, List.mem_cons, not_or] at hfirst
      rw [if_neg hfirst.1, ih (fun x hx => hsz x (List.mem_cons_of_mem _ hx)) k
        (by simpa using hk) hfirst.2]
      simp only [List.map_cons, List.take_succ_cons, List.sum_cons, Nat.add_assoc]

omit [DecidableEq D] [DecidableEq H] in
/-- The window of a partition. -/
theorem selectOverlap_eq (e : Env D V H) (depth : Nat) (dsl : List (Dataset V × P))
    (hnd : (dsl.map (·.2)).Nodup) (i : Nat) (p : P) (hp : (dsl.map (·.2))[i]? = some p) :
    selectOverlap e depth dsl p = (match neighbours dsl depth i with
      | [] => .error .indexError
      | x :: rest => do
        let zds ← concat x.1 (rest.map (·.1)) e.dim
        let ind ← calcSlice e.dim p 0 (0, 0) (x :: rest)
        .ok (zds, ind)) := by
  unfold selectOverlap
  rw [idxOf?_nodup hnd hp]
  simp only
  have : ((List.range (2 * depth + 1)).filterMap fun k =>
      if depth ≤ i + k then dsl[i + k - depth]? else none) = neighbours dsl depth i := by
    rw [window_list, neighbours, List.drop_take]
    congr 1
    omega
  rw [this]
  cases neighbours dsl depth i <;> rfl

theorem neighbours_map {α β : Type} (f : α → β) (l : List α) (d i : Nat) :
    (neighbours l d i).map f = neighbours (l.map f) d i := by
  simp [neighbours, List.map_drop, List.map_take]

theorem neighbours_length {α : Type} (l : List α) (d i : Nat) :
    (neighbours l d i).length = min (i + d + 1) l.length - (i - d) := by
  simp [neighbours]

omit [DecidableEq P] in
theorem neighbours_nodup {l : List P} (h : l.Nodup) (d i : Nat) : (neighbours l d i).Nodup :=
  (h.sublist (List.take_sublist _ _)).sublist (List.drop_sublist _ _)

omit [DecidableEq D] [DecidableEq H] in
theorem selectOverlap_ok {e : Env D V H} {st : State D P V H} {size : P → Nat}
    {other : String → Nat} (hg : GoodView e st size other) {sel : Option (List String)}
    {del : Bool} {dsl : List (Dataset V × P)} (hnd : (dsl.map (·.2)).Nodup)
    (ho : ∀ x ∈ dsl, Opened e st sel del x.2 x.1)
    (hs : ∀ x ∈ dsl, x.1.dims.lookup e.dim = some (size x.2)) (depth i : Nat) (p : P)
    (hp : (dsl.map (·.2))[i]? = some p) (h2 : 2 ≤ (neighbours (dsl.map (·.2)) depth i).length) :
    ∃ zds, selectOverlap e depth dsl p = .ok (zds, place size (dsl.map (·.2)) depth i p) ∧
      Consistent zds ∧ Shows e st size sel (neighbours (dsl.map (·.2)) depth i) zds := by
  have hsub : ∀ x ∈ neighbours dsl depth i, x ∈ dsl := fun x hx =>
    List.mem_of_mem_take (List.mem_of_mem_drop hx)
  rw [selectOverlap_eq e depth dsl hnd i p hp]
  rw [← neighbours_map] at h2
  obtain ⟨zds, j1, j2, j3⟩ := opened_shows (dsl := neighbours dsl depth i) hg
    (by intro hc; rw [hc] at h2; simp at h2) fun x hx => ho x (hsub x hx)
  rw [neighbours_map] at j3
  have hc := calcSlice_sizes e.dim size p (neighbours dsl depth i) (fun x hx => hs x (hsub x hx))
    (i - (i - depth)) (by
      rw [neighbours_map, neighbours, List.getElem?_drop, List.getElem?_take, if_pos (by omega),
        show i - depth + (i - (i - depth)) = i by omega]
      exact hp) (by
      rw [neighbours_map]
      intro hc
      have hk : (neighbours (dsl.map (·.2)) depth i)[i - (i - depth)]? = some p := by
        rw [neighbours, List.getElem?_drop, List.getElem?_take, if_pos (by omega),
          show i - depth + (i - (i - depth)) = i by omega]
        exact hp
      exact not_mem_take (neighbours_nodup hnd depth i) hk hc) 0 (0, 0)
  have hplace : (neighbours (dsl.map (·.2)) depth i).take (i - (i - depth)) =
      ((dsl.map (·.2)).take i).drop (i - depth) := by
    unfold neighbours
    rw [List.take_drop, List.take_take]
    congr 2
    omega
  rw [neighbours_map, hplace] at hc
  cases hw : neighbours dsl depth i with
  | nil => rw [hw] at h2; simp at h2
  | cons x rest =>
    rw [hw] at hc j1 h2
    cases rest with
    | nil => simp at h2
    | cons y rest =>
      simp only [List.map_cons, joinGroups] at j1
      refine ⟨zds, ?_, j2, j3⟩
      simp only [List.map_cons, j1, bind, Except.bind, hc, place, Nat.zero_add]

omit [DecidableEq D] [DecidableEq H] in
/-- A partition without neighbour. -/
theorem selectOverlap_alone (e : Env D V H) (depth : Nat) (dsl : List (Dataset V × P))
    (hnd : (dsl.map (·.2)).Nodup) (i : Nat) (p : P) (hp : (dsl.map (·.2))[i]? = some p)
    (h1 : (neighbours (dsl.map (·.2)) depth i).length = 1) :
    selectOverlap e depth dsl p = .error .valueError := by
  rw [selectOverlap_eq e depth dsl hnd i p hp]
  rw [← neighbours_map, List.length_map] at h1
  obtain ⟨x, hx⟩ := List.length_eq_one_iff.1 h1
  rw [hx]
  rfl

omit [DecidableEq D] [DecidableEq P] [DecidableEq H] in
theorem opened_arrays {e : Env D V H} {st : State D P V H} {size : P → Nat}
    {other : String → Nat} (hg : GoodView e st size other) {sel : Option (List String)}
    {del : Bool} {p : P} {g : Dataset V} (ho : Opened e st sel del p g) :
    ∀ v ∈ g.vars, ArrOk v.array := by
  obtain ⟨vars, o1, o2, _, _, o5⟩ := ho
  intro w hw
  obtain ⟨_, v, _, hv, he⟩ := o5 w.name w (getVar_of_mem g.vars o2.names w hw)
  rw [he]
  exact ((hg.uniform.good.1 p vars o1).2 v hv).1

omit [DecidableEq D] [DecidableEq H] in
theorem selectOverlap_arrays {e : Env D V H} {st : State D P V H} {size : P → Nat}
    {other : String → Nat} (hg : GoodView e st size other) {sel : Option (List String)}
    {del : Bool} {dsl : List (Dataset V × P)} (hnd : (dsl.map (·.2)).Nodup)
    (ho : ∀ x ∈ dsl, Opened e st sel del x.2 x.1) {depth i : Nat} {p : P}
    (hp : (dsl.map (·.2))[i]? = some p) {r : Dataset V × (Nat × Nat)}
    (h : selectOverlap e depth dsl p = .ok r) : ∀ v ∈ r.1.vars, ArrOk v.array := by
  have hsub : ∀ x ∈ neighbours dsl depth i, x ∈ dsl := fun x hx =>
    List.mem_of_mem_take (List.mem_of_mem_drop hx)
  rw [selectOverlap_eq e depth dsl hnd i p hp] at h
  cases hw : neighbours dsl depth i with
  | nil => rw [hw] at h; cases h
  | cons x rest =>
    rw [hw] at h hsub
    simp only [bind, Except.bind] at h
    split at h
    · cases h
    · next zds hz =>
      split at h
      · cases h
      · cases h
        cases rest with
        | nil => simp [concat] at hz
        | cons y rest =>
          have hj : joinGroups e.dim ((x :: y :: rest).map (·.1)) = .ok zds := hz
          refine joinGroups_arrOk ?_ ?_ hj
          · intro g hgm
            obtain ⟨z, hzm, rfl⟩ := List.mem_map.1 hgm
            obtain ⟨_, _, o2, _⟩ := ho z (hsub z hzm)
            exact o2
          · intro g hgm
            obtain ⟨z, hzm, rfl⟩ := List.mem_map.1 hgm
            exact opened_arrays hg (ho z (hsub z hzm))

end Verif
