import Verif.Lemmas.ViewWrites
import Verif.Props.ViewOps
import Verif.Props.Chunks

/-! C57: updates of a view. -/

namespace Verif

open Spec Nd Ds Upd Vw

variable {D P V H : Type} [DecidableEq D] [DecidableEq P] [DecidableEq H]

omit [DecidableEq D] [DecidableEq P] [DecidableEq H] in
theorem samePart_refl (names : List String) (a : Option (Part V H)) : SamePart names a a := by
  cases a with
  | none => exact .absent
  | some a => exact .present a a rfl (SameVars.refl _ _)

omit [DecidableEq D] [DecidableEq P] [DecidableEq H] in
theorem sameVars_trans {names : List String} {a b c : List (Var V)} (h1 : SameVars names a b)
    (h2 : SameVars names b c) : SameVars names a c := by
  induction a generalizing b c with
  | nil =>
    cases b with
    | nil => exact h2
    | cons => cases h1
  | cons v t ih =>
    cases b with
    | nil => cases h1
    | cons w u =>
      cases c with
      | nil => cases h2
      | cons x y =>
        obtain ⟨⟨a1, a2, a3, a4, a5, a6, a7⟩, at'⟩ := h1
        obtain ⟨⟨b1, b2, b3, b4, b5, b6, b7⟩, bt⟩ := h2
        exact ⟨⟨a1.trans b1, a2.trans b2, a3.trans b3, a4.trans b4, a5.trans b5, a6.trans b6,
          fun h => (a7 h).trans (b7 (a1 ▸ h))⟩, ih at' bt⟩

omit [DecidableEq D] [DecidableEq P] [DecidableEq H] in
theorem sameVars_mono {names names' : List String} (hs : ∀ n ∈ names, n ∈ names')
    {a b : List (Var V)} (h : SameVars names a b) : SameVars names' a b := by
  induction a generalizing b with
  | nil => cases b <;> exact h
  | cons v t ih =>
    cases b with
    | nil => cases h
    | cons w u =>
      obtain ⟨⟨a1, a2, a3, a4, a5, a6, a7⟩, at'⟩ := h
      exact ⟨⟨a1, a2, a3, a4, a5, a6, fun h => a7 fun hc => h (hs _ hc)⟩, ih at'⟩

omit [DecidableEq H] in
/-- C57: an update of a view, whether it succeeds or not, in every mode, changes only values of
the variables that the callback returns, in the selected partitions of the view: nothing in
the reference, no shape, no checksum, no other variable or partition. -/
theorem C57_frame (e : Env D V H) (how : How) (listing : List P) (filters : P → Bool)
    (sel : Option (List String)) (f : Callback V (Dict V)) (st : State D P V H)
    (names : List String) (hf : Returns f names) (st' : State D P V H) (r : Py Unit)
    (h : Vw.update e how listing filters sel f st = (st', r)) :
    st'.metas = st.metas ∧ st'.saved = st.saved ∧
    (∀ d p, d ≠ e.base → st'.files d p = st.files d p) ∧
    (∀ p, p ∉ listing ∨ filters p = false → st'.files e.base p = st.files e.base p) ∧
    ∀ p, SamePart names (st.files e.base p) (st'.files e.base p) := by
  have hst : st' = (Vw.update e how listing filters sel f st).1 := by rw [h]
  obtain ⟨m1, m2⟩ := Vw.update_metas e how listing filters sel f st
  subst hst
  refine ⟨m1, m2, fun d p hd => update_other e how listing filters sel f st d hd p, ?_, ?_⟩
  · intro p hp
    have hk : Vw.Kept e f (partitions e listing filters st.files) fun fs =>
        fs e.base p = st.files e.base p := by
      refine ⟨fun fs q n a fs' hq hqm _ hw => ?_⟩
      obtain ⟨part, vars, _, _, rfl⟩ := writeOne_spec hw
      have hne : p ≠ q := by
        rintro rfl
        have := (List.mem_filter.1 (List.mem_filter.1 hqm).1)
        rcases hp with hp | hp
        · exact hp this.1
        · rw [hp] at this; cases this.2
      simp only [put, hne, and_false, if_false]
      exact hq
    exact hk.update rfl
  · have hk : Vw.Kept e f (partitions e listing filters st.files) fun fs =>
        ∀ p, SamePart names (st.files e.base p) (fs e.base p) := by
      refine ⟨fun fs q n a fs' hq _ hc hw p => ?_⟩
      obtain ⟨part, vars, w1, w2, rfl⟩ := writeOne_spec hw
      obtain ⟨s1, _⟩ := writeVar_spec w2
      obtain ⟨zds, ind, d, x, c1, c2, rfl, _⟩ := hc
      have hx := hf zds ind d c1 x c2
      simp only [put, true_and]
      split
      · next hpq =>
        subst hpq
        have := hq p
        rw [w1] at this
        generalize st.files e.base p = o at this
        cases this with
        | present a b h1 h2 =>
          exact .present _ _ h1 (sameVars_trans h2 (sameVars_mono (by simp [hx]) s1))
      · exact hq p
    exact hk.update fun p => samePart_refl _ _

omit [DecidableEq D] [DecidableEq P] [DecidableEq H] in
theorem samePart_grow {n : String} {names : List String} {a : Option (Part V H)} {part : Part V H}
    {vars : List (Var V)} (h : SamePart names a (some part)) (hs : SameVars [n] part.vars vars) :
    SamePart (n :: names) a (some { part with vars }) := by
  cases h with
  | present a b h1 h2 =>
    exact .present _ _ h1 (sameVars_trans (sameVars_mono (by simp +contextual) h2)
      (sameVars_mono (by simp) hs))

omit [DecidableEq H] in
/-- An update keeps the variables of the partitions and their shapes. -/
theorem update_shape (e : Env D V H) (how : How) (listing : List P) (filters : P → Bool)
    (sel : Option (List String)) (f : Callback V (Dict V)) (st : State D P V H) (p : P) :
    ∃ names, SamePart names (st.files e.base p)
      ((Vw.update e how listing filters sel f st).1.files e.base p) := by
  have hk : Vw.Kept e f (partitions e listing filters st.files) fun fs =>
      ∃ names, SamePart names (st.files e.base p) (fs e.base p) := by
    refine ⟨fun fs q n a fs' hq _ hc hw => ?_⟩
    obtain ⟨part, vars, w1, w2, rfl⟩ := writeOne_spec hw
    obtain ⟨s1, v, s2, s3, s4⟩ := writeVar_spec w2
    simp only [put, true_and]
    split
    · next hpq =>
      subst hpq
      obtain ⟨names, hn⟩ := hq
      rw [w1] at hn
      exact ⟨_, samePart_grow hn s1⟩
    · exact hq
  exact hk.update ⟨[], samePart_refl _ _⟩

omit [DecidableEq H] in
/-- An update leaves the partitions that are not selected. -/
theorem update_unselected (e : Env D V H) (how : How) (listing : List P) (filters : P → Bool)
    (sel : Option (List String)) (f : Callback V (Dict V)) (st : State D P V H) (p : P)
    (hp : p ∉ partitions e listing filters st.files) :
    (Vw.update e how listing filters sel f st).1.files e.base p = st.files e.base p := by
  have hk : Vw.Kept e f (partitions e listing filters st.files) fun fs =>
      fs e.base p = st.files e.base p := by
    refine ⟨fun fs q n a fs' hq hqm _ hw => ?_⟩
    obtain ⟨part, vars, _, _, rfl⟩ := writeOne_spec hw
    have hne : p ≠ q := by rintro rfl; exact hp hqm
    simp only [put, hne, and_false, if_false]
    exact hq
  exact hk.update rfl

omit [DecidableEq H] in
/-- What an update that succeeds in a steady mode wrote in a partition. -/
theorem update_core {e : Env D V H} {how : How} {listing : List P} {filters : P → Bool}
    {sel : Option (List String)} {f : Callback V (Dict V)} {st st' : State D P V H}
    (hl : listing.Nodup) (hk : Keys f) (hm : Steady how f)
    (h : Vw.update e how listing filters sel f st = (st', .ok ())) :
    partitions e listing filters st.files = [] ∨
    ∃ dsl, loadList e how.delayed sel st.metas (partitions e listing filters st.files)
        st.files = .ok dsl ∧ 0 ≤ how.depth ∧
      ∀ p ∈ partitions e listing filters st.files, ∃ l, callItems e how f dsl p = .ok l ∧
        (∀ n, n ∉ l.map (·.1) → ∀ part', st'.files e.base p = some part' →
          ∃ part, st.files e.base p = some part ∧ getVar part'.vars n = getVar part.vars n) ∧
        ∀ x ∈ l, ∃ a part', x.2 = .ok a ∧ st'.files e.base p = some part' ∧
          (getVar part'.vars x.1).map (·.array) = some a := by
  rcases update_split e how listing filters sel f st with ⟨err, h'⟩ | ⟨_, h'⟩ |
    ⟨dsl, bs, h1, _, h2, h3, h'⟩
  · rw [h] at h'; cases h'
  · exact .inl h'
  · refine .inr ⟨dsl, h1, h3, fun p hp => ?_⟩
    rw [h] at h'
    simp only [Prod.mk.injEq] at h'
    have hnd := nodup_partitions e listing hl filters st.files
    have hb := updateBatches_ok e how f _ bs st.files _ (Prod.ext rfl h'.2.symm)
    rw [h2] at hb
    obtain ⟨g, g', u1, u2, _, u4⟩ := updateBatch_each e how f _ _ hnd _ _ hb p hp
    obtain ⟨l, l1, l0, l2⟩ := updateOne_steady hk hm hnd h1 hp u2 u1
    have hfs : st'.files e.base p = g' e.base p := by rw [h'.1]; exact u4
    refine ⟨l, l1, by rw [hfs]; exact l0, fun x hx => ?_⟩
    obtain ⟨a, part', a1, a2, a3⟩ := l2 x hx
    refine ⟨a, part', a1, ?_, a3⟩
    rw [h'.1]
    exact u4.trans a2

/-- C57, full statement about the values: after a successful update, each variable that the
callback returned for a partition has the value computed from what the view and the reference
held before the update. -/
def C57_full : Prop :=
  ∀ (D P V H : Type) [DecidableEq D] [DecidableEq P] [DecidableEq H] (e : Env D V H) (how : How)
    (listing : List P) (filters : P → Bool) (sel : Option (List String))
    (f : Callback V (Dict V)) (st st' : State D P V H) (size : P → Nat) (other : String → Nat),
    listing.Nodup → (∀ p ∈ listing, st.files e.refDir p ≠ none) → GoodView e st size other →
    DimsCovered e st sel → MapsArrays f → Keys f →
    Vw.update e how listing filters sel f st = (st', .ok ()) →
    ∀ i p, (selected e listing filters st)[i]? = some p →
      ∃ zds d, Shows e st size sel (shownTo (selected e listing filters st) how.depth i p) zds ∧
        f zds (info size (selected e listing filters st) how.depth i p) = .ok d ∧
        ∀ x ∈ d, ∃ a, viewValues e st' p x.1 = some a ∧
          StoredFrom how e.dim zds (info size (selected e listing filters st) how.depth i p)
            x.1 x.2 a

omit [DecidableEq D] [DecidableEq P] [DecidableEq H] in
theorem trim_cut {zds : Dataset V} {dim : String} {ind : Nat × Nat} {n : String} {b a : Arr V}
    (hb : ArrOk b) (hind : ind.1 ≤ ind.2) (h : trimArray zds dim ind n b = .ok a) :
    ArrOk a ∧ ∃ v ∈ zds.vars, v.name = n ∧ CutAlong v.dims dim ind b a := by
  unfold trimArray at h
  split at h
  · cases h
  · next v hv =>
    split at h
    · cases h
    · next ax hax =>
      have hax' := idxOf?_spec hax
      obtain ⟨m, h1, h2⟩ := getitem_trim hb v.dims.length 0 ax ind hind
        (List.getElem?_eq_some_iff.1 hax').1 h
      obtain ⟨w1, w2⟩ := getVar_some _ _ _ hv
      subst h2
      refine ⟨takeAxis_arrOk hb h1 _ fun q hq => ?_, v, w1, w2, ax, hax', fun idx j hj hlt => ?_⟩
      · obtain ⟨r, hr, rfl⟩ := List.mem_map.1 hq
        rw [List.mem_range] at hr
        omega
      simp only [Nat.zero_add] at h1
      simp only [takeAxis, Nat.zero_add, hj, Option.bind_some, List.getElem?_map]
      by_cases hr : j < min ind.2 m - ind.1
      · rw [List.getElem?_range hr]
        rfl
      · rw [List.getElem?_eq_none (by simpa using hr)]
        simp only [Option.map_none, Option.bind_none]
        cases hg : b.get (idx.set ax (ind.1 + j)) with
        | none => rfl
        | some v =>
          exfalso
          obtain ⟨_, hin⟩ := (hb _).1 ⟨v, hg⟩
          have hlen := (List.getElem?_eq_some_iff.1 hj).1
          have := hin ax (ind.1 + j) m (by rw [List.getElem?_set_self hlen]) h1
          omega

omit [DecidableEq H] in
/-- The values after an update, and that the arrays are well formed. -/
theorem update_values (e : Env D V H) (how : How) (listing : List P) (filters : P → Bool)
    (sel : Option (List String)) (f : Callback V (Dict V)) (st st' : State D P V H)
    (size : P → Nat) (other : String → Nat) (hl : listing.Nodup)
    (href : ∀ p ∈ listing, st.files e.refDir p ≠ none) (hg : GoodView e st size other)
    (hc : DimsCovered e st sel ∨ ViewOnly e st sel ∧ how.depth = 0)
    (hf : MapsArrays f) (hk : Keys f)
    (hm : how.delayed = false ∨
      how.depth = 0 ∧ (how.isLazy = false ∨ ∀ zds ind d, f zds ind = .ok d → d.length ≤ 1))
    (h : Vw.update e how listing filters sel f st = (st', .ok ())) :
    ∀ i p, (selected e listing filters st)[i]? = some p →
      ∃ zds d, Shows e st size sel (shownTo (selected e listing filters st) how.depth i p) zds ∧
        f zds (info size (selected e listing filters st) how.depth i p) = .ok d ∧
        (∀ x ∈ d, ∃ a, viewValues e st' p x.1 = some a ∧ ArrOk a ∧
          StoredFrom how e.dim zds (info size (selected e listing filters st) how.depth i p)
            x.1 x.2 a) ∧
        ∀ n, n ∉ d.map (·.1) → viewValues e st' p n = viewValues e st p n := by
  intro i p hp
  have hpm := List.mem_of_getElem? hp
  have hsel := partitions_selected e listing filters st href
  obtain ⟨dsl, d1, d2, d3⟩ := loadList_ok hg (hc.imp id And.left) how.delayed listing filters href
  rcases update_core hl hk hm h with h0 | ⟨dsl', e1, hdepth, e2⟩
  · rw [← hsel, h0] at hp; simp at hp
  · rw [d1] at e1
    cases e1
    obtain ⟨l, l1, l0, l2⟩ := e2 p (hsel ▸ hpm)
    have hnd : (dsl.map (·.2)).Nodup := by
      rw [d2, ← hsel]
      exact nodup_partitions e listing hl filters st.files
    have hvals : ∀ n (a : Arr V) (part' : Part V H), st'.files e.base p = some part' →
        (getVar part'.vars n).map (·.array) = some a → viewValues e st' p n = some a := by
      intro n a part' h1 h2
      unfold viewValues
      rw [h1]
      exact h2
    have hkeep : ∀ n, n ∉ l.map (·.1) → viewValues e st' p n = viewValues e st p n := by
      intro n hn
      obtain ⟨names, hs⟩ := update_shape e how listing filters sel f st p
      rw [h] at hs
      unfold viewValues
      cases hp' : st'.files e.base p with
      | none =>
        rw [hp'] at hs
        generalize st.files e.base p = o at hs
        cases hs
        rfl
      | some part' =>
        obtain ⟨part, q1, q2⟩ := l0 n hn part' hp'
        rw [q1]
        exact congrArg (Option.map (·.array)) q2
    unfold callItems at l1
    split at l1
    · next hz =>
      split at l1
      · cases l1
      · next x hx =>
        simp only [bind, Except.bind] at l1
        split at l1
        · cases l1
        · next d hd =>
          cases l1
          have hxm := List.mem_of_find?_eq_some hx
          have hxp : x.2 = p := by simpa using List.find?_some hx
          refine ⟨x.1, d, ?_, ?_, ?_, fun n hn => hkeep n (by rw [List.map_map]; exact hn)⟩
          · rw [shownTo, if_pos hz, ← hxp]
            exact opened_alone hg (d3 x hxm).1
          · rw [info, if_pos hz]
            exact hd
          · intro y hy
            obtain ⟨a, part', a1, a2, a3⟩ := l2 (y.1, .ok y.2) (List.mem_map.2 ⟨y, hy, rfl⟩)
            cases a1
            refine ⟨y.2, hvals _ _ _ a2 a3, hf _ _ _ (opened_arrays hg (d3 x hxm).1) hd y hy, ?_⟩
            rw [info, if_pos hz]
            exact rfl
    · next hz =>
      have hcov : DimsCovered e st sel := by
        rcases hc with hc | ⟨_, hc⟩
        · exact hc
        · exact absurd hc hz
      have hpd : (dsl.map (·.2))[i]? = some p := by rw [d2]; exact hp
      simp only [bind, Except.bind] at l1
      split at l1
      · cases l1
      · next zi hzi =>
        have hlen : 2 ≤ (neighbours (dsl.map (·.2)) how.depth.toNat i).length := by
          have h1 : (neighbours (dsl.map (·.2)) how.depth.toNat i).length ≠ 1 := by
            intro h1
            rw [selectOverlap_alone e _ dsl hnd i p hpd h1] at hzi
            cases hzi
          have hi := (List.getElem?_eq_some_iff.1 hpd).1
          rw [neighbours_length] at h1 ⊢
          omega
        obtain ⟨zds, s1, _, s2⟩ := selectOverlap_ok hg hnd (fun x hx => (d3 x hx).1)
          (fun x hx => (d3 x hx).2 hcov) how.depth.toNat i p hpd hlen
        have harr := selectOverlap_arrays hg hnd (fun x hx => (d3 x hx).1) hpd s1
        rw [s1] at hzi
        cases hzi
        simp only at l1
        split at l1
        · cases l1
        · next d hd =>
          cases l1
          rw [d2] at s2 hd l2
          refine ⟨zds, d, ?_, ?_, ?_, fun n hn => hkeep n (by rw [List.map_map]; exact hn)⟩
          · rw [shownTo, if_neg hz]
            exact s2
          · rw [info, if_neg hz]
            exact hd
          · intro y hy
            obtain ⟨a, part', a1, a2, a3⟩ := l2 _ (List.mem_map.2 ⟨y, hy, rfl⟩)
            refine ⟨a, hvals _ _ _ a2 a3, ?_⟩
            rw [info, if_neg hz]
            simp only at a1
            simp only [StoredFrom]
            have hb := hf _ _ _ harr hd y hy
            split at a1
            · next ht =>
              rw [if_pos ht]
              obtain ⟨t1, t2⟩ := trim_cut hb (by simp [place]) a1
              exact ⟨t1, t2⟩
            · next ht =>
              rw [if_neg ht]
              cases a1
              exact ⟨hb, rfl⟩

omit [DecidableEq H] in
/-- C57: this holds when the datasets are not delayed, and without overlap also when they are,
if the callback returns arrays or at most one dask array.  Missing: delayed datasets with an
overlap (`C57_counterexample_overlap`) or with several dask arrays
(`C57_counterexample_lazy`). -/
theorem C57_values_partial (e : Env D V H) (how : How) (listing : List P) (filters : P → Bool)
    (sel : Option (List String)) (f : Callback V (Dict V)) (st st' : State D P V H)
    (size : P → Nat) (other : String → Nat) (hl : listing.Nodup)
    (href : ∀ p ∈ listing, st.files e.refDir p ≠ none) (hg : GoodView e st size other)
    (hc : DimsCovered e st sel ∨ ViewOnly e st sel ∧ how.depth = 0)
    (hf : MapsArrays f) (hk : Keys f)
    (hm : how.delayed = false ∨
      how.depth = 0 ∧ (how.isLazy = false ∨ ∀ zds ind d, f zds ind = .ok d → d.length ≤ 1))
    (h : Vw.update e how listing filters sel f st = (st', .ok ())) :
    ∀ i p, (selected e listing filters st)[i]? = some p →
      ∃ zds d, Shows e st size sel (shownTo (selected e listing filters st) how.depth i p) zds ∧
        f zds (info size (selected e listing filters st) how.depth i p) = .ok d ∧
        (∀ x ∈ d, ∃ a, viewValues e st' p x.1 = some a ∧
          StoredFrom how e.dim zds (info size (selected e listing filters st) how.depth i p)
            x.1 x.2 a) ∧
        ∀ n, n ∉ d.map (·.1) → viewValues e st' p n = viewValues e st p n := by
  intro i p hp
  obtain ⟨zds, d, h1, h2, h3, h4⟩ := update_values e how listing filters sel f st st' size other hl
    href hg hc hf hk hm h i p hp
  refine ⟨zds, d, h1, h2, fun x hx => ?_, h4⟩
  obtain ⟨a, a1, _, a2⟩ := h3 x hx
  exact ⟨a, a1, a2⟩

/-- The shape of a variable of a partition of the view. -/
def shapeIn (e : Env D V H) (fs : Files D P V H) (p : P) (n : String) : Option (List Nat) :=
  (fs e.base p).bind fun part => (getVar part.vars n).map (·.array.shape)

omit [DecidableEq H] in
theorem writeOne_accepts {e : Env D V H} {fs : Files D P V H} {p : P} {n : String} {a : Arr V}
    (h : shapeIn e fs p n = some a.shape) :
    ∃ fs', writeOne e fs p (n, .ok a) = .ok fs' ∧ ∀ q m, shapeIn e fs' q m = shapeIn e fs q m := by
  unfold shapeIn at h
  cases hp : fs e.base p with
  | none => rw [hp] at h; cases h
  | some part =>
    rw [hp] at h
    simp only [Option.bind_some] at h
    cases hv : getVar part.vars n with
    | none => rw [hv] at h; cases h
    | some v =>
      rw [hv] at h
      simp only [Option.map_some, Option.some.injEq] at h
      have hvn := (getVar_some _ _ _ hv).2
      refine ⟨put fs e.base p (some { part with vars := setVar part.vars { v with array := a } }),
        by simp [writeOne, bind, Except.bind, hp, writeVar, hv, h], ?_⟩
      intro q m
      unfold shapeIn
      simp only [put, true_and]
      split
      · next hq =>
        subst hq
        simp only [hp, Option.bind_some, Vw.getVar_setVar]
        split
        · next hm =>
          rw [hvn] at hm
          rw [← hm, hv]
          simp [h]
        · rfl
      · rfl

omit [DecidableEq H] in
theorem writeItems_accepts {e : Env D V H} {p : P} (l : List (String × Py (Arr V)))
    {fs : Files D P V H} (h : ∀ x ∈ l, ∃ a, x.2 = .ok a ∧ shapeIn e fs p x.1 = some a.shape) :
    ∃ fs', writeItems e fs p l = (fs', .ok ()) ∧ ∀ q m, shapeIn e fs' q m = shapeIn e fs q m := by
  induction l generalizing fs with
  | nil => exact ⟨fs, rfl, fun _ _ => rfl⟩
  | cons x t ih =>
    obtain ⟨n, r⟩ := x
    obtain ⟨a, ha, hs⟩ := h _ (List.mem_cons_self ..)
    simp only at ha hs
    subst ha
    obtain ⟨fs1, w1, w2⟩ := writeOne_accepts hs
    obtain ⟨fs2, i1, i2⟩ := ih (fs := fs1) fun y hy => by
      obtain ⟨b, b1, b2⟩ := h y (List.mem_cons_of_mem _ hy)
      exact ⟨b, b1, by rw [w2]; exact b2⟩
    exact ⟨fs2, by simp only [writeItems, w1, i1], fun q m => (i2 q m).trans (w2 q m)⟩

omit [DecidableEq H] in
/-- C57: when an update succeeds, for datasets that are not delayed, without overlap: the
callback accepts the dataset of each selected partition and returns, for variables of the view
only, arrays with the shape that they have in this partition. -/
theorem C57_accepted (e : Env D V H) (how : How) (listing : List P) (filters : P → Bool)
    (sel : Option (List String)) (f : Callback V (Dict V)) (st : State D P V H)
    (size : P → Nat) (other : String → Nat) (hmetas : st.metas ≠ [])
    (href : ∀ p ∈ listing, st.files e.refDir p ≠ none) (hg : GoodView e st size other)
    (hc : DimsCovered e st sel) (hm : how.delayed = false) (hz : how.depth = 0)
    (hw : 0 < how.workers)
    (hf : ∀ p ∈ selected e listing filters st, ∀ zds ind, Shows e st size sel [p] zds →
      ∃ d, f zds ind = .ok d ∧ ∀ x ∈ d, (∃ m ∈ st.metas, m.name = x.1) ∧
        ∃ a, viewValues e st p x.1 = some a ∧ x.2.shape = a.shape) :
    ∃ st', Vw.update e how listing filters sel f st = (st', .ok ()) := by
  have hsel := partitions_selected e listing filters st href
  obtain ⟨dsl, d1, d2, d3⟩ := loadList_ok hg (.inl hc) how.delayed listing filters href
  have hshape : ∀ p n a, viewValues e st p n = some a → shapeIn e st.files p n = some a.shape := by
    intro p n a h
    unfold viewValues at h
    unfold shapeIn
    cases hp : st.files e.base p with
    | none => rw [hp] at h; cases h
    | some part =>
      rw [hp] at h
      simp only [Option.map_eq_some_iff] at h
      obtain ⟨v, h1, rfl⟩ := h
      simp only [Option.bind_some, getVar, h1, Option.map_some]
  -- the writes
  have hone : ∀ p ∈ selected e listing filters st, ∀ fs : Files D P V H,
      (∀ q m, shapeIn e fs q m = shapeIn e st.files q m) →
      ∃ fs', updateOne e how f (fun fs => if how.delayed then loadList e true sel st.metas
          (partitions e listing filters st.files) fs else .ok dsl) fs p = (fs', .ok ()) ∧
        ∀ q m, shapeIn e fs' q m = shapeIn e st.files q m := by
    intro p hp fs hfs
    obtain ⟨x, hx, hxp⟩ := List.mem_map.1 (d2 ▸ hp)
    cases hfind : dsl.find? (fun x => decide (x.2 = p)) with
    | none =>
      have := List.find?_eq_none.1 hfind x hx
      simp [hxp] at this
    | some y =>
      have hym := List.mem_of_find?_eq_some hfind
      have hyp : y.2 = p := by simpa using List.find?_some hfind
      obtain ⟨d, f1, f2⟩ := hf p hp y.1 none (hyp ▸ opened_alone hg (d3 y hym).1)
      obtain ⟨fs', w1, w2⟩ := writeItems_accepts (e := e) (p := p) (fs := fs)
        (d.map fun y => (y.1, .ok y.2)) (by
          intro z hz
          obtain ⟨u, hu, rfl⟩ := List.mem_map.1 hz
          obtain ⟨_, a, a1, a2⟩ := f2 u hu
          exact ⟨u.2, rfl, by rw [hfs, hshape p _ a a1, a2]⟩)
      refine ⟨fs', ?_, fun q m => (w2 q m).trans (hfs q m)⟩
      simp only [updateOne, hm, Bool.false_eq_true, if_false, bind, Except.bind, callItems, hz,
        if_true, hfind, f1, Bool.false_and]
      exact w1
  have hbatch : ∀ (b : List P), (∀ p ∈ b, p ∈ selected e listing filters st) →
      ∀ fs : Files D P V H, (∀ q m, shapeIn e fs q m = shapeIn e st.files q m) →
      ∃ fs', updateBatch e how f (fun fs => if how.delayed then loadList e true sel st.metas
          (partitions e listing filters st.files) fs else .ok dsl) fs b = (fs', .ok ()) ∧
        ∀ q m, shapeIn e fs' q m = shapeIn e st.files q m := by
    intro b
    induction b with
    | nil => intro _ fs h; exact ⟨fs, rfl, h⟩
    | cons p t ih =>
      intro hb fs h
      obtain ⟨fs1, u1, u2⟩ := hone p (hb p (List.mem_cons_self ..)) fs h
      obtain ⟨fs2, v1, v2⟩ := ih (fun q hq => hb q (List.mem_cons_of_mem _ hq)) fs1 u2
      exact ⟨fs2, by simp only [updateBatch, u1]; exact v1, v2⟩
  have hbatches : ∀ (bs : List (List P)), (∀ b ∈ bs, ∀ p ∈ b, p ∈ selected e listing filters st) →
      ∀ fs : Files D P V H, (∀ q m, shapeIn e fs q m = shapeIn e st.files q m) →
      ∃ fs', updateBatches e how f (fun fs => if how.delayed then loadList e true sel st.metas
          (partitions e listing filters st.files) fs else .ok dsl) fs bs = (fs', .ok ()) := by
    intro bs
    induction bs with
    | nil => intro _ fs h; exact ⟨fs, rfl⟩
    | cons b t ih =>
      intro hb fs h
      obtain ⟨fs1, u1, u2⟩ := hbatch b (hb b (List.mem_cons_self ..)) fs h
      obtain ⟨fs2, v1⟩ := ih (fun c hc => hb c (List.mem_cons_of_mem _ hc)) fs1 u2
      exact ⟨fs2, by simp only [updateBatches, u1]; exact v1⟩
  unfold Vw.update
  rw [if_neg hmetas]
  simp only [d1]
  cases dsl with
  | nil => exact ⟨st, rfl⟩
  | cons x rest =>
    have hx := d3 x (List.mem_cons_self ..)
    have hxs : x.2 ∈ selected e listing filters st := by rw [← d2]; simp
    obtain ⟨d, f1, f2⟩ := hf x.2 hxs x.1 (some (0, size x.2)) (opened_alone hg hx.1)
    have hh : ∃ us, mapPy (fun y => handled e st.metas y.1) d = .ok us := by
      refine mapPy_exists _ d fun y hy => ?_
      obtain ⟨⟨m, m1, m2⟩, _⟩ := f2 y hy
      refine ⟨(), ?_⟩
      unfold handled
      rw [if_neg, if_neg]
      · intro hc
        exact hc (List.mem_map.2 ⟨m, m1, m2⟩)
      · intro hc
        obtain ⟨t, t1, t2⟩ := List.mem_map.1 hc
        exact hg.apart m m1 t t1 (m2.trans t2.symm)
    obtain ⟨us, hus⟩ := hh
    have hpne : partitions e listing filters st.files ≠ [] := by
      rw [hsel]
      exact List.ne_nil_of_mem hxs
    obtain ⟨bs, b1, b2, _⟩ := C19_split_sequence (partitions e listing filters st.files)
      (some how.workers) hpne (by simp [hw])
    obtain ⟨fs', hfs⟩ := hbatches bs (fun b hb p hp => by
      rw [← hsel, ← b2]; exact List.mem_flatten.2 ⟨b, hb, hp⟩) st.files fun _ _ => rfl
    simp only [hx.2 hc, f1, hus, checkDepth, hz, if_true, b1]
    exact ⟨_, by rw [hfs]⟩

omit [DecidableEq H] in
/-- C57: with an overlap, an update of a single partition always raises: there is nothing to
concatenate. -/
theorem C57_single (e : Env D V H) (how : How) (listing : List P) (filters : P → Bool)
    (sel : Option (List String)) (f : Callback V (Dict V)) (st st' : State D P V H)
    (hz : how.depth ≠ 0) (p : P) (hp : partitions e listing filters st.files = [p]) :
    Vw.update e how listing filters sel f st ≠ (st', .ok ()) := by
  intro h
  rcases update_split e how listing filters sel f st with ⟨err, h'⟩ | ⟨_, h'⟩ |
    ⟨dsl, bs, h1, _, h2, h3, h'⟩
  · rw [h] at h'; cases h'
  · rw [hp] at h'; cases h'
  · rw [h] at h'
    simp only [Prod.mk.injEq] at h'
    have hb := updateBatches_ok e how f _ bs st.files _ (Prod.ext rfl h'.2.symm)
    rw [h2, hp] at hb
    simp only [updateBatch] at hb
    have key : ∀ dsl', (dsl' : List (Dataset V × P)).map (·.2) = [p] →
        callItems e how f dsl' p = .error .valueError := by
      intro dsl' hd
      unfold callItems
      rw [if_neg hz, selectOverlap_alone e _ dsl' (by rw [hd]; simp) 0 p (by rw [hd]; rfl) (by
        rw [hd, neighbours_length]; simp)]
      rfl
    split at hb
    · cases hb
    · next g hg =>
      unfold updateOne at hg
      split at hg
      · cases hg
      · next l hc =>
        simp only [bind, Except.bind] at hc
        split at hc
        · cases hc
        · next dsl' hd =>
          have : dsl'.map (·.2) = [p] := by
            cases hdel : how.delayed with
            | true =>
              rw [hdel] at hd
              exact (loadList_snd hd).1
            | false =>
              rw [hdel] at hd
              cases hd
              rw [← hp]
              exact (loadList_snd h1).1
          rw [key dsl' this] at hc
          cases hc

omit [DecidableEq H] in
/-- C39: an update that succeeds got no variable with a name of the reference from the
callback, for any partition. -/
theorem C39_update_refused (e : Env D V H) (how : How) (listing : List P) (filters : P → Bool)
    (sel : Option (List String)) (f : Callback V (Dict V)) (st st' : State D P V H)
    (ha : Apart e st) (hl : listing.Nodup) (hk : Keys f) (hm : how.delayed = false)
    (hz : how.depth = 0)
    (h : Vw.update e how listing filters sel f st = (st', .ok ())) :
    ∀ p ∈ listing, filters p = true → (st.files e.base p).isSome = true →
      ∃ zds d, f zds none = .ok d ∧ loadOne e false (selectNames e.refMeta sel)
        (selectNames st.metas sel) (st.files e.refDir p) (st.files e.base p) [] = .ok zds ∧
        ∀ y ∈ d, ∀ t ∈ e.refMeta, y.1 ≠ t.name := by
  intro p hp hfp hs
  have hpm : p ∈ partitions e listing filters st.files :=
    List.mem_filter.2 ⟨List.mem_filter.2 ⟨hp, hfp⟩, hs⟩
  rcases update_core hl hk (.inl hm) h with h0 | ⟨dsl, e1, _, e2⟩
  · rw [h0] at hpm; cases hpm
  · obtain ⟨l, l1, _, l2⟩ := e2 p hpm
    rw [hm] at e1
    obtain ⟨s1, s2⟩ := loadList_snd e1
    unfold callItems at l1
    rw [if_pos hz] at l1
    split at l1
    · cases l1
    · next x hx =>
      simp only [bind, Except.bind] at l1
      split at l1
      · cases l1
      · next d hd =>
        cases l1
        have hxm := List.mem_of_find?_eq_some hx
        have hxp : x.2 = p := by simpa using List.find?_some hx
        refine ⟨x.1, d, hd, hxp ▸ s2 x hxm, fun y hy t ht => ?_⟩
        obtain ⟨a, part', _, a2, a3⟩ := l2 _ (List.mem_map.2 ⟨y, hy, rfl⟩)
        have hap := update_apart e how listing filters sel f st (fun p part hp => ha.parts p part hp)
          p part'
        rw [h] at hap
        cases hv : getVar part'.vars y.1 with
        | none => rw [hv] at a3; cases a3
        | some v =>
          obtain ⟨v1, v2⟩ := getVar_some _ _ _ hv
          rw [← v2]
          exact hap a2 v v1 t ht

/-! ### Examples and counterexamples -/

/-- A callback that fills `x` with its first value in the window, plus one. -/
def bumpX : Callback Nat (Dict Nat) := fun zds _ => do
  let x ← arrayOf zds "x"
  match x.get [0] with
  | none => .error .indexError
  | some v => .ok [("x", full x.shape (v + 1))]

theorem bumpX_spec {zds : Dataset Nat} {ind : Option (Nat × Nat)} {d : Dict Nat}
    (h : bumpX zds ind = .ok d) : ∃ x v, arrayOf zds "x" = .ok x ∧ x.get [0] = some v ∧
      d = [("x", full x.shape (v + 1))] := by
  simp only [bumpX, bind, Except.bind] at h
  split at h
  · cases h
  · next x hx =>
    split at h
    · cases h
    · next v hv =>
      cases h
      exact ⟨x, v, hx, hv, rfl⟩

theorem bumpX_good : MapsArrays bumpX := by
  intro zds ind d _ h y hy
  obtain ⟨x, v, _, _, rfl⟩ := bumpX_spec h
  rw [List.mem_singleton.1 hy]
  exact full_arrOk _ _

theorem bumpX_keys : Keys bumpX := by
  intro zds ind d h
  obtain ⟨x, v, _, _, rfl⟩ := bumpX_spec h
  simp

theorem bumpX_returns : Returns bumpX ["x"] := by
  intro zds ind d h y hy
  obtain ⟨x, v, _, _, rfl⟩ := bumpX_spec h
  rw [List.mem_singleton.1 hy]
  simp

theorem arrayOf_var {zds : Dataset V} {n : String} {a : Arr V} (h : arrayOf zds n = .ok a) :
    ∃ v ∈ zds.vars, v.name = n ∧ v.array = a := by
  unfold arrayOf getVarE at h
  cases hv : getVar zds.vars n with
  | none => rw [hv] at h; cases h
  | some v =>
    rw [hv] at h
    cases h
    obtain ⟨h1, h2⟩ := getVar_some _ _ _ hv
    exact ⟨v, h1, h2, rfl⟩

theorem twoView_selected (f : Bool → Bool) :
    selected (smallEnv (· == ·)) [false, true] f twoView = [false, true].filter f := by
  unfold selected
  apply List.filter_congr
  intro p _
  simp [twoView_store]

/-- The modes of the examples. -/
def overlapMode (delayed : Bool) : How :=
  { delayed, isLazy := true, depth := 1, trim := true, workers := 1 }

/-- With delayed datasets and an overlap, the datasets are read again for each partition: the
neighbours that were updated before show their new values. -/
theorem C57_counterexample_overlap : ¬ C57_full := by
  intro h
  obtain ⟨zds, d, h1, h2, h3⟩ := h Bool Bool Nat (List Nat) (smallEnv (· == ·)) (overlapMode true)
    [false, true] (fun _ => true) none bumpX twoView
    (Vw.update (smallEnv (· == ·)) (overlapMode true) [false, true] (fun _ => true) none bumpX
      twoView).1 viewSize (fun _ => 0) (by decide) twoView_parts twoView_good twoView_covered
    bumpX_good bumpX_keys (Prod.ext rfl rfl) 1 true (by rw [twoView_selected]; rfl)
  have hsel : selected (smallEnv (· == ·)) [false, true] (fun _ => true) twoView = [false, true] :=
    twoView_selected _
  rw [hsel] at h1 h2 h3
  obtain ⟨x, v, b1, b2, rfl⟩ := bumpX_spec h2
  obtain ⟨w, w1, w2, w3⟩ := arrayOf_var b1
  obtain ⟨_, k1, _⟩ := h1.holds.values w w1 0 false _ (xVar [10, 20]) rfl (twoView_store false)
    (by simp) w2.symm
  have k2 := (k1 0 rfl).2 [0] 0 rfl (by decide)
  have k3 : w.array.get [0] = some 10 := k2
  rw [w3, b2] at k3
  cases k3
  obtain ⟨a, a1, u, u1, u2, ax, u3, u4⟩ := h3 _ (List.mem_singleton.2 rfl)
  have hax : ax = 0 := by
    obtain ⟨k4, _⟩ := h1.holds.values u u1 0 false _ (xVar [10, 20]) rfl (twoView_store false)
      (by simp) u2.symm
    rw [k4] at u3
    cases ax with
    | zero => rfl
    | succ n => simp [xVar] at u3
  subst hax
  have k5 : a.get [0] = some 12 := by
    have : (viewValues (smallEnv (· == ·)) (Vw.update (smallEnv (· == ·)) (overlapMode true)
      [false, true] (fun _ => true) none bumpX twoView).1 true "x").bind (fun a => a.get [0]) =
        some 12 := rfl
    rw [a1] at this
    exact this
  have k6 := u4 [0] 0 rfl (by decide)
  rw [k5] at k6
  simp only [full] at k6
  split at k6 <;> simp at k6

/-- A view with two variables of its own. -/
def xyView : State Bool Unit Nat (List Nat) where
  files := fun d _ => if d then some { vars := [xVar [1], { xVar [2] with name := "y" }],
                                       check := none }
    else some { vars := [timeVar [1]], check := none }
  metas := [xMeta, ⟨"y", ["time"], some 9, 0⟩]
  saved := [xMeta, ⟨"y", ["time"], some 9, 0⟩]

theorem xyView_store (p : Unit) : viewStore (smallEnv (· == ·)) xyView p =
    some [timeVar [1], xVar [1], { xVar [2] with name := "y" }] := rfl

theorem xyView_vars (p : Unit) (vars : List (Var Nat))
    (h : viewStore (smallEnv (· == ·)) xyView p = some vars) :
    vars = [timeVar [1], xVar [1], { xVar [2] with name := "y" }] := by
  rw [xyView_store] at h
  cases h
  rfl

theorem xyView_good : GoodView (smallEnv (· == ·)) xyView (fun _ => 1) (fun _ => 0) := by
  refine ⟨⟨⟨?_, ?_⟩, ?_, ?_⟩, ?_, ?_, ?_, by decide +kernel, ?_⟩
  · intro p vars h
    rw [xyView_vars p vars h]
    refine ⟨(by decide : ["time", "x", "y"].Nodup), ?_⟩
    intro v hv
    simp only [List.mem_cons, List.not_mem_nil, or_false] at hv
    rcases hv with rfl | rfl | rfl <;> exact ⟨vec_arrOk _, (by decide : ["time"].Nodup)⟩
  · intro p q vs ws h1 h2 v hv w hw hn
    rw [xyView_vars p vs h1] at hv
    rw [xyView_vars q ws h2] at hw
    simp only [List.mem_cons, List.not_mem_nil, or_false] at hv hw
    rcases hv with rfl | rfl | rfl <;> rcases hw with rfl | rfl | rfl <;> rfl
  · intro p q vs ws h1 h2 v hv
    rw [xyView_vars p vs h1] at hv
    rw [xyView_vars q ws h2]
    exact ⟨v, hv, rfl⟩
  · intro p vars h v hv
    rw [xyView_vars p vars h] at hv
    simp only [List.mem_cons, List.not_mem_nil, or_false] at hv
    rcases hv with rfl | rfl | rfl <;> rfl
  · intro p r hr v hv
    refine ⟨timeMeta, by simp [smallEnv], ?_⟩
    cases hr
    simp only [List.mem_singleton] at hv
    subst hv
    rfl
  · intro p part hp
    cases hp
    decide +kernel
  · intro p part hp m hm
    cases hp
    simp only [xyView, List.mem_cons, List.not_mem_nil, or_false] at hm
    rcases hm with rfl | rfl
    · exact ⟨xVar [1], by simp, rfl⟩
    · exact ⟨{ xVar [2] with name := "y" }, by simp, rfl⟩
  · intro m hm t ht
    simp only [xyView, List.mem_cons, List.not_mem_nil, or_false] at hm
    simp only [smallEnv, List.mem_singleton] at ht
    subst ht
    rcases hm with rfl | rfl <;> decide

theorem xyView_covered : DimsCovered (smallEnv (· == ·)) xyView none := by
  intro p r part hr hp
  have hall : ∀ n, Chosen none n := fun n l hl => by cases hl
  cases hr
  cases hp
  refine ⟨⟨_, List.mem_singleton.2 rfl, hall _, by decide⟩, ?_⟩
  intro w hw _ _ d hd
  simp only [List.mem_cons, List.not_mem_nil, or_false] at hw
  rcases hw with rfl | rfl <;> exact ⟨_, List.mem_singleton.2 rfl, hall _, hd⟩

/-- A callback that swaps two variables and copies the values. -/
def swapVec : Callback Nat (Dict Nat) := fun zds _ => do
  let x ← arrayOf zds "x"
  let y ← arrayOf zds "y"
  match x.get [0], y.get [0] with
  | some a, some b => .ok [("x", vec [b]), ("y", vec [a])]
  | _, _ => .error .indexError

theorem swapVec_spec {zds : Dataset Nat} {ind : Option (Nat × Nat)} {d : Dict Nat}
    (h : swapVec zds ind = .ok d) : ∃ x y a b, arrayOf zds "x" = .ok x ∧
      arrayOf zds "y" = .ok y ∧ x.get [0] = some a ∧ y.get [0] = some b ∧
      d = [("x", vec [b]), ("y", vec [a])] := by
  simp only [swapVec, bind, Except.bind] at h
  split at h
  · cases h
  · next x hx =>
    split at h
    · cases h
    · next y hy =>
      split at h
      · next a b ha hb =>
        cases h
        exact ⟨x, y, a, b, hx, hy, ha, hb, rfl⟩
      · cases h

/-- The default mode, with a callback that returns dask arrays. -/
def lazyMode : How := { delayed := true, isLazy := true, depth := 0, trim := true, workers := 1 }

/-- With delayed datasets, each dask array is computed when it is written: swapping two
variables copies one over the other. -/
theorem C57_counterexample_lazy : ¬ C57_full := by
  intro h
  obtain ⟨zds, d, h1, h2, h3⟩ := h Bool Unit Nat (List Nat) (smallEnv (· == ·)) lazyMode
    [()] (fun _ => true) none swapVec xyView
    (Vw.update (smallEnv (· == ·)) lazyMode [()] (fun _ => true) none swapVec xyView).1
    (fun _ => 1) (fun _ => 0) (by decide) (by intro p _ hc; cases hc) xyView_good xyView_covered
    (by
      intro zds ind d _ h y hy
      obtain ⟨_, _, a, b, _, _, _, _, rfl⟩ := swapVec_spec h
      simp only [List.mem_cons, List.not_mem_nil, or_false] at hy
      rcases hy with rfl | rfl <;> exact vec_arrOk _)
    (by
      intro zds ind d h
      obtain ⟨_, _, a, b, _, _, _, _, rfl⟩ := swapVec_spec h
      simp)
    (Prod.ext rfl rfl) 0 () rfl
  obtain ⟨x, y, a, b, b1, b2, b3, b4, rfl⟩ := swapVec_spec h2
  obtain ⟨w, w1, w2, w3⟩ := arrayOf_var b1
  obtain ⟨_, k1, _⟩ := h1.holds.values w w1 0 () _ (xVar [1]) rfl (xyView_store ())
    (by simp) w2.symm
  have k3 : w.array.get [0] = some 1 := (k1 0 rfl).2 [0] 0 rfl (by decide)
  rw [w3, b3] at k3
  cases k3
  obtain ⟨c, c1, c2⟩ := h3 ("y", vec [1]) (by simp)
  have c2 : c = vec [1] := c2
  have : (viewValues (smallEnv (· == ·)) (Vw.update (smallEnv (· == ·)) lazyMode [()]
    (fun _ => true) none swapVec xyView).1 () "y").bind (fun a => a.get [0]) = some 2 := rfl
  rw [c1, c2] at this
  revert this
  decide

/-- The hypotheses of `C57_values_partial` and `C57_frame` are met by an update with an
overlap, in two batches: both partitions are filled with the first value plus one. -/
example : ∃ st', Vw.update (smallEnv (· == ·)) { overlapMode false with workers := 2 }
      [false, true] (fun _ => true) none bumpX twoView = (st', .ok ()) ∧
    Returns bumpX ["x"] ∧
    ∃ zds d, Shows (smallEnv (· == ·)) twoView viewSize none [false, true] zds ∧
      bumpX zds (some (2, 5)) = .ok d ∧
      ∀ x ∈ d, ∃ a, viewValues (smallEnv (· == ·)) st' true x.1 = some a ∧
        ∃ v ∈ zds.vars, v.name = x.1 ∧ CutAlong v.dims "time" (2, 5) x.2 a := by
  refine ⟨_, Prod.ext rfl rfl, bumpX_returns, ?_⟩
  have := C57_values_partial (smallEnv (· == ·)) { overlapMode false with workers := 2 }
    [false, true] (fun _ => true) none bumpX twoView _ viewSize (fun _ => 0) (by decide)
    twoView_parts twoView_good (.inl twoView_covered) bumpX_good bumpX_keys (.inl rfl)
    (Prod.ext rfl rfl) 1 true (by rw [twoView_selected]; rfl)
  rw [twoView_selected] at this
  obtain ⟨zds, d, h1, h2, h3, _⟩ := this
  exact ⟨zds, d, h1, h2, h3⟩

/-- Also without overlap, in the default mode, with a callback that returns one dask array. -/
example : ∃ zds d, Shows (smallEnv (· == ·)) twoView viewSize none [true] zds ∧
    bumpX zds none = .ok d ∧ ∀ x ∈ d, ∃ a,
      viewValues (smallEnv (· == ·)) (Vw.update (smallEnv (· == ·)) lazyMode [false, true] id none
        bumpX twoView).1 true x.1 = some a ∧ a = x.2 := by
  have := C57_values_partial (smallEnv (· == ·)) lazyMode [false, true] id none bumpX twoView _
    viewSize (fun _ => 0) (by decide) twoView_parts twoView_good (.inl twoView_covered)
    bumpX_good bumpX_keys (.inr ⟨rfl, .inr fun zds ind d h => by
      obtain ⟨_, _, _, _, rfl⟩ := bumpX_spec h
      simp⟩)
    (Prod.ext rfl rfl) 0 true (by rw [twoView_selected]; rfl)
  rw [twoView_selected] at this
  obtain ⟨zds, d, h1, h2, h3, _⟩ := this
  exact ⟨zds, d, h1, h2, h3⟩

/-- A callback that fills `x` with its length. -/
def fillX : Callback Nat (Dict Nat) := fun zds _ => do
  let x ← arrayOf zds "x"
  match x.shape[0]? with
  | none => .error .indexError
  | some n => .ok [("x", full [n] n)]

/-- The hypotheses of `C57_accepted` are met. -/
example : ∃ st', Vw.update (smallEnv (· == ·))
    { delayed := false, isLazy := false, depth := 0, trim := true, workers := 3 } [false, true]
    (fun _ => true) none fillX twoView = (st', .ok ()) := by
  refine C57_accepted _ _ _ _ _ _ _ viewSize (fun _ => 0) (by simp [twoView]) twoView_parts
    twoView_good twoView_covered rfl rfl (by decide) ?_
  intro p hp zds ind hz
  obtain ⟨w, w1, w2⟩ := hz.holds.present p (by simp) _ (twoView_store p)
    (if p then xVar [30, 40, 50] else xVar [10, 20]) (by cases p <;> simp) (fun l hl => by cases hl)
  have w2 : w.name = "x" := by rw [w2]; cases p <;> rfl
  have hx : ∃ x, arrayOf zds "x" = .ok x := by
    unfold arrayOf getVarE
    cases hv : getVar zds.vars "x" with
    | none =>
      have := List.find?_eq_none.1 hv w w1
      simp [w2] at this
    | some v => exact ⟨v.array, rfl⟩
  obtain ⟨x, hx⟩ := hx
  obtain ⟨v, v1, v2, v3⟩ := arrayOf_var hx
  obtain ⟨_, k2, _⟩ := hz.holds.values v v1 0 p _
    (if p then xVar [30, 40, 50] else xVar [10, 20]) rfl (twoView_store p) (by cases p <;> simp)
    (by rw [v2]; cases p <;> rfl)
  have h0 : x.shape[0]? = some (viewSize p) := by
    rw [← v3]
    simpa using (k2 0 (by cases p <;> rfl)).1
  refine ⟨[("x", full [viewSize p] (viewSize p))], by simp [fillX, bind, Except.bind, hx, h0], ?_⟩
  intro y hy
  rw [List.mem_singleton.1 hy]
  refine ⟨⟨xMeta, by simp [twoView], rfl⟩, ?_⟩
  cases p
  · exact ⟨vec [10, 20], rfl, rfl⟩
  · exact ⟨vec [30, 40, 50], rfl, rfl⟩

/-- The hypotheses of `C57_single` are met. -/
example : (Vw.update (smallEnv (· == ·)) (overlapMode false) [false, true] id none bumpX
    twoView).2 = .error .valueError ∧
    partitions (smallEnv (· == ·)) [false, true] id twoView.files = [true] := ⟨rfl, rfl⟩

/-- The hypotheses of `C39_update_refused` are met. -/
example : ∃ zds d, (fun (_ : Dataset Nat) (_ : Option (Nat × Nat)) =>
      (.ok [("x", vec [7, 8])] : Py (Dict Nat))) zds none = .ok d ∧
    ∀ y ∈ d, ∀ t ∈ (smallEnv (· == ·)).refMeta, y.1 ≠ t.name := by
  have ha : Apart (smallEnv (· == ·)) (oneView [1, 2]) :=
    C39_names (smallEnv (· == ·)) [.add [()] ["time"] xMeta] _
      (C39_created (smallEnv (· == ·)) [()] none (oneFile none (some (onlyTime [1, 2])))
        (fun _ => rfl))
  obtain ⟨zds, d, h1, _, h2⟩ := C39_update_refused (smallEnv (· == ·))
    { delayed := false, isLazy := false, depth := 0, trim := true, workers := 1 } [()]
    (fun _ => true) none (fun _ _ => .ok [("x", vec [7, 8])]) (oneView [1, 2]) _ ha (by decide)
    (by intro zds ind d h; cases h; simp) rfl rfl (Prod.ext rfl rfl) () (by simp) rfl rfl
  exact ⟨zds, d, h1, h2⟩

end Verif
