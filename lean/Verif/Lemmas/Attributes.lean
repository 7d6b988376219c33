import Verif.Spec.Attributes
import Verif.Lemmas.Meta
import Verif.Lemmas.Dataset
import Verif.Props.Meta

/-! Lemmas on attributes. -/

namespace Verif

open Spec Meta Ds

variable {P : Type}

theorem put_new (k : String) (v : AttrVal) (d : List Attr) (h : k ∉ d.map (·.1)) :
    At.put k v d = d ++ [(k, v)] := by
  induction d with
  | nil => rfl
  | cons a t ih =>
    have h1 : a.1 ≠ k := fun he => h (by simp [he])
    rw [At.put, if_neg h1, ih fun hc => h (List.mem_cons_of_mem _ hc)]
    rfl

theorem foldl_put (l d : List Attr) (h : ((d ++ l).map (·.1)).Nodup) :
    l.foldl (fun d a => At.put a.1 a.2 d) d = d ++ l := by
  induction l generalizing d with
  | nil => simp
  | cons a t ih =>
    have hn : a.1 ∉ d.map (·.1) := by
      rw [List.map_append, List.nodup_append] at h
      intro hc
      exact h.2.2 _ hc _ (by simp) rfl
    rw [List.foldl_cons, put_new _ _ _ hn, ih _ (by simpa using h)]
    simp

theorem dictOf_id (l : List Attr) (h : (l.map (·.1)).Nodup) : At.dictOf l = l := by
  have := foldl_put l [] (by simpa using h)
  simpa [At.dictOf] using this

theorem writeGroup_bare {ds : At.Dset} (h : Bare ds) : BareFiles (At.writeGroup ds) := by
  refine ⟨?_, ?_⟩
  · simp only [At.writeGroup, h.1]
    rfl
  · intro a ha
    simp only [At.writeGroup, List.mem_map] at ha
    obtain ⟨v, hv, rfl⟩ := ha
    rw [h.2 v hv]
    exact ⟨v.dims, rfl⟩

theorem writeGroup_names (ds : At.Dset) : (At.writeGroup ds).arrays.map (·.1) = named ds := by
  simp only [At.writeGroup, named, List.map_map]
  rfl

theorem readZattrs_bare (n : String) (dims : List String) :
    At.readZattrs n [("_ARRAY_DIMENSIONS", AttrVal.list dims)] = .ok ⟨n, dims, []⟩ := rfl

theorem readAll_bare (l : List (String × List Attr))
    (h : ∀ a ∈ l, ∃ dims, a.2 = [("_ARRAY_DIMENSIONS", AttrVal.list dims)]) :
    ∃ vars, mapPy (fun (a : String × List Attr) => At.readZattrs a.1 a.2) l = .ok vars ∧
      (∀ v ∈ vars, v.attrs = []) ∧ vars.map (·.name) = l.map (·.1) := by
  induction l with
  | nil => exact ⟨[], rfl, by simp, rfl⟩
  | cons a t ih =>
    obtain ⟨vars, h1, h2, h3⟩ := ih fun x hx => h x (List.mem_cons_of_mem _ hx)
    obtain ⟨dims, hd⟩ := h a (List.mem_cons_self ..)
    refine ⟨⟨a.1, dims, []⟩ :: vars, ?_, ?_, ?_⟩
    · simp only [mapPy, bind, Except.bind, h1, hd, readZattrs_bare]
    · intro v hv
      rcases List.mem_cons.1 hv with rfl | hv
      · rfl
      · exact h2 v hv
    · simp [h3]

/-- Files without attributes are read as a dataset without attributes. -/
theorem openGroup_bare {g : At.Group} (h : BareFiles g) (sel : String → Bool) :
    ∃ ds, At.openGroup sel g = .ok ds ∧ Bare ds ∧ named ds = (g.arrays.map (·.1)).filter sel := by
  obtain ⟨vars, h1, h2, h3⟩ := readAll_bare (g.arrays.filter fun a => sel a.1)
    fun a ha => h.2 a (List.mem_filter.1 ha).1
  refine ⟨⟨g.attrs, vars⟩, ?_, ⟨h.1, h2⟩, ?_⟩
  · simp only [At.openGroup, bind, Except.bind, h1]
  · simp only [named, h3, List.filter_map]
    rfl

/-- What holds of a collection during its life: distinct variables; files without attributes,
for variables of the metadata. -/
structure Tidy (c : At.Coll P) : Prop where
  distinct : (c.md.vars.map (·.name)).Nodup
  parts : ∀ p g, c.parts p = some g → BareFiles g ∧
    ∀ n ∈ g.arrays.map (·.1), n ∈ c.md.vars.map (·.name)
  immutable : ∀ g, c.imm = true → c.immutable = some g → BareFiles g ∧
    ∀ n ∈ g.arrays.map (·.1), n ∈ c.md.vars.map (·.name)

theorem Spec.New.tidy {c : At.Coll P} (h : New c) : Tidy c :=
  ⟨h.distinct, fun p g hp => (by rw [h.parts] at hp; cases hp),
    fun g _ hg => (by rw [h.immutable] at hg; cases hg)⟩

theorem byDim_bare {ds : At.Dset} (h : Bare ds) (axis : String) (b : Bool) :
    Bare (At.byDim axis b ds) :=
  ⟨h.1, fun v hv => h.2 v (List.mem_filter.1 hv).1⟩

theorem byDim_names (ds : At.Dset) (axis : String) (b : Bool) :
    ∀ n ∈ named (At.byDim axis b ds), n ∈ named ds := by
  intro n hn
  obtain ⟨v, hv, rfl⟩ := List.mem_map.1 hn
  exact List.mem_map_of_mem (List.mem_filter.1 hv).1

theorem forInsertion_bare (ds : Meta.Ds) : Bare (At.setForInsertion ds) := by
  refine ⟨rfl, ?_⟩
  intro v hv
  obtain ⟨w, _, rfl⟩ := List.mem_map.1 hv
  rfl

theorem forInsertion_names (ds : Meta.Ds) :
    named (At.setForInsertion ds) = ds.vars.map (·.name) := by
  simp only [named, At.setForInsertion, List.map_map]
  rfl

theorem insertPart_bare {m : Option At.Merge} (hm : ∀ f, m = some f → Modest f)
    {zds : At.Dset} (hz : Bare zds) {N : List String} (hn : ∀ n ∈ named zds, n ∈ N)
    {part : Option At.Group}
    (hp : ∀ g, part = some g → BareFiles g ∧ ∀ n ∈ g.arrays.map (·.1), n ∈ N) {g : At.Group}
    (h : At.insertPart m zds part = .ok g) :
    BareFiles g ∧ ∀ n ∈ g.arrays.map (·.1), n ∈ N := by
  unfold At.insertPart at h
  split at h
  · next g0 f =>
    obtain ⟨b1, b2⟩ := hp g0 rfl
    obtain ⟨ds, hds, hb, hns⟩ := openGroup_bare b1 fun _ => true
    simp only [bind, Except.bind, hds] at h
    split at h
    · cases h
    · next r hr =>
      cases h
      obtain ⟨k1, k2⟩ := hm f rfl _ _ _ hr
      refine ⟨writeGroup_bare (k1 hb hz), ?_⟩
      rw [writeGroup_names]
      intro n hnr
      rcases k2 n hnr with h1 | h1
      · rw [hns] at h1
        exact b2 n (List.mem_filter.1 h1).1
      · exact hn n h1
  · cases h
    refine ⟨writeGroup_bare hz, ?_⟩
    rw [writeGroup_names]
    exact hn

variable [DecidableEq P]

theorem insertParts_bare {m : Option At.Merge} (hm : ∀ f, m = some f → Modest f)
    {zds : At.Dset} (hz : Bare zds) {N : List String} (hn : ∀ n ∈ named zds, n ∈ N)
    (pieces : List P) (st : P → Option At.Group)
    (hp : ∀ p g, st p = some g → BareFiles g ∧ ∀ n ∈ g.arrays.map (·.1), n ∈ N) :
    ∀ p g, (At.insertParts m zds st pieces).1 p = some g →
      BareFiles g ∧ ∀ n ∈ g.arrays.map (·.1), n ∈ N := by
  induction pieces generalizing st with
  | nil => exact hp
  | cons q t ih =>
    unfold At.insertParts
    split
    · exact hp
    · next g hg =>
      apply ih
      intro p g' hg'
      unfold At.setPart at hg'
      split at hg'
      · cases hg'
        exact insertPart_bare hm hz hn (fun g0 h0 => hp q g0 h0) hg
      · exact hp p g' hg'

theorem insert_tidy {c : At.Coll P} (h : Tidy c) (validate : Bool) {m : Option At.Merge}
    (hm : ∀ f, m = some f → Modest f) (pieces : List P) (ds : Meta.Ds) :
    Tidy (At.insert c validate m pieces ds).1 := by
  unfold At.insert
  split
  · exact h
  · next ds' hds =>
    have hnames := (C48_completed _ _ _ _ hds).2
    have hz := forInsertion_bare ds'
    have hn : ∀ n ∈ named (At.setForInsertion ds'), n ∈ c.md.vars.map (·.name) := by
      rw [forInsertion_names]
      exact fun n hn => (hnames n).1 hn
    have hz' : Bare (if c.imm = true then At.byDim c.axis true (At.setForInsertion ds')
        else At.setForInsertion ds') := by
      split
      · exact byDim_bare hz _ _
      · exact hz
    have hn' : ∀ n ∈ named (if c.imm = true then At.byDim c.axis true (At.setForInsertion ds')
        else At.setForInsertion ds'), n ∈ c.md.vars.map (·.name) := by
      split
      · exact fun n hh => hn n (byDim_names _ _ _ n hh)
      · exact hn
    have hmd : ∀ c' : At.Coll P, c' = (if (c.imm && c.immutable.isNone) = true then
        { c with immutable := some (At.writeGroup (At.byDim c.axis false (At.setForInsertion ds'))) }
        else c) → c'.md = c.md ∧ c'.imm = c.imm ∧ c'.parts = c.parts ∧
        ∀ g, c'.imm = true → c'.immutable = some g → BareFiles g ∧
          ∀ n ∈ g.arrays.map (·.1), n ∈ c.md.vars.map (·.name) := by
      rintro c' rfl
      split
      · refine ⟨rfl, rfl, rfl, ?_⟩
        intro g _ hg
        cases hg
        refine ⟨writeGroup_bare (byDim_bare hz _ _), ?_⟩
        rw [writeGroup_names]
        exact fun n hh => hn n (byDim_names _ _ _ n hh)
      · exact ⟨rfl, rfl, rfl, h.immutable⟩
    obtain ⟨e1, e2, e3, e4⟩ := hmd _ rfl
    refine ⟨?_, ?_, ?_⟩
    · show ((At.Coll.md _).vars.map (·.name)).Nodup
      rw [e1]
      exact h.distinct
    · intro p g hg
      show _ ∧ ∀ n ∈ _, n ∈ ((At.Coll.md _).vars.map (·.name))
      rw [e1]
      refine insertParts_bare hm hz' hn' pieces _ ?_ p g hg
      rw [e3]
      exact h.parts
    · intro g hi hg
      show _ ∧ ∀ n ∈ _, n ∈ ((At.Coll.md _).vars.map (·.name))
      rw [e1]
      exact e4 g hi hg

omit [DecidableEq P] in
theorem add_tidy {c : At.Coll P} (h : Tidy c) (v : Meta.Var) : Tidy (At.addVariable c v).1 := by
  unfold At.addVariable
  split
  · exact h
  split
  · exact h
  · next hnew =>
    split
    · exact h
    · refine ⟨?_, ?_, ?_⟩
      · simp only [List.map_append, List.map_cons, List.map_nil]
        rw [List.nodup_append]
        refine ⟨h.distinct, by simp, ?_⟩
        intro a ha b hb
        simp only [List.mem_singleton] at hb
        rintro rfl
        exact hnew (hb ▸ ha)
      · intro p g hg
        simp only [Option.map_eq_some_iff] at hg
        obtain ⟨g0, hg0, rfl⟩ := hg
        obtain ⟨b1, b2⟩ := h.parts p g0 hg0
        refine ⟨⟨b1.1, ?_⟩, ?_⟩
        · intro a ha
          rcases List.mem_append.1 ha with ha | ha
          · exact b1.2 a ha
          · simp only [List.mem_singleton] at ha
            subst ha
            exact ⟨v.dims, rfl⟩
        · intro n hn
          simp only [List.map_append, List.map_cons, List.map_nil, List.mem_append,
            List.mem_singleton] at hn ⊢
          rcases hn with hn | hn
          · exact .inl (b2 n hn)
          · exact .inr hn
      · intro g hi hg
        obtain ⟨b1, b2⟩ := h.immutable g hi hg
        refine ⟨b1, fun n hn => ?_⟩
        simp only [List.map_append, List.mem_append]
        exact .inl (b2 n hn)

omit [DecidableEq P] in
theorem drop_tidy {c : At.Coll P} (h : Tidy c) (name : String) :
    Tidy (At.dropVariable c name).1 := by
  unfold At.dropVariable
  split
  · exact h
  split
  · exact h
  split
  · exact h
  split
  · exact h
  · next himm =>
    have keep : ∀ n, n ∈ c.md.vars.map (·.name) → n ≠ name →
        n ∈ (c.md.vars.filter fun v => decide (v.name ≠ name)).map (·.name) := by
      intro n hn hne
      obtain ⟨v, hv, rfl⟩ := List.mem_map.1 hn
      exact List.mem_map_of_mem (List.mem_filter.2 ⟨hv, decide_eq_true hne⟩)
    refine ⟨?_, ?_, ?_⟩
    · exact (List.Sublist.map _ List.filter_sublist).nodup h.distinct
    · intro p g hg
      simp only [Option.map_eq_some_iff] at hg
      obtain ⟨g0, hg0, rfl⟩ := hg
      obtain ⟨b1, b2⟩ := h.parts p g0 hg0
      refine ⟨⟨b1.1, fun a ha => b1.2 a (List.mem_filter.1 ha).1⟩, ?_⟩
      intro n hn
      obtain ⟨a, ha, rfl⟩ := List.mem_map.1 hn
      obtain ⟨h1, h2⟩ := List.mem_filter.1 ha
      exact keep _ (b2 _ (List.mem_map_of_mem h1)) (of_decide_eq_true h2)
    · intro g hi hg
      obtain ⟨b1, b2⟩ := h.immutable g hi hg
      refine ⟨b1, fun n hn => keep n (b2 n hn) ?_⟩
      rintro rfl
      apply himm
      have hi' : c.imm = true := hi
      have hg' : c.immutable = some g := hg
      rw [hi', hg']
      simp only [At.holds, Bool.true_and]
      exact decide_eq_true hn

omit [DecidableEq P] in
theorem dictOf_name_mem (l acc : List Meta.Var) (n : String)
    (h : n ∈ acc.map (·.name) ∨ n ∈ l.map (·.name)) : n ∈ (Meta.dictOf acc l).map (·.name) := by
  induction l generalizing acc with
  | nil => simpa [Meta.dictOf] using h
  | cons v t ih =>
    unfold Meta.dictOf
    split
    · next hv =>
      apply ih
      have hmap : (acc.map fun w => if w.name = v.name then v else w).map (·.name) =
          acc.map (·.name) := by
        rw [List.map_map]
        apply List.map_congr_left
        intro w _
        simp only [Function.comp]
        split
        · next e => exact e.symm
        · rfl
      rw [hmap]
      rcases h with h | h
      · exact .inl h
      · rcases List.mem_cons.1 h with rfl | h
        · exact .inl hv
        · exact .inr h
    · apply ih
      rcases h with h | h
      · exact .inl (by simp [h])
      · rcases List.mem_cons.1 h with rfl | h
        · exact .inl (by simp)
        · exact .inr h

omit [DecidableEq P] in
theorem reopen_names (d : Meta.Ds) (n : String) (h : n ∈ d.vars.map (·.name)) :
    n ∈ (Meta.Ds.fromConfig d.getConfig).vars.map (·.name) := by
  apply dictOf_name_mem
  right
  simp only [Meta.Ds.getConfig, List.map_map]
  obtain ⟨v, hv, rfl⟩ := List.mem_map.1 h
  exact List.mem_map.2 ⟨v, (Sort.isort_perm _).mem_iff.2 hv, rfl⟩

omit [DecidableEq P] in
theorem reopen_tidy {c : At.Coll P} (h : Tidy c) : Tidy (At.reopen c) := by
  refine ⟨?_, ?_, ?_⟩
  · exact dictOf_names_nodup [] _ (by simp)
  · intro p g hg
    obtain ⟨b1, b2⟩ := h.parts p g hg
    exact ⟨b1, fun n hn => reopen_names _ n (b2 n hn)⟩
  · intro g hi hg
    obtain ⟨b1, b2⟩ := h.immutable g hi hg
    exact ⟨b1, fun n hn => reopen_names _ n (b2 n hn)⟩

theorem step_tidy {c : At.Coll P} (h : Tidy c) (op : At.Op P) (hop : ModestCall op) :
    Tidy (At.step c op) := by
  cases op with
  | insert validate m pieces ds =>
    refine insert_tidy h validate ?_ pieces ds
    rintro f rfl
    exact hop
  | add v => exact add_tidy h v
  | drop n => exact drop_tidy h n
  | dropPartitions l =>
    refine ⟨h.distinct, ?_, h.immutable⟩
    intro p g hg
    simp only [At.step, At.dropPartitions] at hg
    split at hg
    · cases hg
    · exact h.parts p g hg
  | reopen => exact reopen_tidy h

theorem run_tidy {c : At.Coll P} (h : Tidy c) (ops : List (At.Op P))
    (hops : ∀ op ∈ ops, ModestCall op) : Tidy (At.run c ops) := by
  induction ops generalizing c with
  | nil => exact h
  | cons op t ih =>
    exact ih (step_tidy h op (hops op (List.mem_cons_self ..)))
      fun o ho => hops o (List.mem_cons_of_mem _ ho)

end Verif
