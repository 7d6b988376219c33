import Verif.Model.Selection
import Verif.Model.View

/-!
C64: the selection of variables by name.

The methods that take names of variables return exactly the variables that are named, and all
variables without names.  This holds for lists that are not empty.  An empty list given to
`variables` or `to_dict` selects everything, an iterator loses names, and a string is searched
for substrings.
-/

namespace Verif

open Nd Ds Vr Sl

variable {V : Type}

/-- A string is one of the names that an argument gives; a string gives its characters. -/
def Spec.Given : Names → String → Prop
  | .seq l, n => n ∈ l
  | .once l, n => n ∈ l
  | .text s, n => ∃ c ∈ s.toList, n = String.singleton c

theorem given_elems (s : Names) (n : String) : n ∈ s.elems ↔ Spec.Given s n := by
  cases s with
  | seq l => exact Iff.rfl
  | once l => exact Iff.rfl
  | text s =>
    simp only [Names.elems, Spec.Given, List.mem_map]
    exact ⟨fun ⟨c, h, e⟩ => ⟨c, h, e.symm⟩, fun ⟨c, h, e⟩ => ⟨c, h, e.symm⟩⟩

/-- The variable is asked for: it is one of the names that the argument gives, or there is no
argument. -/
def Spec.Named (names : Option Names) (n : String) : Prop :=
  ∀ s, names = some s → Spec.Given s n

instance (names : Option Names) (n : String) : Decidable (Spec.Named names n) :=
  match names with
  | none => .isTrue fun _ h => (nomatch h)
  | some s => if h : n ∈ s.elems then .isTrue (by intro _ e; cases e; exact (given_elems _ _).1 h)
    else .isFalse fun g => h ((given_elems _ _).2 (g s rfl))

open Spec (Named Given)

/-- C64, in full. -/
def C64_full : Prop :=
  ∀ (V : Type) (names : Option Names),
    (∀ metas : List (VarMeta V), (metas.map (·.name)).Nodup →
      variables metas names = (metas.filter fun m => decide (Named names m.name)).map
        fun m => (m, List.replicate m.dims.length 0)) ∧
    (∀ (n : Num V) (ds : Dataset V), (ds.vars.map (·.name)).Nodup →
      Sl.toDict n names ds = (ds.vars.filter fun v => decide (Named names v.name)).map
        fun v => (v.name, valuesOf n v)) ∧
    (∀ partition immutable : List String,
      loadNames partition immutable names = (partition.filter fun n => decide (Named names n),
        immutable.filter fun n => decide (Named names n))) ∧
    ∀ reference view : List String,
      viewNames reference view names = (reference.filter fun n => decide (Named names n),
        view.filter fun n => decide (Named names n))

theorem keepIn_seq {α : Type} (key : α → String) (l : List String) (xs : List α) :
    keepIn key (.seq l) xs = xs.filter fun x => decide (key x ∈ l) := by
  induction xs with
  | nil => rfl
  | cons x t ih =>
    by_cases h : key x ∈ l
    · simp [keepIn, Names.test, h, ih]
    · simp [keepIn, Names.test, h, ih]

/-- The rest of an iterator is a part of it. -/
theorem afterFirst_subset (k : String) (l : List String) : ∀ x ∈ afterFirst k l, x ∈ l := by
  induction l with
  | nil => simp [afterFirst]
  | cons y t ih =>
    intro x hx
    simp only [afterFirst] at hx
    split at hx
    · exact List.mem_cons_of_mem _ hx
    · exact List.mem_cons_of_mem _ (ih x hx)

theorem afterFirst_suffix (k : String) (l : List String) : ∃ p, l = p ++ afterFirst k l := by
  induction l with
  | nil => exact ⟨[], rfl⟩
  | cons y t ih =>
    simp only [afterFirst]
    split
    · exact ⟨[y], rfl⟩
    · obtain ⟨p, hp⟩ := ih
      exact ⟨y :: p, by rw [List.cons_append, ← hp]⟩

theorem afterFirst_none (k : String) (l : List String) (h : k ∉ l) : afterFirst k l = [] := by
  induction l with
  | nil => rfl
  | cons y t ih =>
    simp only [List.mem_cons, not_or] at h
    simp [afterFirst, Ne.symm h.1, ih h.2]

theorem keepIn_once_cons {α : Type} (key : α → String) (l : List String) (x : α) (xs : List α) :
    keepIn key (.once l) (x :: xs) =
      if key x ∈ l then x :: keepIn key (.once (afterFirst (key x) l)) xs
      else keepIn key (.once (afterFirst (key x) l)) xs := by
  by_cases h : key x ∈ l
  · simp [keepIn, Names.test, h]
  · simp [keepIn, Names.test, h]

/-- An iterator returns no variable that it does not name. -/
theorem keepIn_once_sound {α : Type} (key : α → String) (l : List String) (xs : List α) :
    ∀ x ∈ keepIn key (.once l) xs, x ∈ xs ∧ key x ∈ l := by
  induction xs generalizing l with
  | nil => intro x hx; cases hx
  | cons y t ih =>
    intro x hx
    rw [keepIn_once_cons] at hx
    split at hx
    · next h =>
      rcases List.mem_cons.1 hx with rfl | hx
      · exact ⟨by simp, h⟩
      · have := ih _ x hx
        exact ⟨by simp [this.1], afterFirst_subset _ _ _ this.2⟩
    · have := ih _ x hx
      exact ⟨by simp [this.1], afterFirst_subset _ _ _ this.2⟩

theorem keepIn_nil {α : Type} (key : α → String) (xs : List α) :
    keepIn key (.once []) xs = [] := by
  induction xs with
  | nil => rfl
  | cons x t ih => simp [keepIn_once_cons, afterFirst, ih]

theorem afterFirst_sublist {k : String} {l r : List String} (h : (k :: r).Sublist l) :
    r.Sublist (afterFirst k l) := by
  induction l with
  | nil => cases h
  | cons y t ih =>
    simp only [afterFirst]
    split
    · next e => subst e; exact List.cons_sublist_cons.1 h
    · next e =>
      cases h with
      | cons _ h => exact ih h
      | cons_cons _ h => exact absurd rfl e

theorem sublist_of_afterFirst {k : String} {l r : List String} (hk : k ∈ l)
    (h : r.Sublist (afterFirst k l)) : (k :: r).Sublist l := by
  induction l with
  | nil => cases hk
  | cons y t ih =>
    simp only [afterFirst] at h
    split at h
    · next e => subst e; exact h.cons_cons _
    · next e =>
      rcases List.mem_cons.1 hk with rfl | hk
      · exact absurd rfl e
      · exact (ih hk h).cons _

/-- The variables that an iterator selects are the first ones. -/
theorem keepIn_once_prefix {α : Type} (key : α → String) (l : List String) (xs : List α) :
    ∃ k, keepIn key (.once l) xs = xs.take k ∧ ((xs.take k).map key).Sublist l := by
  induction xs generalizing l with
  | nil => exact ⟨0, rfl, List.nil_sublist _⟩
  | cons x t ih =>
    rw [keepIn_once_cons]
    by_cases h : key x ∈ l
    · obtain ⟨k, h1, h2⟩ := ih (afterFirst (key x) l)
      refine ⟨k + 1, by rw [if_pos h, h1]; rfl, ?_⟩
      rw [List.take_succ_cons, List.map_cons]
      exact sublist_of_afterFirst h h2
    · refine ⟨0, ?_, List.nil_sublist _⟩
      rw [if_neg h, afterFirst_none _ _ h, keepIn_nil]
      rfl

/-- Variables that an iterator names in their order are selected. -/
theorem keepIn_once_append {α : Type} (key : α → String) (l : List String) (xs ys : List α)
    (h : (xs.map key).Sublist l) :
    ∃ l', (∀ x ∈ l', x ∈ l) ∧ keepIn key (.once l) (xs ++ ys) = xs ++ keepIn key (.once l') ys := by
  induction xs generalizing l with
  | nil => exact ⟨l, fun _ h => h, rfl⟩
  | cons x t ih =>
    have hx : key x ∈ l := h.subset (by simp)
    obtain ⟨l', h1, h2⟩ := ih (afterFirst (key x) l) (afterFirst_sublist h)
    refine ⟨l', fun z hz => afterFirst_subset _ _ _ (h1 z hz), ?_⟩
    rw [List.cons_append, keepIn_once_cons, if_pos hx, h2, List.cons_append]

theorem keepIn_once_iff {α : Type} (key : α → String) (l : List String) (xs : List α)
    (hn : (xs.map key).Nodup) :
    keepIn key (.once l) xs = xs.filter (fun x => decide (key x ∈ l)) ↔
      ∃ k, ((xs.map key).take k).Sublist l ∧ ∀ n ∈ (xs.map key).drop k, n ∉ l := by
  constructor
  · intro h
    obtain ⟨k, h1, h2⟩ := keepIn_once_prefix key l xs
    refine ⟨k, by rw [← List.map_take]; exact h2, ?_⟩
    intro n hnm hl
    rw [← List.map_drop] at hnm
    obtain ⟨x, hx, rfl⟩ := List.mem_map.1 hnm
    have hf : x ∈ xs.filter fun x => decide (key x ∈ l) :=
      List.mem_filter.2 ⟨List.mem_of_mem_drop hx, by simpa using hl⟩
    rw [← h, h1] at hf
    rw [← List.take_append_drop k xs, List.map_append, List.nodup_append] at hn
    exact hn.2.2 _ (List.mem_map.2 ⟨x, hf, rfl⟩) _ (List.mem_map.2 ⟨x, hx, rfl⟩) rfl
  · rintro ⟨k, h1, h2⟩
    rw [← List.map_take] at h1
    rw [← List.map_drop] at h2
    obtain ⟨l', hl', he⟩ := keepIn_once_append key l (xs.take k) (xs.drop k) h1
    rw [List.take_append_drop] at he
    have h0 : keepIn key (.once l') (xs.drop k) = [] := by
      rw [List.eq_nil_iff_forall_not_mem]
      intro x hx
      obtain ⟨ha, hb⟩ := keepIn_once_sound key l' _ x hx
      exact h2 _ (List.mem_map.2 ⟨x, ha, rfl⟩) (hl' _ hb)
    rw [he, h0, List.append_nil]
    have : xs.filter (fun x => decide (key x ∈ l)) =
        (xs.take k ++ xs.drop k).filter (fun x => decide (key x ∈ l)) := by
      rw [List.take_append_drop]
    rw [this, List.filter_append]
    have ha : (xs.take k).filter (fun x => decide (key x ∈ l)) = xs.take k := by
      rw [List.filter_eq_self]
      intro x hx
      have := h1.subset (List.mem_map.2 ⟨x, hx, rfl⟩)
      simpa using this
    have hb : (xs.drop k).filter (fun x => decide (key x ∈ l)) = [] := by
      rw [List.filter_eq_nil_iff]
      intro x hx
      have := h2 _ (List.mem_map.2 ⟨x, hx, rfl⟩)
      simpa using this
    rw [ha, hb, List.append_nil]

theorem zeros (dims : List String) : dims.map (fun _ => 0) = List.replicate dims.length 0 := by
  induction dims with
  | nil => rfl
  | cons _ t ih => simp [List.replicate_succ, ih]

/-- Names as they are meant: no argument, or an object that can be iterated again and is not
empty. -/
def Spec.Plain (names : Option Names) : Prop := names = none ∨ ∃ x t, names = some (.seq (x :: t))

theorem keepIn_plain {α : Type} (key : α → String) (names : Option Names)
    (h : Spec.Plain names) (xs : List α) :
    keepIn key (orKeys names (xs.map key)) xs = xs.filter fun x => decide (Named names (key x)) := by
  rcases h with rfl | ⟨a, t, rfl⟩
  · have : ∀ x, Named none x := fun _ _ h => (nomatch h)
    rw [orKeys, keepIn_seq]
    apply List.filter_congr
    intro x hx
    have hm : key x ∈ xs.map key := List.mem_map.2 ⟨x, hx, rfl⟩
    simp only [hm, this]
  · have : ∀ x, Named (some (.seq (a :: t))) x ↔ x ∈ a :: t :=
      fun x => ⟨fun h => h _ rfl, fun h _ e => by cases e; exact h⟩
    have ho : orKeys (some (.seq (a :: t))) (xs.map key) = .seq (a :: t) := rfl
    rw [ho, keepIn_seq]
    simp only [this]

/-- C64, for lists that are not empty: `variables` returns the variables that are named, in the
order of the metadata, with their description and no element. -/
theorem C64_variables_partial (metas : List (VarMeta V)) (names : Option Names)
    (h : Spec.Plain names) :
    variables metas names = (metas.filter fun m => decide (Named names m.name)).map
      fun m => (m, List.replicate m.dims.length 0) := by
  rw [variables, keepIn_plain _ names h]
  simp only [zeros]

/-- C64, for lists that are not empty: `to_dict`. -/
theorem C64_to_dict_partial (n : Num V) (ds : Dataset V) (names : Option Names)
    (h : Spec.Plain names) :
    Sl.toDict n names ds = (ds.vars.filter fun v => decide (Named names v.name)).map
      fun v => (v.name, valuesOf n v) := by
  rw [Sl.toDict, keepIn_plain _ names h]

/-- C64: an empty list selects everything in `variables` and `to_dict`. -/
theorem C64_empty_counterexample (metas : List (VarMeta V)) (n : Num V) (ds : Dataset V) :
    variables metas (some (.seq [])) = variables metas none ∧
    Sl.toDict n (some (.seq [])) ds = Sl.toDict n none ds ∧
    (variables metas (some (.seq []))).length = metas.length ∧
    (Sl.toDict n (some (.seq [])) ds).length = ds.vars.length := by
  refine ⟨rfl, rfl, ?_, ?_⟩
  · have : variables metas (some (.seq [])) = variables metas none := rfl
    rw [this, C64_variables_partial metas none (.inl rfl), List.length_map]
    congr 1
    rw [List.filter_eq_self]
    intro m _
    exact decide_eq_true fun _ h => (nomatch h)
  · have : Sl.toDict n (some (.seq [])) ds = Sl.toDict n none ds := rfl
    rw [this, C64_to_dict_partial n ds none (.inl rfl), List.length_map]
    congr 1
    rw [List.filter_eq_self]
    intro m _
    exact decide_eq_true fun _ h => (nomatch h)

/-- C64, for an iterator: the answer is right if and only if the iterator names, in the order of
the metadata, some number of the first variables and none of the other ones. -/
theorem C64_iterator_iff (metas : List (VarMeta V)) (l : List String)
    (hn : (metas.map (·.name)).Nodup) :
    (variables metas (some (.once l))).map (·.1) =
        metas.filter (fun m => decide (Named (some (.once l)) m.name)) ↔
      ∃ k, ((metas.map (·.name)).take k).Sublist l ∧
        ∀ n ∈ (metas.map (·.name)).drop k, n ∉ l := by
  have : ∀ x, Named (some (.once l)) x ↔ x ∈ l :=
    fun x => ⟨fun h => h _ rfl, fun h _ e => by cases e; exact h⟩
  rw [← keepIn_once_iff (fun m : VarMeta V => m.name) l metas hn]
  simp only [this]
  have : (variables metas (some (.once l))).map (·.1) = keepIn (·.name) (.once l) metas := by
    simp only [variables, List.map_map]
    exact List.map_id _
  rw [this]

/-- C64: what an iterator selects is named by it, and `variables` returns the first variables
only: nothing at all if the first one is not named. -/
theorem C64_iterator (metas : List (VarMeta V)) (l : List String) :
    (∀ v ∈ variables metas (some (.once l)), v.1.name ∈ l) ∧
    (∃ k, (variables metas (some (.once l))).map (·.1) = metas.take k) ∧
    ∀ m t, metas = m :: t → m.name ∉ l → variables metas (some (.once l)) = [] := by
  refine ⟨?_, ?_, ?_⟩
  · intro v hv
    obtain ⟨m, hm, rfl⟩ := List.mem_map.1 hv
    exact (keepIn_once_sound _ _ _ m hm).2
  · obtain ⟨k, h, _⟩ := keepIn_once_prefix (fun m : VarMeta V => m.name) l metas
    refine ⟨k, ?_⟩
    simp only [variables, List.map_map]
    exact (List.map_id _).trans h
  · rintro m t rfl hm
    have : variables (m :: t) (some (.once l)) =
        (keepIn (·.name) (.once l) (m :: t)).map fun m => (m, m.dims.map fun _ => 0) := rfl
    rw [this, keepIn_once_cons, if_neg hm, afterFirst_none _ _ hm, keepIn_nil]
    rfl

theorem chosen_none (l : List String) : (l.filter fun n => decide (Named none n)) = l := by
  rw [List.filter_eq_self]
  intro n _
  exact decide_eq_true fun _ h => (nomatch h)

theorem chosen_some (s : Names) (l : List String) :
    (l.filter fun n => decide (Named (some s) n)) = l.filter fun n => decide (n ∈ s.elems) := by
  apply List.filter_congr
  intro n _
  rw [decide_eq_decide]
  exact ⟨fun h => (given_elems _ _).2 (h _ rfl),
    fun h _ e => by cases e; exact (given_elems _ _).1 h⟩

/-- C64: the names read from the partitions and the metadata are those that are chosen, for every
argument. -/
theorem C64_first_read (reference view : List String) (names : Option Names) :
    (viewNames reference view names).1 = (reference.filter fun n => decide (Named names n)) ∧
    (loadNames reference view names).1 = (reference.filter fun n => decide (Named names n)) := by
  cases names with
  | none => rw [chosen_none]; exact ⟨rfl, rfl⟩
  | some s => rw [chosen_some]; cases s <;> exact ⟨rfl, rfl⟩

/-- C64: the variables of the view and the immutable variables, which are read with the argument
that was used before: those that are chosen, unless the argument is an iterator. -/
theorem C64_second_read_partial (reference view : List String) (names : Option Names)
    (h : ∀ l, names ≠ some (.once l)) :
    (viewNames reference view names).2 = (view.filter fun n => decide (Named names n)) ∧
    (loadNames reference view names).2 = (view.filter fun n => decide (Named names n)) := by
  cases names with
  | none => rw [chosen_none]; exact ⟨rfl, rfl⟩
  | some s =>
    rw [chosen_some]
    cases s with
    | once l => exact absurd rfl (h l)
    | seq l => exact ⟨rfl, rfl⟩
    | text s => exact ⟨rfl, rfl⟩

/-- C64: with an iterator, a view returns none of its own variables, and a partition none of the
immutable variables. -/
theorem C64_second_read_counterexample (reference view l : List String) :
    (viewNames reference view (some (.once l))).2 = [] ∧
    (loadNames reference view (some (.once l))).2 = [] := by
  simp [viewNames, loadNames, opened, selectVariables, Names.consume]

/-- The selection of names that the model of views uses is that of the code. -/
theorem C64_view_names (metas : List (VarMeta V)) (sel : Option (List String)) :
    Vw.selectNames metas sel =
      (selectVariables (metas.map (·.name)) (sel.map .seq) none).1 := by
  cases sel with
  | none => simp [Vw.selectNames, selectVariables]
  | some l => rfl

/-- C64: `select_variables` keeps the names that are kept and not dropped. -/
theorem C64_select_variables (all : List String) (keep drop : Option Names) (n : String) :
    n ∈ (selectVariables all keep drop).1 ↔
      n ∈ all ∧ Named keep n ∧ ∀ d, drop = some d → ¬ Given d n := by
  have ck : ∀ s : Names, s.consume.1 = s.elems := by intro s; cases s <;> rfl
  cases keep with
  | none =>
    have : Named none n := fun _ h => (nomatch h)
    cases drop with
    | none => simp [selectVariables, this]
    | some d => simp [selectVariables, this, ck, ← given_elems]
  | some k =>
    have : Named (some k) n ↔ n ∈ k.elems :=
      ⟨fun h => (given_elems _ _).2 (h _ rfl),
        fun h _ e => by cases e; exact (given_elems _ _).1 h⟩
    cases drop with
    | none => simp [selectVariables, this, ck]
    | some d => simp [selectVariables, this, ck, ← given_elems]; grind

/-! ### Cases -/

namespace SelCase

def metas : List (VarMeta Nat) := [⟨"a", ["x"], none, 0⟩, ⟨"ab", ["x", "y"], some 0, 1⟩]

end SelCase

/-- A list. -/
example : variables SelCase.metas (some (.seq ["ab", "z"])) =
    [(⟨"ab", ["x", "y"], some 0, 1⟩, [0, 0])] := by
  rw [C64_variables_partial _ _ (.inr ⟨_, _, rfl⟩)]
  rfl

/-- An iterator over the second name only selects nothing. -/
example : variables SelCase.metas (some (.once ["ab"])) = [] :=
  (C64_iterator SelCase.metas ["ab"]).2.2 _ _ rfl (by decide +kernel)

theorem isPart_iff (k s : List Char) : isPart k s = true ↔ k <:+: s := by
  induction s with
  | nil => simp [isPart]
  | cons c t ih =>
    rw [isPart, Bool.or_eq_true, List.isPrefixOf_iff_prefix, ih, List.infix_cons_iff]

theorem keepIn_text {α : Type} (key : α → String) (t : String) (l : List α) :
    keepIn key (.text t) l = l.filter fun x => isPart (key x).toList t.toList := by
  induction l with
  | nil => rfl
  | cons x xs ih =>
    simp only [keepIn, Names.test]
    cases h : isPart (key x).toList t.toList <;> simp [h, ih]

/-- C64: what a string given as the names selects, unless it is empty: the variables whose name
occurs somewhere in it. -/
theorem C64_text (metas : List (VarMeta V)) (t : String) (ht : t ≠ "") (m : VarMeta V)
    (z : List Nat) :
    (m, z) ∈ variables metas (some (.text t)) ↔
      m ∈ metas ∧ z = List.replicate m.dims.length 0 ∧
        ∃ a b, t.toList = a ++ m.name.toList ++ b := by
  have ho : orKeys (some (.text t)) (metas.map (·.name)) = .text t := by
    have : (Names.text t).truthy = true := by
      simp only [Names.truthy, Bool.not_eq_true', List.isEmpty_eq_false_iff]
      intro h
      exact ht (String.toList_inj.1 (by rw [h]; rfl))
    simp only [orKeys, this, if_true]
  rw [variables, ho, keepIn_text, List.mem_map]
  constructor
  · rintro ⟨x, hx, he⟩
    cases he
    obtain ⟨h1, h2⟩ := List.mem_filter.1 hx
    obtain ⟨a, b, h⟩ := (isPart_iff _ _).1 h2
    exact ⟨h1, zeros _, a, b, h.symm⟩
  · rintro ⟨h1, rfl, a, b, h⟩
    refine ⟨m, List.mem_filter.2 ⟨h1, (isPart_iff _ _).2 ⟨a, b, h.symm⟩⟩, ?_⟩
    rw [zeros]

/-- A string is searched for the names: both are found in `ab`. -/
theorem C64_text_counterexample :
    (variables SelCase.metas (some (.text "ab"))).map (·.1.name) = ["a", "ab"] := by
  decide +kernel

/-- The second name is found inside the string. -/
example (m : VarMeta Nat) (hm : m ∈ SelCase.metas) (hn : m.name = "ab") :
    (m, List.replicate m.dims.length 0) ∈ variables SelCase.metas (some (.text "xaby")) :=
  (C64_text _ _ (by decide +kernel) m _).2 ⟨hm, rfl, ['x'], ['y'], by rw [hn]; rfl⟩

theorem C64_counterexample : ¬ C64_full := by
  intro h
  have h1 := (h Nat (some (.seq []))).1 SelCase.metas (by decide +kernel)
  have h2 := (C64_empty_counterexample SelCase.metas natNum' ⟨[], [], [], [], 0, false⟩).2.2.1
  rw [h1] at h2
  revert h2
  decide +kernel
where natNum' : Num Nat := ⟨fun a b => decide (a = b), fun _ => 0⟩

end Verif
