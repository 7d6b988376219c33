import Verif.Spec.Item
import Verif.Props.Variable

/-! C59: the values that indexing a variable gives, and C43: integers in `isel`. -/

namespace Verif

open Spec Nd Ds Vr

variable {V : Type}

theorem positions_ok {n : Nat} {s : Slice} (h : s.step ≠ some 0) : ∃ p, positions n s = .ok p := by
  obtain ⟨start, stop, step⟩ := s
  cases step with
  | none => exact ⟨_, by simp only [positions]; rfl⟩
  | some k =>
    have hk : k ≠ 0 := fun hk => h (by rw [hk])
    exact ⟨_, by simp only [positions, if_neg hk]; rfl⟩

theorem indexPositions_one {n : Nat} {i : Int} (h1 : -(n : Int) ≤ i) (h2 : i < n) :
    ∃ p, indexPositions n [i] = .ok [p] ∧ p < n ∧ (i = (p : Int) ∨ i = (p : Int) - (n : Int)) := by
  refine ⟨(if i < 0 then i + n else i).toNat, ?_, ?_, ?_⟩
  · simp [indexPositions, h1, h2, bind, Except.bind]
  · split <;> omega
  · split <;> omega

theorem indexPositions_bad {n : Nat} {i : Int} (h : ¬ (-(n : Int) ≤ i ∧ i < n)) :
    indexPositions n [i] = .error .indexError := by
  simp only [indexPositions, bind, Except.bind, h, if_false]

/-- Indexing from an axis on: the axes before are kept. -/
theorem getitem_from (key : List Ix) (pre shape : List Nat) (a : Arr V)
    (hs : a.shape = pre ++ shape) (h : Allowed key shape) :
    ∃ b rest, getitem pre.length key a = .ok b ∧ b.shape = pre ++ rest ∧
      ∀ i j src, i.length = pre.length → Designates key shape j src →
        b.get (i ++ j) = a.get (i ++ src) := by
  induction h generalizing pre with
  | done shape =>
    refine ⟨a, shape, rfl, hs, ?_⟩
    intro i j src _ hd
    cases hd
    rfl
  | int x n key shape h1 h2 _ ih =>
    obtain ⟨b, rest, e1, e2, e3⟩ := ih (pre ++ [n]) (by simp [hs])
    rw [List.length_append, List.length_singleton] at e1
    obtain ⟨p, p1, p2, p3⟩ := indexPositions_one h1 h2
    have hax : b.shape[pre.length]? = some n := by
      rw [e2]
      simp
    refine ⟨dropAxis pre.length p b, rest, ?_, ?_, ?_⟩
    · simp only [getitem, e1, bind, Except.bind, selAxis, hax, p1]
    · simp [dropAxis, e2, List.eraseIdx_append_of_length_le]
    · intro i j src hi hd
      cases hd with
      | int _ _ q _ _ _ src hq1 hq2 hd =>
        have : q = p := by omega
        subst this
        have := e3 (i ++ [q]) j src (by simp [hi]) hd
        simp only [List.append_assoc, List.singleton_append] at this
        rw [← this]
        simp [dropAxis, ← hi]
  | slice s n key shape h1 _ ih =>
    obtain ⟨b, rest, e1, e2, e3⟩ := ih (pre ++ [n]) (by simp [hs])
    rw [List.length_append, List.length_singleton] at e1
    obtain ⟨pos, hp⟩ := positions_ok (n := n) h1
    have hax : b.shape[pre.length]? = some n := by
      rw [e2]
      simp
    refine ⟨takeAxis pre.length pos b, pos.length :: rest, ?_, ?_, ?_⟩
    · simp only [getitem, e1, bind, Except.bind, selAxis, hax, hp]
    · simp [takeAxis, e2]
    · intro i j src hi hd
      cases hd with
      | slice _ _ x q pos' _ _ j src hq1 hq2 hd =>
        rw [hp] at hq1
        cases hq1
        have := e3 (i ++ [q]) j src (by simp [hi]) hd
        simp only [List.append_assoc, List.singleton_append] at this
        rw [← this]
        simp [takeAxis, ← hi, hq2]

/-- C59: indexing a variable by integers and slices, with as many as there are axes or fewer:
the result is returned, and each of its elements is the element of the values that the key
designates, missing where it is missing. -/
theorem C59_item_values (n : Num V) (v : Var V) (key : List Ix) (h : Allowed key v.array.shape) :
    ∃ r, item n v key = .ok r ∧ ∀ j src, Designates key v.array.shape j src →
      r.get j = (valuesOf n v).get src := by
  obtain ⟨b, rest, h1, _, h3⟩ := getitem_from key [] v.array.shape (valuesOf n v) rfl h
  exact ⟨b, by rw [C59_item]; exact h1, fun j src hd => h3 [] j src rfl hd⟩

/-- C59: an integer out of the bounds of its axis raises `IndexError`, if what follows it in
the key is allowed. -/
theorem C59_item_bounds (n : Num V) (v : Var V) (i : Int) (key : List Ix) (m : Nat)
    (shape : List Nat) (hs : v.array.shape = m :: shape) (hk : Allowed key shape)
    (hi : ¬ (-(m : Int) ≤ i ∧ i < m)) : item n v (.int i :: key) = .error .indexError := by
  rw [C59_item]
  obtain ⟨b, rest, h1, h2, _⟩ := getitem_from key [m] shape (valuesOf n v) hs hk
  have hax : b.shape[0]? = some m := by rw [h2]; rfl
  rw [List.length_singleton] at h1
  simp only [getitem, h1, bind, Except.bind, selAxis, hax, indexPositions_bad hi]

/-- A matrix of two rows and three columns: the element (i, j) is `10 i + j`, and 12 is
missing. -/
def itemCase : Var Nat :=
  ⟨"v", false, ["x", "y"],
    tabulate [2, 3] fun l => match l with | [i, j] => 10 * i + j | _ => 0, some 12, 0⟩

/-- The last row, from its second column on: 11, then a missing value. -/
example : ∃ r, item natNum itemCase [.int (-1), .slice ⟨some 1, none, none⟩] = .ok r ∧
    r.get [0] = some (some 11) ∧ r.get [1] = some none := by
  obtain ⟨r, h1, h2⟩ := C59_item_values natNum itemCase [.int (-1), .slice ⟨some 1, none, none⟩]
    (.int _ _ _ _ (by decide) (by decide) (.slice _ _ _ _ (by decide) (.done _)))
  refine ⟨r, h1, ?_, ?_⟩
  · exact (h2 [0] [1, 1] (.int _ _ 1 _ _ _ _ (by decide) (by decide)
      (.slice _ _ 0 1 [1, 2] _ _ _ _ (by decide) rfl (.done _ _)))).trans rfl
  · exact (h2 [1] [1, 2] (.int _ _ 1 _ _ _ _ (by decide) (by decide)
      (.slice _ _ 1 2 [1, 2] _ _ _ _ (by decide) rfl (.done _ _)))).trans rfl

example : item natNum itemCase [.int 2] = .error .indexError :=
  C59_item_bounds natNum itemCase 2 [] 2 [3] rfl (.done _) (by decide)

/-- Each integer of the key removes an axis. -/
theorem getitem_length (key : List Ix) (ax : Nat) (a b : Arr V) (h : getitem ax key a = .ok b) :
    b.shape.length ≤ a.shape.length ∧
      ((∃ i, Ix.int i ∈ key) → b.shape.length < a.shape.length) := by
  induction key generalizing ax b with
  | nil =>
    simp only [getitem] at h
    cases h
    exact ⟨Nat.le_refl _, fun ⟨i, hi⟩ => (nomatch hi)⟩
  | cons x t ih =>
    simp only [getitem, bind, Except.bind] at h
    split at h
    · cases h
    · next c hc =>
      obtain ⟨h1, h2⟩ := ih (ax + 1) c hc
      simp only [selAxis] at h
      split at h
      · cases h
      · next n hn =>
        have hlt : ax < c.shape.length := (List.getElem?_eq_some_iff.1 hn).1
        cases x with
        | int i =>
          simp only [bind, Except.bind] at h
          split at h
          · cases h
          · split at h
            · cases h
              have : (c.shape.eraseIdx ax).length = c.shape.length - 1 :=
                List.length_eraseIdx_of_lt hlt
              exact ⟨by simp only [dropAxis]; omega, fun _ => by simp only [dropAxis]; omega⟩
            · cases h
        | slice s =>
          simp only [bind, Except.bind] at h
          split at h
          · cases h
          · cases h
            simp only [takeAxis, List.length_set]
            refine ⟨h1, fun ⟨i, hi⟩ => h2 ⟨i, ?_⟩⟩
            rcases List.mem_cons.1 hi with hi | hi
            · cases hi
            · exact hi

/-- C43: `isel` of a dataset takes slices only.  An integer for a dimension that a variable has
makes it raise, whatever the integer, since the dimensions of the variable are not those of the
indexed array. -/
theorem C43_isel_integer (ds : Dataset V) (hc : Consistent ds)
    (hr : ∀ v ∈ ds.vars, v.array.shape.length = v.dims.length) (slices : List (String × Ix))
    (d : String) (i : Int) (hd : slices.lookup d = some (.int i)) (v : Var V) (hv : v ∈ ds.vars)
    (hvd : d ∈ v.dims) : ∃ e, isel ds slices = .error e := by
  cases h : isel ds slices with
  | error e => exact ⟨e, rfl⟩
  | ok ds' =>
    exfalso
    unfold isel at h
    split at h
    · cases h
    simp only [bind, Except.bind] at h
    split at h
    · cases h
    · next vars hvars =>
      have hname : ∀ (x y : Var V), x.isel (x.dims.map (sliceOf slices)) = .ok y →
          y.name = x.name ∧ y.dims = x.dims ∧
          getitem 0 (x.dims.map (sliceOf slices)) x.array = .ok y.array := by
        intro x y hxy
        simp only [Var.isel, bind, Except.bind] at hxy
        split at hxy
        · cases hxy
        · next a ha =>
          cases hxy
          exact ⟨rfl, rfl, ha⟩
      obtain ⟨hl, hget⟩ := mapPy_spec _ _ _ hvars
      have hnames : vars.map (·.name) = ds.vars.map (·.name) := by
        apply List.ext_getElem?
        intro j
        rw [List.getElem?_map, List.getElem?_map]
        cases hj : ds.vars[j]? with
        | none =>
          have : vars[j]? = none := by
            rw [List.getElem?_eq_none_iff] at hj ⊢
            omega
          rw [this]
        | some x =>
          obtain ⟨y, hy, hxy⟩ := hget j x hj
          rw [hy]
          exact congrArg some (hname x y hxy).1
      obtain ⟨c1, c2, _⟩ := mk_spec _ _ _ _ _ _ h
      rw [foldl_setVar_id vars [] (by simpa [hnames] using hc.names), List.nil_append] at c2
      obtain ⟨j, hj⟩ := List.getElem?_of_mem hv
      obtain ⟨y, hy, hxy⟩ := hget j v hj
      obtain ⟨_, y2, y3⟩ := hname v y hxy
      have hlt := (getitem_length _ _ _ _ y3).2 ⟨i, by
        refine List.mem_map.2 ⟨d, hvd, ?_⟩
        simp only [sliceOf, hd]⟩
      rw [hr v hv, ← y2] at hlt
      obtain ⟨n, hn, _⟩ := c1.sizes y (by rw [c2]; exact List.mem_of_getElem? hy)
        y.array.shape.length (y.dims[y.array.shape.length]'hlt) (List.getElem?_eq_getElem hlt)
      simp at hn

/-- A dataset with this matrix. -/
def itemDs : Dataset Nat :=
  { dims := [("x", 2), ("y", 3)], vars := [itemCase], attrs := [], chunks := [], limit := 0,
    delayed := false }

/-- The first row of the matrix cannot be taken with `isel`; the theorem applies. -/
example : isel itemDs [("x", .int 0)] = .error .valueError ∧
    ∃ e, isel itemDs [("x", .int 0)] = .error e :=
  ⟨rfl, C43_isel_integer itemDs
    ⟨by decide, by decide, fun v hv => by cases List.mem_singleton.1 hv; rfl, fun v hv => by
      cases List.mem_singleton.1 hv
      intro i d hd
      match i with
      | 0 => cases hd; exact ⟨2, rfl, rfl⟩
      | 1 => cases hd; exact ⟨3, rfl, rfl⟩
      | i + 2 => cases hd⟩
    (fun v hv => by cases List.mem_singleton.1 hv; rfl) _ "x" 0 rfl itemCase
    (by simp [itemDs]) (by decide)⟩

end Verif
