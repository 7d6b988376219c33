import Verif.Props.SharingVars

/-!
C76: what datasets share shows (counterexamples), and cases of the hypotheses of the theorems.
-/

namespace Verif

open Nd Sh Spec

namespace SharingCase

/-- `numpy.array([n, n + 1, n + 2])` -/
def arr (n : Nat) : Arr Nat where
  shape := [3]
  get
    | [i] => if i < 3 then some (n + i) else none
    | _ => none

def given (name : String) (hand : Nat) (fill : Option Nat) : Given Nat where
  name := name
  delayed := false
  dims := ["t"]
  hand := hand
  fill := fill
  attrs := 0

def lazy (name : String) (hand : Nat) : Given Nat where
  name := name
  delayed := true
  dims := ["t"]
  hand := hand
  fill := none
  attrs := 0

/-- Two datasets: `x` without a fill value and `y` with the fill value 8 in the first, `z` in the
second, on arrays that the program holds; and a delayed one. -/
def start : Heap Nat :=
  run empty
    [ .array (arr 7), .array (arr 17), .array (arr 27),
      .dataset [given "x" 0 none, given "y" 1 (some 8)] [] [] 0 none,
      .dataset [given "z" 2 none] [] [("t", 2)] 0 none,
      .dataset [lazy "w" 2] [] [] 0 none ]

theorem start_made : Made start := ⟨_, rfl⟩

/-- The first element of a variable. -/
def first (h : Heap Nat) (d : Nat) (name : String) : Option Nat :=
  (look h d name).bind fun x => x.array.get [0]

/-- What follows `see` for a comparison: the elements of the variables and the chunks. -/
theorem first_of_see {h h' : Heap Nat} {d : Nat} (e : h'.see d = h.see d) (name : String) :
    first h' d name = first h d name := by
  simp only [first, look, e]

def sliceCall : Call Nat := .isel 0 [("t", .slice ⟨some 1, none, none⟩)]

/-- `ds.isel({"t": slice(1, None)})["x"].values[0] = 5` -/
def sliceWrite : List (Call Nat) := [.values 3 "x", .write 3 [0] 5]

end SharingCase

open SharingCase

/-- A slice is on the memory of its source: the second element of the source changes. -/
theorem C76_counterexample : ¬ C76_full := by
  intro hf
  have e : step start sliceCall = ((step start sliceCall).1, .ok (.ds 3)) := rfl
  have h1 := (hf start start_made sliceCall _ 3 e (by decide) sliceWrite).1 0 (by decide) (by
    intro c hc
    rcases List.mem_cons.1 hc with rfl | hc
    · exact ⟨fun n hn => .inl (List.mem_singleton.1 hn), nofun⟩
    · obtain rfl := List.mem_singleton.1 hc
      exact ⟨nofun, fun k hk => .inr (by rw [List.mem_singleton.1 hk]; decide)⟩)
  have h2 : (look (run (step start sliceCall).1 sliceWrite) 0 "x").bind
      (fun x => x.array.get [1]) = (look start 0 "x").bind fun x => x.array.get [1] := by
    simp only [look, h1]
  exact absurd h2 (by decide +kernel)

/-- A selection of variables: `ds.select_vars(["y"])["y"].fill()` changes the dataset. -/
theorem C76_select_counterexample :
    ¬ ∀ (h : Heap Nat), Made h → ∀ d names h' n,
        step h (.selectVars d names) = (h', .ok (.ds n)) →
        ∀ name, (run h' [.fill n name]).see d = h.see d := by
  intro hf
  have h1 := hf start start_made 0 ["y"] (step start (.selectVars 0 ["y"])).1 3 rfl "y"
  exact absurd (first_of_see h1 "y") (by decide +kernel)

/-- A merge: a change of the other dataset afterwards changes the merged one. -/
theorem C76_merge_counterexample :
    ¬ ∀ (h : Heap Nat), Made h → ∀ d o h', step h (.merge d o) = (h', .ok .unit) → d ≠ o →
        ∀ name k, (run h' [.assign o name k]).see d = h'.see d := by
  intro hf
  have h1 := hf start start_made 0 1 (step start (.merge 0 1)).1 rfl (by decide) "z" 0
  exact absurd (first_of_see h1 "z") (by decide +kernel)

/-- `copy_properties` makes two datasets have one dictionary of chunks. -/
theorem C76_chunks_counterexample :
    ¬ ∀ (h : Heap Nat), Made h → ∀ d o h', step h (.copyProperties d o) = (h', .ok .unit) →
        d ≠ o → ∀ dim n, (run h' [.setChunk d dim n]).see o = h.see o := by
  intro hf
  have h1 := hf start start_made 0 1 (step start (.copyProperties 0 1)).1 rfl (by decide) "t" 9
  exact absurd (congrArg (fun x => x.map (·.chunks)) h1) (by decide +kernel)

/-- `Array(name, array, ...)` keeps the array of the program. -/
theorem C76_array_counterexample :
    ¬ ∀ (h : Heap Nat), Made h → ∀ d k idx v, (run h [.write k idx v]).see d = h.see d := by
  intro hf
  exact absurd (first_of_see (hf start start_made 0 0 [0] 5) "x") (by decide +kernel)

/-! ### Cases -/

namespace SharingCase

/-- `C76_copies_partial`: a pickle of the first dataset, written in place, and a program that
goes on with the first. -/
example : ∃ h' n, step start (.pickle 0) = (h', .ok (.ds n)) ∧ start.sets.length ≤ n ∧
    Copies (.pickle 0 : Call Nat) ∧
    NamesOnly h' (· = n) (fun _ => False) [.values n "x", .write 3 [0] 5, .fill n "y"] ∧
    first (run h' [.values n "x", .write 3 [0] 5, .fill n "y"]) n "x" = some 5 ∧
    first (run h' [.values n "x", .write 3 [0] 5, .fill n "y"]) 0 "x" = some 7 :=
  ⟨(step start (.pickle 0)).1, 3, rfl, by decide, trivial, by
    intro c hc
    simp only [List.mem_cons, List.not_mem_nil, or_false] at hc
    rcases hc with rfl | rfl | rfl
    · exact ⟨fun n hn => .inl (List.mem_singleton.1 hn), nofun⟩
    · exact ⟨nofun, fun k hk => .inr (by rw [List.mem_singleton.1 hk]; decide)⟩
    · exact ⟨fun n hn => .inl (List.mem_singleton.1 hn), nofun⟩,
    by decide +kernel, by decide +kernel⟩

/-- `C76_slices_partial`: a slice of the first dataset, whose variables are filled. -/
example : ∃ h' n, step start sliceCall = (h', .ok (.ds n)) ∧ start.sets.length ≤ n ∧
    Remakes sliceCall ∧ NamesOnly h' (· = n) (fun _ => True) [.fill n "y"] ∧
    (∀ c ∈ [(.fill n "y" : Call Nat)], ¬ InPlace c) ∧
    first (run h' [.fill n "y"]) n "y" = some 8 ∧
    first (run h' [.fill n "y"]) 0 "y" = some 17 :=
  ⟨(step start sliceCall).1, 3, rfl, by decide, trivial, by
    intro c hc
    obtain rfl := List.mem_singleton.1 hc
    exact ⟨fun n hn => .inl (List.mem_singleton.1 hn), nofun⟩, by
    intro c hc
    obtain rfl := List.mem_singleton.1 hc
    exact id, by decide +kernel, by decide +kernel⟩

/-- `C76_frame`, `C76_rebinding`: the second dataset and the first have nothing in common. -/
example : Unshared start 1 0 ∧ Separate start 1 0 ∧ 0 < start.sets.length ∧ UnsharedHand start 2 0 := by
  have s0 : (start.sets[0]?).map (fun D => (D.vars, D.chunks)) = some ([("x", 0), ("y", 1)], 0) := by
    decide +kernel
  have s1 : (start.sets[1]?).map (fun D => (D.vars, D.chunks)) = some ([("z", 2)], 1) := by
    decide +kernel
  have hv : ∀ r, HasVar start 0 r → r = 0 ∨ r = 1 := by
    rintro r ⟨D, name, e, hp⟩
    rw [e] at s0
    injection s0 with s0
    rw [(Prod.mk.inj s0).1] at hp
    simp only [List.mem_cons, List.not_mem_nil, or_false, Prod.mk.injEq] at hp
    rcases hp with hp | hp
    · exact .inl hp.2
    · exact .inr hp.2
  have hv' : ∀ r, HasVar start 1 r → r = 2 := by
    rintro r ⟨D, name, e, hp⟩
    rw [e] at s1
    injection s1 with s1
    rw [(Prod.mk.inj s1).1] at hp
    exact (Prod.mk.inj (List.mem_singleton.1 hp)).2
  have hb : ∀ b, HasBuf start 0 b → b = 0 ∨ b = 1 := by
    rintro b ⟨r, o, hr, ho, e⟩
    rcases hv r hr with rfl | rfl
    · cases ho; exact .inl e.symm
    · cases ho; exact .inr e.symm
  have hb' : ∀ b, HasBuf start 1 b → b = 2 := by
    rintro b ⟨r, o, hr, ho, e⟩
    obtain rfl := hv' r hr
    cases ho
    exact e.symm
  have sep : Separate start 1 0 := by
    constructor
    · intro r h1 h2
      have := hv' r h1
      rcases hv r h2 with h3 | h3 <;> omega
    · rintro c ⟨D, e, h1⟩ ⟨E, e', h2⟩
      rw [e] at s1
      rw [e'] at s0
      injection s0 with s0
      injection s1 with s1
      have k1 := (Prod.mk.inj s0).2
      have k2 := (Prod.mk.inj s1).2
      omega
  refine ⟨⟨sep, ?_⟩, sep, by decide, ?_⟩
  · intro b h1 h2
    have := hb' b h1
    rcases hb b h2 with h3 | h3 <;> omega
  · intro a ha h1
    cases ha
    rcases hb _ h1 with h3 | h3 <;> cases h3

/-- `C76_shared`: a selection, and an assignment through the dataset it comes from. -/
example : SharedVar (step start (.selectVars 0 ["y"])).1 0 3 "y" ∧
    (∀ c ∈ [(.assign 0 "y" 2 : Call Nat)], ¬ Replaces 0 c ∧ ¬ Replaces 3 c) ∧
    first (run (step start (.selectVars 0 ["y"])).1 [.assign 0 "y" 2]) 3 "y" = some 27 :=
  ⟨C76_select_vars start_made (n := 3) (names := ["y"]) rfl "y" (by decide), by
    intro c hc
    obtain rfl := List.mem_singleton.1 hc
    exact ⟨id, id⟩, by decide +kernel⟩

example : ∃ h', step start (.byDims 0 ["t"] true) = (h', .ok (.ds 3)) ∧
    (look h' 3 "x").isSome := ⟨_, rfl, by decide +kernel⟩

example : ∃ h', step start (.merge 0 1) = (h', .ok .unit) ∧ (look start 1 "z").isSome :=
  ⟨_, rfl, by decide +kernel⟩

/-- `C76_write`: the first element of the slice is the second of the source. -/
example : ∃ x h1 h2 h3, look start 0 "x" = some x ∧ x.fill = none ∧ x.delayed = false ∧
    x.dims ≠ [] ∧ step start sliceCall = (h1, .ok (.ds 3)) ∧
    step h1 (.values 3 "x") = (h2, .ok (.hand 3)) ∧
    step h2 (.write 3 [0] 5) = (h3, .ok .unit) ∧
    ((look h3 0 "x").bind fun y => y.array.get [1]) = some 5 ∧
    ((look h3 0 "x").bind fun y => y.array.get [0]) = some 7 :=
  ⟨_, (step start sliceCall).1, (step (step start sliceCall).1 (.values 3 "x")).1,
   (step (step (step start sliceCall).1 (.values 3 "x")).1 (.write 3 [0] 5)).1,
   rfl, rfl, rfl, by decide, rfl, rfl, rfl, by decide +kernel, by decide +kernel⟩

/-- `C76_values_copy`: a variable with a fill value, and a delayed one. -/
example : ∃ x y h1 h2, look start 0 "y" = some x ∧ x.fill ≠ none ∧
    step start (.values 0 "y") = (h1, .ok (.hand 3)) ∧ look start 2 "w" = some y ∧
    y.delayed = true ∧ step start (.values 2 "w") = (h2, .ok (.hand 3)) :=
  ⟨_, _, _, _, rfl, nofun, rfl, rfl, rfl, rfl⟩

/-- With a fill value `values` is a copy: the source does not change. -/
example : first (run start [.values 0 "y", .write 3 [0] 5]) 0 "y" = some 17 := by decide +kernel

/-- The delayed dataset holds a copy of the array of the program. -/
example : first (run start [.write 2 [0] 5]) 1 "z" = some 5 ∧
    first (run start [.write 2 [0] 5]) 2 "w" = some 27 := by decide +kernel

end SharingCase

end Verif
