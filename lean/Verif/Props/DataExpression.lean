import Verif.Lemmas.Broadcast

/-! C70: the expressions on the variables of a dataset. -/

namespace Verif

open Spec Nd Ds Dx

variable {V : Type}

/-- C70, as a user reads it: an expression on the variables of a dataset, combined with the
constants and functions that are offered, is an array on the dimensions of these variables, and
its value at each point of these dimensions is what the expression gives for the values of the
variables at this point. -/
def C70_full : Prop :=
  ∀ (n : Vr.Num Int) (lib : Lib Int) (size : String → Nat) (ds : Dataset Int) (e : Term Int)
    (D : List String), Regular size ds.vars → Dims ds.vars e D →
    ∃ F A, Dx.call n lib e ds = .ok (.arr A) ∧ Dims ds.vars e F ∧ A.shape = F.map size ∧
      ∀ pt, PointIn size F pt → ∃ x, A.get (F.map pt) = some x ∧
        PointVal n lib size ds.vars pt e x

/-- C70: the claim holds for the expressions in which no variable has the name of a constant or
of a function and, for each operation on two arrays, the dimensions of one operand are the last
ones of the other.  Missing: other names, and other dimensions; both fail, see below. -/
theorem C70_pointwise_partial (n : Vr.Num V) (lib : Lib V) (size : String → Nat)
    (ds : Dataset V) (e : Term V) (D : List String) (hr : Regular size ds.vars)
    (h : Nested ds.vars e D) :
    ∃ A, Dx.call n lib e ds = .ok (.arr A) ∧ Dims ds.vars e D ∧ A.shape = D.map size ∧
      ArrOk A ∧ ∀ pt, PointIn size D pt → ∃ x, A.get (D.map pt) = some x ∧
        PointVal n lib size ds.vars pt e x := by
  obtain ⟨locs, l1, l2, l3⟩ := localsOf_known n ds.vars (coNames e) fun s hs hk => by
    obtain ⟨v, hv, rfl⟩ := nested_names h s hs hk
    rw [getVar_of_mem _ hr.names v hv]
    exact Option.some_ne_none _
  obtain ⟨A, a1, a2, a3, a4⟩ := eval_nested n lib hr (look lib locs) h
    (fun v hv hs hres => by
      simp only [look, l2 _ hs (kindOf_none hres) v (getVar_of_mem _ hr.names v hv)])
    (fun s hs => by simp only [look, l3 s hs])
  exact ⟨A, by simp only [Dx.call, l1, bind, Except.bind, a1], nested_dims hr h, a3, a2, a4⟩

/-- C70: whatever the operands of an operator, the axes are matched by their positions, from the
last one, and not by the names of their dimensions: two arrays combine when the lengths of each
axis are equal or one of them is one, an axis of length one being repeated, as a missing axis is;
otherwise the expression raises `ValueError`. -/
theorem C70_broadcast (n : Vr.Num V) (lib : Lib V) (ds : Dataset V) (o : String) (a b : Term V)
    (A B : Arr (Option V)) (ha : Dx.call n lib a ds = .ok (.arr A))
    (hb : Dx.call n lib b ds = .ok (.arr B)) (oa : ArrOk A) (ob : ArrOk B) :
    (∀ r, Broadcast A.shape B.shape r → ∃ R, Dx.call n lib (.bin o a b) ds = .ok (.arr R) ∧
      R.shape = r ∧ ArrOk R ∧ ∀ idx, Inside r idx → ∃ i j x y z,
        Source A.shape idx i ∧ Source B.shape idx j ∧ A.get i = some x ∧ B.get j = some y ∧
        R.get idx = some z ∧ Combine (lib.op o) x y z) ∧
    ((∀ r, ¬ Broadcast A.shape B.shape r) →
      Dx.call n lib (.bin o a b) ds = .error .valueError) := by
  obtain ⟨a1, a2⟩ := call_part n lib ds ha
  obtain ⟨b1, b2⟩ := call_part n lib ds hb
  obtain ⟨locs, hl, _⟩ := localsOf_known n ds.vars (coNames (.bin o a b)) fun s hs hk => by
    rcases List.mem_append.1 hs with h | h
    · exact a1 s h hk
    · exact b1 s h hk
  have ea := a2 _ locs hl fun s hs => List.mem_append_left _ hs
  have eb := b2 _ locs hl fun s hs => List.mem_append_right _ hs
  obtain ⟨m1, m2⟩ := map2_broadcast (lib.op o) oa ob
  constructor
  · intro r hr
    obtain ⟨R, h1, h2⟩ := m1 r hr
    exact ⟨R, by simp only [Dx.call, hl, bind, Except.bind, Dx.eval, ea, eb, operate, h1], h2⟩
  · intro h
    simp only [Dx.call, hl, bind, Except.bind, Dx.eval, ea, eb, operate, m2 h]

/-- C70: a name (of a variable or of an attribute) that is neither reserved nor the name of a
variable raises `NameError`, wherever it stands in the expression. -/
theorem C70_unknown (n : Vr.Num V) (lib : Lib V) (ds : Dataset V) (e : Term V) (s : String)
    (hs : s ∈ coNames e) (hr : s ∉ reserved) (hv : ∀ v ∈ ds.vars, v.name ≠ s) :
    Dx.call n lib e ds = .error .nameError := by
  have hg : getVar ds.vars s = none := by
    rw [getVar_none]
    intro h
    obtain ⟨v, h1, h2⟩ := List.mem_map.1 h
    exact hv v h1 h2
  simp only [Dx.call, localsOf_unknown n ds.vars _ s hs (kindOf_none hr) hg, bind, Except.bind]

/-- C70: so does an attribute of an array that exists in numpy, `a.T` for instance, unless the
dataset has a variable of that name. -/
theorem C70_attribute (n : Vr.Num V) (lib : Lib V) (ds : Dataset V) (e : Term V) (s : String)
    (hr : s ∉ reserved) (hv : ∀ v ∈ ds.vars, v.name ≠ s) :
    Dx.call n lib (.attr e s) ds = .error .nameError :=
  C70_unknown n lib ds _ s (by simp [coNames]) hr hv

theorem localsOf_congr (n : Vr.Num V) {vars vars' : List (Var V)} (l : List String)
    (h : ∀ s ∈ l, s ∉ reserved →
      (getVar vars s).map (Vr.valuesOf n) = (getVar vars' s).map (Vr.valuesOf n)) :
    Dx.localsOf n vars l = Dx.localsOf n vars' l := by
  induction l with
  | nil => rfl
  | cons a t ih =>
    have iht := ih fun s hs => h s (List.mem_cons_of_mem _ hs)
    cases hk : (kindOf a).isSome with
    | true => simp only [Dx.localsOf, hk, if_true, iht]
    | false =>
      have ha := h a List.mem_cons_self (kindOf_none_iff.1 (by simpa using hk))
      simp only [Dx.localsOf, hk, iht, getVarE]
      cases h1 : getVar vars a with
      | none =>
        rw [h1] at ha
        have h2 : getVar vars' a = none := by simpa using ha.symm
        simp only [h2]
      | some v =>
        rw [h1] at ha
        obtain ⟨w, h2, h3⟩ := Option.map_eq_some_iff.1 ha.symm
        simp only [h2, bind, Except.bind, h3]

/-- C70: the value of an expression is determined by the values of the variables that it names
outside of the reserved names: neither their dimensions, nor the other variables, nor those
with a reserved name play a part. -/
theorem C70_reads (n : Vr.Num V) (lib : Lib V) (ds ds' : Dataset V) (e : Term V)
    (h : ∀ s ∈ coNames e, s ∉ reserved →
      (getVar ds.vars s).map (Vr.valuesOf n) = (getVar ds'.vars s).map (Vr.valuesOf n)) :
    Dx.call n lib e ds = Dx.call n lib e ds' := by
  simp only [Dx.call, localsOf_congr n _ h]

/-- C70: a variable named as a constant cannot be read: the expression made of its name is the
constant, in every dataset. -/
theorem C70_hidden (n : Vr.Num V) (lib : Lib V) (ds : Dataset V) (s : String)
    (h : s ∈ constants) :
    Dx.call n lib (.name s) ds = .ok (.arr (full [] (some (lib.const s)))) := by
  have hk := kindOf_const h
  simp [Dx.call, coNames, Dx.localsOf, hk, bind, Except.bind, Dx.eval, look, builtin, scalar]

/-- C70: nor can one named as a function: every expression that uses it as an operand
raises `TypeError`. -/
theorem C70_hidden_function (n : Vr.Num V) (lib : Lib V) (ds : Dataset V) (s o : String) (v : V)
    (h : s ∈ unaryNames ++ binaryNames ++ reductionNames ++ ["percentile"]) :
    Dx.call n lib (.bin o (.name s) (.num v)) ds = .error .typeError ∧
      Dx.call n lib (.bin o (.num v) (.name s)) ds = .error .typeError := by
  have hk : ∃ k, kindOf s = some k ∧ k ≠ .const := by
    have : ∀ t ∈ unaryNames ++ binaryNames ++ reductionNames ++ ["percentile"],
        ∃ k ∈ [Kind.unary, .binary, .reduction, .param], kindOf t = some k ∧ k ≠ .const := by
      decide
    obtain ⟨k, _, h2⟩ := this s h
    exact ⟨k, h2⟩
  obtain ⟨k, hk, hc⟩ := hk
  have hb : builtin lib s = .ok (.func s k) := by
    cases k <;> simp_all [builtin]
  constructor <;>
    simp [Dx.call, coNames, Dx.localsOf, hk, bind, Except.bind, Dx.eval, look, hb, operate]

namespace DxCase

/-- The integers, and a few of the functions of numpy. -/
def num : Vr.Num Int := ⟨fun x y => decide (x = y), fun _ => 0⟩

def lib : Lib Int where
  const s := if s = "pi" then 3 else 2
  op o x y := if o = "*" then x * y else x + y
  unary f x := if f = "abs" then x.natAbs else x
  binary _ x y := x + y
  reduce _ A := if A.shape = [2] then (do (← (← A.get [0])) + (← (← A.get [1]))) else none
  percentile _ _ := .error .typeError
  attr _ x := .ok x

/-- `m` on two dimensions, `u` and `v` on one each; `v` has the fill value 20. -/
def vars : List (Var Int) :=
  [{ name := "m", delayed := false, dims := ["x", "y"],
     array := tabulate [2, 2] fun i => match i with | [a, _] => 10 * a | _ => 0,
     fill := none, props := 0 },
   { name := "u", delayed := false, dims := ["x"],
     array := tabulate [2] fun i => match i with | [a] => a | _ => 0, fill := none, props := 0 },
   { name := "v", delayed := false, dims := ["y"],
     array := tabulate [2] fun i => match i with | [0] => -5 | _ => 20,
     fill := some 20, props := 0 }]

def ds : Dataset Int :=
  { dims := [("x", 2), ("y", 2)], vars, attrs := [], chunks := [], limit := 0, delayed := false }

theorem regular : Regular (fun _ => 2) vars := by
  constructor
  · decide
  · intro v hv
    simp only [vars, List.mem_cons, List.not_mem_nil, or_false] at hv
    rcases hv with rfl | rfl | rfl <;> simp
  · intro v hv
    simp only [vars, List.mem_cons, List.not_mem_nil, or_false] at hv
    rcases hv with rfl | rfl | rfl <;> rfl
  · intro v hv
    simp only [vars, List.mem_cons, List.not_mem_nil, or_false] at hv
    rcases hv with rfl | rfl | rfl <;> exact tabulate_arrOk _ _

/-- `m * 2 + abs(v)`: nested, with a missing value. -/
def nested : Term Int :=
  .bin "+" (.bin "*" (.name "m") (.num 2)) (.app1 "abs" (.name "v"))

theorem nested_ok : Nested vars nested ["x", "y"] := by
  refine .op _ _ _ ["x", "y"] ["y"] _ ?_ ?_ (Or.inl ⟨⟨["x"], rfl⟩, rfl⟩)
  · refine .op _ _ _ ["x", "y"] [] _ (.var vars[0] (by simp [vars]) (by decide)) (.num 2)
      (Or.inl ⟨⟨["x", "y"], rfl⟩, rfl⟩)
  · exact .unary _ _ _ (by decide) (.var vars[2] (by simp [vars]) (by decide))

/-- The theorem applies, and the values are those expected: 25 where `v` is -5, nothing where it
is missing. -/
example : ∃ A, Dx.call num lib nested ds = .ok (.arr A) ∧ A.shape = [2, 2] ∧
    A.get [1, 0] = some (some 25) ∧ A.get [1, 1] = some none := by
  obtain ⟨A, h, _, hs, _⟩ := C70_pointwise_partial num lib _ ds nested _ regular nested_ok
  refine ⟨A, h, hs, ?_⟩
  have : Dx.call num lib nested ds = .ok (.arr A) := h
  have h2 : (match Dx.call num lib nested ds with
    | .ok (.arr A) => A.get [1, 0] = some (some 25) ∧ A.get [1, 1] = some none
    | _ => False) := ⟨rfl, rfl⟩
  rw [this] at h2
  exact h2

/-- A reduction inside of an expression: `u + sum(u)`. -/
example : Nested vars (.bin "+" (.name "u") (.app1 "sum" (.name "u"))) ["x"] :=
  .op _ _ _ ["x"] [] _ (.var vars[1] (by simp [vars]) (by decide))
    (.reduction _ _ ["x"] (by decide) (.var vars[1] (by simp [vars]) (by decide)))
    (Or.inl ⟨⟨["x"], rfl⟩, rfl⟩)

/-- Two columns of different lengths do not combine; a column of length one does. -/
example : (∀ r, ¬ Broadcast [3] [2] r) ∧ Broadcast [3, 1] [2] [3, 2] := by
  refine ⟨fun r hr => ?_, rfl, fun i => ?_⟩
  · have := hr.2 0
    simp [axisLength] at this
  · match i with
    | 0 => exact .inr (.inl ⟨rfl, rfl⟩)
    | 1 => exact .inr (.inr ⟨rfl, rfl⟩)
    | i + 2 => exact .inl ⟨by simp [axisLength], by simp [axisLength]⟩

def wide : Dataset Int :=
  { ds with vars := [{ vars[0] with array := full [3, 1] 4 }, { vars[1] with array := full [2] 5 },
                     { vars[2] with array := full [3] 20 }] }

example : ∃ R, Dx.call num lib (.bin "+" (.name "m") (.name "u")) wide = .ok (.arr R) ∧
    R.shape = [3, 2] ∧ R.get [2, 1] = some (some 9) := by
  obtain ⟨h, _⟩ := C70_broadcast num lib wide "+" (.name "m") (.name "u") _ _ rfl rfl
    (valuesOf_arrOk _ (full_arrOk _ _)) (valuesOf_arrOk _ (full_arrOk _ _))
  obtain ⟨R, h1, h2, _⟩ := h [3, 2] ⟨rfl, fun i => by
    match i with
    | 0 => exact .inr (.inl ⟨rfl, rfl⟩)
    | 1 => exact .inr (.inr ⟨rfl, rfl⟩)
    | i + 2 => exact .inl ⟨rfl, rfl⟩⟩
  refine ⟨R, h1, h2, ?_⟩
  have h3 : (match Dx.call num lib (.bin "+" (.name "m") (.name "u")) wide with
    | .ok (.arr R) => R.get [2, 1] = some (some 9)
    | _ => False) := rfl
  rw [h1] at h3
  exact h3

/-- `u + w` and `m.T`: unknown names. -/
example : Dx.call num lib (.bin "+" (.name "u") (.name "w")) ds = .error .nameError :=
  C70_unknown _ _ _ _ "w" (by simp [coNames]) (by decide) (by decide)

example : Dx.call num lib (.attr (.name "m") "T") ds = .error .nameError :=
  C70_attribute _ _ _ _ "T" (by decide) (by decide)

/-- A dataset with a variable named `e`. -/
def eVar : Var Int :=
  { name := "e", delayed := false, dims := ["x"], array := full [1] 7, fill := none, props := 0 }

def eDs : Dataset Int :=
  { dims := [("x", 1)], vars := [eVar], attrs := [], chunks := [], limit := 0, delayed := false }

theorem eRegular : Regular (fun _ => 1) eDs.vars := by
  constructor
  · decide
  · intro v hv; cases List.mem_singleton.1 hv; simp [eVar]
  · intro v hv; cases List.mem_singleton.1 hv; rfl
  · intro v hv; cases List.mem_singleton.1 hv; exact full_arrOk _ _

/-- The value that `m + u` has at the point (1, 0). -/
theorem sum_at (pt : String → Nat) (h1 : pt "x" = 1) (h2 : pt "y" = 0) (x : Option Int)
    (h : PointVal num lib (fun _ => 2) vars pt (.bin "+" (.name "m") (.name "u")) x) :
    x = some 11 := by
  have hm : ∀ (s : String) (y : Option Int) (z : Int),
      (∀ v ∈ vars, v.name = s → v.fill = none ∧ v.array.get (v.dims.map pt) = some z) →
      s ∉ constants → PointVal num lib (fun _ => 2) vars pt (.name s) y → y = some z := by
    intro s y z hz hc hp
    generalize ht : Term.name s = t at hp
    cases hp with
    | value _ v x hv hx _ =>
      cases ht
      have := (hz v hv rfl).2
      rw [hx] at this
      exact this
    | missing _ v x f hv hx hf _ =>
      cases ht
      rw [(hz v hv rfl).1] at hf
      cases hf
    | const _ c hc' _ =>
      cases ht
      exact absurd hc' hc
    | _ => cases ht
  generalize ht : Term.bin "+" (Term.name "m") (Term.name "u") = t at h
  cases h with
  | op _ o a b y z r ha hb hr =>
    cases ht
    have e1 := hm "m" y 10 (by
      intro v hv hs
      simp only [vars, List.mem_cons, List.not_mem_nil, or_false] at hv
      rcases hv with rfl | rfl | rfl
      · simp [h1, h2, tabulate, inBounds]
      · exact absurd hs (by decide)
      · exact absurd hs (by decide)) (by decide) ha
    have e2 := hm "u" z 1 (by
      intro v hv hs
      simp only [vars, List.mem_cons, List.not_mem_nil, or_false] at hv
      rcases hv with rfl | rfl | rfl
      · exact absurd hs (by decide)
      · simp [h1, tabulate, inBounds]
      · exact absurd hs (by decide)) (by decide) hb
    subst e1 e2
    rcases hr with ⟨a, b, h1, h2, h3⟩ | ⟨h1, _⟩
    · cases h1
      cases h2
      exact h3
    · rcases h1 with h1 | h1 <;> cases h1
  | _ => cases ht

theorem dims_name (s : String) (D : List String) {E : List String}
    (hs : s ∉ constants) (hd : ∀ v ∈ vars, v.name = s → v.dims = D)
    (h : Dims vars (.name s) E) : E = D := by
  generalize ht : Term.name s = t at h
  cases h with
  | var v hv =>
    cases ht
    exact hd v hv rfl
  | const c hc _ =>
    cases ht
    exact absurd hc hs
  | _ => cases ht

end DxCase

open DxCase in
/-- C70: with a variable named `e`, the expression `e` is the number, not the variable. -/
theorem C70_counterexample : ¬ C70_full := by
  intro h
  obtain ⟨F, A, h1, h2, h3, _⟩ := h num lib (fun _ => 1) eDs (.name "e") ["x"] eRegular
    (.var eVar (by simp [eDs]))
  rw [C70_hidden num lib eDs "e" (by decide)] at h1
  cases h1
  generalize ht : Term.name "e" = t at h2
  cases h2 with
  | var v hv =>
    cases List.mem_singleton.1 hv
    cases h3
  | const s _ hn =>
    cases ht
    exact hn eVar (by simp [eDs]) rfl
  | _ => cases ht

open DxCase in
/-- C70: even without such names the claim fails.  With `m` on the dimensions (x, y) and `u` on
x, both of size two, `m + u` adds `u` along y and says nothing of it. -/
theorem C70_dims_counterexample :
    ∃ (e : Term Int) (D : List String), (∀ s ∈ coNames e, s ∉ reserved) ∧
      Regular (fun _ => 2) ds.vars ∧ Dims ds.vars e D ∧
      (∃ A, Dx.call num lib e ds = .ok (.arr A)) ∧
      ¬ ∃ F A, Dx.call num lib e ds = .ok (.arr A) ∧ Dims ds.vars e F ∧
        A.shape = F.map (fun _ => 2) ∧ ∀ pt, PointIn (fun _ => 2) F pt →
          ∃ x, A.get (F.map pt) = some x ∧ PointVal num lib (fun _ => 2) ds.vars pt e x := by
  refine ⟨.bin "+" (.name "m") (.name "u"), ["x", "y"], by simp [coNames]; decide, regular,
    .op _ _ _ ["x", "y"] ["x"] _ (.var vars[0] (by simp [ds, vars]))
      (.var vars[1] (by simp [ds, vars])) ⟨by decide, by simp⟩, ⟨_, rfl⟩, ?_⟩
  rintro ⟨F, A, h1, h2, h3, h4⟩
  have hA : A.shape = [2, 2] ∧ A.get [1, 0] = some (some 10) ∧ A.get [0, 1] = some (some 1) := by
    have h : (match Dx.call num lib (.bin "+" (.name "m") (.name "u")) ds with
      | .ok (.arr A) => A.shape = [2, 2] ∧ A.get [1, 0] = some (some 10) ∧
          A.get [0, 1] = some (some 1)
      | _ => False) := ⟨rfl, rfl, rfl⟩
    rw [h1] at h
    exact h
  have hF : F.Nodup ∧ ∀ d, d ∈ F ↔ d = "x" ∨ d = "y" := by
    generalize ht : Term.bin "+" (Term.name "m") (Term.name "u") = t at h2
    cases h2 with
    | op o a b D E F ha hb hu =>
      cases ht
      refine ⟨hu.1, fun d => ?_⟩
      rw [hu.2, dims_name "m" ["x", "y"] (by decide) (by decide) ha,
        dims_name "u" ["x"] (by decide) (by decide) hb]
      simp only [List.mem_cons, List.not_mem_nil, or_false]
      grind
    | _ => cases ht
  obtain ⟨hn, hm⟩ := hF
  have hl : F.length = 2 := by
    have := congrArg List.length (hA.1.symm.trans h3)
    simpa using this.symm
  obtain ⟨x, hx, hp⟩ := h4 (fun d => if d = "x" then 1 else 0) fun d _ => by
    show (if d = "x" then 1 else 0) < 2
    split <;> omega
  have hp' := sum_at _ (by simp) (by simp) x hp
  subst hp'
  match F, hl with
  | [p, q], _ =>
    have e1 := (hm p).1 (by simp)
    have e2 := (hm q).1 (by simp)
    have hpq : p ≠ q := by
      rintro rfl
      simp at hn
    rcases e1 with rfl | rfl <;> rcases e2 with rfl | rfl
    · exact hpq rfl
    · rw [show List.map _ ["x", "y"] = [1, 0] from rfl, hA.2.1] at hx
      exact absurd hx (by decide)
    · rw [show List.map _ ["y", "x"] = [0, 1] from rfl, hA.2.2] at hx
      exact absurd hx (by decide)
    · exact hpq rfl

open DxCase in
/-- The other branch of the same operation: with sizes that differ, `m + u` raises. -/
example : (Dx.call num lib (.bin "+" (.name "m") (.name "u"))
    { ds with vars := [{ vars[0] with array := full [2, 3] 0 }, vars[1]] } =
      .error .valueError) := rfl

end Verif
