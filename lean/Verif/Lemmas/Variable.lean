import Verif.Model.Variable
import Verif.Lemmas.Load

/-! Lemmas on missing values. -/

namespace Verif

open Spec Nd Ds Upd Ld Vr

variable {P V W : Type}

/-- The function applied to each value. -/
def mapArr (g : V → W) (a : Arr V) : Arr W where
  shape := a.shape
  get idx := (a.get idx).map g

theorem selAxis_map (g : V → W) (ax : Nat) (ix : Ix) (a : Arr V) :
    selAxis ax ix (mapArr g a) = (selAxis ax ix a).map (mapArr g) := by
  have h1 : ∀ p, dropAxis ax p (mapArr g a) = mapArr g (dropAxis ax p a) := fun p => rfl
  have h2 : ∀ ps, takeAxis ax ps (mapArr g a) = mapArr g (takeAxis ax ps a) := by
    intro ps
    simp only [takeAxis, mapArr]
    congr 1
    funext idx
    cases idx[ax]? with
    | none => rfl
    | some j =>
      simp only [Option.bind_some]
      cases ps[j]? with
      | none => rfl
      | some p => rfl
  unfold selAxis
  cases hs : a.shape[ax]? with
  | none => simp [mapArr, hs, Except.map]
  | some n =>
    have hs' : (mapArr g a).shape[ax]? = some n := hs
    simp only [hs']
    cases ix with
    | int i =>
      simp only [bind, Except.bind]
      cases indexPositions n [i] with
      | error e => rfl
      | ok l => cases l <;> rfl
    | slice s =>
      simp only [bind, Except.bind]
      cases positions n s with
      | error e => rfl
      | ok l => simp only [h2]; rfl

theorem getitem_map (g : V → W) (key : List Ix) (ax : Nat) (a : Arr V) :
    getitem ax key (mapArr g a) = (getitem ax key a).map (mapArr g) := by
  induction key generalizing ax with
  | nil => rfl
  | cons ix key ih =>
    simp only [getitem, bind, Except.bind, ih]
    cases getitem (ax + 1) key a with
    | error e => rfl
    | ok b => exact selAxis_map g ax ix b

theorem concatGet_map (g : V → W) (ax : Nat) (l : List (Arr V)) (idx : List Nat) :
    concatGet ax (l.map (mapArr g)) idx = (concatGet ax l idx).map g := by
  induction l generalizing idx with
  | nil => rfl
  | cons a t ih =>
    simp only [List.map_cons, concatGet]
    cases idx[ax]? with
    | none => rfl
    | some j =>
      simp only [Option.bind_some]
      cases hs : a.shape[ax]? with
      | none => simp [mapArr, hs]
      | some n =>
        have hs' : (mapArr g a).shape[ax]? = some n := hs
        simp only [hs', Option.bind_some]
        split
        · rfl
        · exact ih _

theorem concatenate_map (g : V → W) (ax : Nat) (l : List (Arr V)) :
    concatenate ax (l.map (mapArr g)) = (concatenate ax l).map (mapArr g) := by
  cases l with
  | nil => rfl
  | cons a t =>
    simp only [List.map_cons, concatenate]
    have hiff : (ax < (mapArr g a).shape.length ∧ ∀ b ∈ t.map (mapArr g),
        b.shape.length = (mapArr g a).shape.length ∧
          b.shape.eraseIdx ax = (mapArr g a).shape.eraseIdx ax) ↔
        (ax < a.shape.length ∧ ∀ b ∈ t,
          b.shape.length = a.shape.length ∧ b.shape.eraseIdx ax = a.shape.eraseIdx ax) := by
      simp [mapArr]
    by_cases h : ax < a.shape.length ∧ ∀ b ∈ t,
        b.shape.length = a.shape.length ∧ b.shape.eraseIdx ax = a.shape.eraseIdx ax
    · rw [if_pos (hiff.2 h), if_pos h]
      have hsum : ((mapArr g a :: t.map (mapArr g)).filterMap (·.shape[ax]?)) =
          ((a :: t).filterMap (·.shape[ax]?)) := by
        rw [← List.map_cons, List.filterMap_map]
        rfl
      simp only [Except.map]
      congr 1
      simp only [mapArr] at hsum ⊢
      rw [hsum]
      congr 1
      funext idx
      exact concatGet_map g ax (a :: t) idx
    · rw [if_neg (fun hc => h (hiff.1 hc)), if_neg h]
      rfl

theorem delete_map (g : V → W) (ax : Nat) (ixs : Indexer) (a : Arr V) :
    delete ax ixs (mapArr g a) = (delete ax ixs a).map (mapArr g) := by
  have h2 : ∀ ps, takeAxis ax ps (mapArr g a) = mapArr g (takeAxis ax ps a) := by
    intro ps
    simp only [takeAxis, mapArr]
    congr 1
    funext idx
    cases idx[ax]? with
    | none => rfl
    | some j =>
      simp only [Option.bind_some]
      cases ps[j]? with
      | none => rfl
      | some p => rfl
  unfold delete
  cases hs : a.shape[ax]? with
  | none => simp [mapArr, hs, Except.map]
  | some n =>
    have hs' : (mapArr g a).shape[ax]? = some n := hs
    simp only [hs', bind, Except.bind, h2]
    cases ixs with
    | slice s => simp only []; cases positions n s <;> rfl
    | list l => simp only []; cases indexPositions n l <;> rfl

/-- What the constructors make of a masked array. -/
theorem asArray_masked {ne : V → V → Bool} {d : Arr V} {mask : List Nat → Bool} {f : V}
    {fill : Option V} {r : Arr V × Option V}
    (h : Chunk.asArray ne ⟨d, some (mask, f)⟩ fill = .ok r) :
    r = ({ shape := d.shape, get := fun idx => if mask idx then (d.get idx).map fun _ => f
      else d.get idx }, some f) := by
  cases fill with
  | none => cases h; rfl
  | some g =>
    simp only [Chunk.asArray] at h
    cases hg : ne g f with
    | true => simp [hg] at h
    | false =>
      simp only [hg, Bool.false_eq_true, if_false] at h
      cases h
      rfl

theorem asArray_error {ne : V → V → Bool} {i : Chunk.Input V} {fill : Option V} {e : PyErr}
    (h : Chunk.asArray ne i fill = .error e) : e = .valueError := by
  cases hm : i.masked with
  | none => simp [Chunk.asArray, hm] at h
  | some p =>
    cases fill with
    | none => simp [Chunk.asArray, hm] at h
    | some g =>
      simp only [Chunk.asArray, hm] at h
      cases hg : ne g p.2 with
      | true => simp only [hg, if_true] at h; cases h; rfl
      | false => simp [hg] at h

/-- What is seen of a value. -/
def shown (n : Num V) (fill : Option V) (x : V) : Option V :=
  match fill with
  | none => some x
  | some f => if n.eqv x f then none else some x

/-- Masking is a function applied to each value. -/
theorem masked_map (n : Num V) (fill : Option V) (a : Arr V) :
    masked n fill a = mapArr (shown n fill) a := by
  cases fill <;> rfl

theorem setVar_mem (l : List (Var V)) (v w : Var V) (h : w ∈ setVar l v) : w = v ∨ w ∈ l := by
  induction l with
  | nil => simpa [setVar] using h
  | cons x t ih =>
    simp only [setVar] at h
    split at h
    · rcases List.mem_cons.1 h with h | h
      · exact .inl h
      · exact .inr (List.mem_cons_of_mem _ h)
    · rcases List.mem_cons.1 h with h | h
      · exact .inr (by rw [h]; exact List.mem_cons_self ..)
      · rcases ih h with h | h
        · exact .inl h
        · exact .inr (List.mem_cons_of_mem _ h)

theorem foldl_setVar_mem (l acc : List (Var V)) (w : Var V) (h : w ∈ l.foldl setVar acc) :
    w ∈ l ∨ w ∈ acc := by
  induction l generalizing acc with
  | nil => exact .inr h
  | cons v t ih =>
    rcases ih _ h with h | h
    · exact .inl (List.mem_cons_of_mem _ h)
    · rcases setVar_mem acc v w h with h | h
      · exact .inl (by rw [h]; exact List.mem_cons_self ..)
      · exact .inr h

/-- The variables of a concatenation have the fill values of the first dataset. -/
theorem concat_fill {ds r : Dataset V} {others : List (Dataset V)} {dim : String}
    (h : concat ds others dim = .ok r) (v' : Var V) (hv : v' ∈ r.vars) :
    ∃ v ∈ ds.vars, v.name = v'.name ∧ v.fill = v'.fill ∧ v.dims = v'.dims := by
  unfold concat at h
  split at h
  · cases h
  split at h
  · cases h
  simp only [bind, Except.bind] at h
  split at h
  · cases h
  · next vars hvars =>
    have hm := (mk_spec _ _ _ _ _ _ h).2.1
    rw [hm] at hv
    have hv2 : v' ∈ vars := by
      have := foldl_setVar_mem vars [] v' hv
      simpa using this
    obtain ⟨v, hvm, hve⟩ := mapPy_mem _ _ _ hvars v' hv2
    refine ⟨v, hvm, ?_⟩
    split at hve
    · cases hve
    · simp only [concatVar] at hve
      repeat' split at hve
      all_goals first
        | (cases hve; done)
        | (cases hve; exact ⟨rfl, rfl, rfl⟩)

theorem joinGroups_fill {dim : String} {groups : List (Dataset V)} {r : Dataset V}
    (h : joinGroups dim groups = .ok r) (v' : Var V) (hv : v' ∈ r.vars) :
    ∃ g, groups[0]? = some g ∧ ∃ v ∈ g.vars, v.name = v'.name ∧ v.fill = v'.fill ∧
      v.dims = v'.dims := by
  match groups, h with
  | [zds], h =>
    cases h
    exact ⟨_, rfl, v', hv, rfl, rfl, rfl⟩
  | zds :: o :: rest, h => exact ⟨_, rfl, concat_fill h v' hv⟩

theorem mergeVars_mem (l vars vs : List (Var V)) (r : Py Unit) (h : mergeVars vars l = (vs, r))
    (v : Var V) (hv : v ∈ vs) : v ∈ vars ∨ v ∈ l := by
  induction l generalizing vars with
  | nil =>
    simp only [mergeVars] at h
    cases h
    exact .inl hv
  | cons x t ih =>
    simp only [mergeVars] at h
    split at h
    · cases h
      exact .inl hv
    · rcases ih _ h with h1 | h1
      · rcases List.mem_append.1 h1 with h2 | h2
        · exact .inl h2
        · exact .inr (List.mem_cons.2 (.inl (by simpa using h2)))
      · exact .inr (List.mem_cons_of_mem _ h1)

theorem mergeInto_from {s o r : Dataset V} (h : mergeInto s o = .ok r) (v : Var V)
    (hv : v ∈ r.vars) : v ∈ s.vars ∨ v ∈ o.vars := by
  unfold mergeInto at h
  split at h
  · next r' hr =>
    cases h
    unfold Ds.merge at hr
    split at hr
    · cases hr
    · split at hr
      · cases hr
      · next vs hvs =>
        split at hr
        · cases hr
        · cases hr
          exact mergeVars_mem _ _ _ _ hvs v hv
  · cases h

theorem openGroup_vars {del : Bool} {sel : Option (List String)} {vars : List (Var V)}
    {g : Dataset V} (h : openGroup del sel vars = .ok g) (w : Var V) (hw : w ∈ g.vars) :
    ∃ v ∈ vars, w = { v with delayed := del } := by
  unfold openGroup at h
  rw [(mk_spec _ _ _ _ _ _ h).2.1] at hw
  rcases foldl_setVar_mem _ _ _ hw with h1 | h1
  · obtain ⟨v, hv, rfl⟩ := List.mem_map.1 h1
    exact ⟨v, (List.mem_filter.1 hv).1, rfl⟩
  · cases h1

/-- The variables of a load have the fill values of the first partition, or are immutable. -/
theorem load_fill {o : Opts V} {st : Store P V} {listing : List P} {filters : P → Bool}
    {zds : Dataset V} (h : load o st listing filters = .ok (some zds)) (v' : Var V)
    (hv : v' ∈ zds.vars) :
    (∃ q vars v, (listing.filter filters)[0]? = some q ∧ st q = some vars ∧ v ∈ vars ∧
      v.name = v'.name ∧ v.fill = v'.fill) ∨
    ∃ w ∈ o.imm.getD [], w.name = v'.name := by
  unfold load at h
  split at h
  · cases h
  simp only [bind, Except.bind] at h
  split at h
  · cases h
  next arrays harr =>
  split at h
  · cases h
  next r hr =>
  cases h
  simp only [finish, bind, Except.bind] at hr
  split at hr
  · cases hr
  next z hz =>
  have key : ∀ v' ∈ z.vars, ∃ q vars v, (listing.filter filters)[0]? = some q ∧
      st q = some vars ∧ v ∈ vars ∧ v.name = v'.name ∧ v.fill = v'.fill := by
    intro v' hv'
    obtain ⟨g, hg, w, hw, e1, e2, _⟩ := joinGroups_fill hz v' hv'
    obtain ⟨hl, hsp⟩ := mapPy_spec _ _ _ harr
    have h0 : 0 < (listing.filter filters).length := by
      have := (List.getElem?_eq_some_iff.1 hg).1
      omega
    obtain ⟨g', hg', hopen⟩ := hsp 0 _ (List.getElem?_eq_getElem h0)
    rw [hg] at hg'
    cases hg'
    unfold openPart at hopen
    split at hopen
    · cases hopen
    · next vars hst =>
      obtain ⟨v, hvm, rfl⟩ := openGroup_vars hopen w hw
      exact ⟨_, vars, v, List.getElem?_eq_getElem h0, hst, hvm, e1, e2⟩
  cases hi : o.imm with
  | none =>
    rw [hi] at hr
    cases hr
    exact .inl (key v' hv)
  | some iv =>
    rw [hi] at hr
    simp only at hr
    split at hr
    · cases hr
    · next ids hids =>
      rcases mergeInto_from hr v' hv with h1 | h1
      · exact .inl (key v' h1)
      · obtain ⟨w, hw, rfl⟩ := openGroup_vars hids v' h1
        exact .inr ⟨w, by simpa using hw, rfl⟩

end Verif
