import Verif.Lemmas.ViewFile

/-! C83: what the file `.view` declares, through operations that may fail. -/

namespace Verif

open Spec Nd Ds Upd Vw

variable {D P V H : Type} [DecidableEq D] [DecidableEq P] [DecidableEq H]

/-- C83, full statement: after any history, each partition of the view holds an array for each
variable that the file `.view` declares. -/
def C83_full : Prop :=
  ∀ (D P V H : Type) [DecidableEq D] [DecidableEq P] [DecidableEq H] (e : Env D V H)
    (listing : List P) (st : State D P V H) (fa wr : List String),
    e.base ≠ e.refDir → Lives e listing st fa wr → ∀ m ∈ st.saved, InParts e st.files m

/-- C83: each partition of the view holds an array for each variable that the file `.view`
declares, but the variables whose addition failed and that were in memory when the file was
written (`C83_written`, `C83_counterexample`). -/
theorem C83_stored_partial (e : Env D V H) (listing : List P) (st : State D P V H)
    (fa wr : List String) (h : Lives e listing st fa wr) (m : VarMeta V) (hm : m ∈ st.saved)
    (hw : m.name ∉ wr) : InParts e st.files m := fun p part hp =>
  have ha := h.alive
  ha.held m (ha.sub m hm) (fun hc => hw (ha.known m hm hc)) hw p part hp

/-- C83: the file declares nothing that the view of the process does not declare, and no name
twice. -/
theorem C83_declares (e : Env D V H) (listing : List P) (st : State D P V H)
    (fa wr : List String) (h : Lives e listing st fa wr) :
    (∀ m ∈ st.saved, m ∈ st.metas) ∧ (st.saved.map (·.name)).Nodup ∧
    (st.metas.map (·.name)).Nodup :=
  ⟨h.alive.sub, h.alive.saved, h.alive.names⟩

omit [DecidableEq H] in
/-- C83: a variable whose addition fails for lack of a template is declared in the file by the
next variable that is added, and no partition holds it. -/
theorem C83_written (e : Env D V H) (listing : List P) (hn : listing.Nodup)
    (dims dims' : List String) (m m' : VarMeta V) (st st1 st2 : State D P V H)
    (hnew : ∀ t ∈ st.metas, t.name ≠ m.name) (href : ∀ t ∈ e.refMeta, t.name ≠ m.name)
    (hdims : ∀ d ∈ m.dims, d ∈ dims) (hno : ∀ t ∈ e.refMeta, t.dims ≠ m.dims)
    (hp : ∃ p ∈ listing, st.files e.base p ≠ none) (harr : NoArray e st.files m.name)
    (h1 : (Vw.addVariable e listing dims m st).1 = st1)
    (h2 : Vw.addVariable e listing dims' m' st1 = (st2, .ok ())) :
    (Vw.addVariable e listing dims m st).2 = .error .valueError ∧
    m ∈ (reopened st2).metas ∧ NoArray e (reopened st2).files m.name := by
  have ht : template e m = .error .valueError := by
    unfold template
    split
    · rfl
    · next t hf =>
      have h1 := List.mem_of_find?_eq_some hf
      have h2 := List.find?_some hf
      exact absurd (by simpa using h2) (hno t h1)
  have hadd : Vw.addVariable e listing dims m st =
      ({ st with metas := st.metas ++ [m] }, .error .valueError) := by
    unfold Vw.addVariable
    rw [if_neg (by
      rintro (hc | hc)
      · obtain ⟨t, ht, hc⟩ := List.mem_map.1 hc
        exact href t ht hc
      · obtain ⟨t, ht, hc⟩ := List.mem_map.1 hc
        exact hnew t ht hc), if_neg (by
      rintro ⟨d, hd, hc⟩
      exact hc (hdims d hd))]
    simp only [ht]
  rw [hadd] at h1
  subst h1
  obtain ⟨s1, s2⟩ := addVariable_metas e listing dims' m' _ (by rw [h2])
  have s2 := s2 hp
  rw [h2] at s2
  refine ⟨by rw [hadd], ?_, ?_⟩
  · show m ∈ st2.saved
    simp only at s2
    rw [s2]
    simp
  · rcases addVariable_cases e listing hn dims' m' { st with metas := st.metas ++ [m] } with
      h' | h' | ⟨h1, h'⟩ | ⟨hnew', tmpl, fs, ht, _, h3, ⟨h', h4⟩ | ⟨err', h', h4⟩⟩
    · rw [h2] at h'; cases h'
    · rw [h2] at h'; cases h'
    · rw [h2] at h'; cases h'
      exact harr
    · rw [h2] at h'; cases h'
      intro p part hpart v hv hc
      have hpart : fs e.base p = some part := hpart
      have hs := h3 p
      have hmm : m'.name ≠ m.name := fun hc => hnew' (by simp [hc])
      rw [hpart] at hs
      cases hcur : st.files e.base p with
      | none =>
        have : SameBut m'.name (st.files e.base p) (some part) := hs
        rw [hcur] at this
        cases this
      | some old =>
        have hs : SameBut m'.name (st.files e.base p) (some part) := hs
        rw [hcur] at hs
        cases hs with
        | present _ _ _ hv' =>
          have : v ∈ part.vars.filter fun v => decide (v.name ≠ m'.name) :=
            List.mem_filter.2 ⟨hv, by rw [hc]; simpa using fun hx => hmm hx.symm⟩
          rw [hv'] at this
          exact harr p old hcur v (List.mem_filter.1 this).1 hc
    · rw [h2] at h'; cases h'

omit [DecidableEq D] [DecidableEq H] in
/-- C83: a view that declares a variable that one of its partitions does not hold cannot be
loaded, if the variable and the partition are selected. -/
theorem C83_unloadable (e : Env D V H) (le : P → P → Bool) (listing : List P) (delayed : Bool)
    (filters : P → Bool) (sel : Option (List String)) (st : State D P V H) (m : VarMeta V)
    (hm : m ∈ st.metas) (hsel : Chosen sel m.name) (p : P) (hp : p ∈ listing)
    (hf : filters p = true) (part : Part V H) (hpart : st.files e.base p = some part)
    (hno : ∀ v ∈ part.vars, v.name ≠ m.name) :
    ∃ err, load e le listing delayed filters none sel st = .error err := by
  have hname : m.name ∈ selectNames st.metas sel := by
    unfold selectNames
    refine List.mem_filter.2 ⟨List.mem_map_of_mem hm, ?_⟩
    cases sel with
    | none => rfl
    | some l => simpa using hsel l rfl
  have hopen : ∀ r, mapPy (openArray delayed (st.files e.base p)) (selectNames st.metas sel) ≠
      .ok r := by
    intro r hr
    obtain ⟨i, hi⟩ := List.getElem?_of_mem hname
    obtain ⟨y, _, hy⟩ := (mapPy_spec _ _ _ hr).2 i _ hi
    rw [hpart] at hy
    simp only [openArray, getVarE, bind, Except.bind] at hy
    cases hg : getVar part.vars m.name with
    | none => rw [hg] at hy; cases hy
    | some v =>
      have := (getVar_isSome part.vars m.name).1 (by rw [hg]; rfl)
      obtain ⟨v, hv, hc⟩ := List.mem_map.1 this
      exact hno v hv hc
  have hone : ∀ zds, loadOne e delayed (selectNames e.refMeta sel) (selectNames st.metas sel)
      (st.files e.refDir p) (st.files e.base p) [] ≠ .ok zds := by
    intro zds hz
    unfold loadOne at hz
    split at hz
    · cases hz
    · simp only [bind, Except.bind] at hz
      split at hz
      · cases hz
      · split at hz
        · split at hz
          · cases hz
          · next h => exact hopen _ h
        · split at hz
          · cases hz
          · next h => exact hopen _ h
  have hin : (p, ([] : List (Nat × Nat))) ∈
      (partitions e listing filters st.files).map fun p => (p, []) := by
    refine List.mem_map_of_mem ?_
    unfold partitions
    exact List.mem_filter.2 ⟨List.mem_filter.2 ⟨hp, hf⟩, by rw [hpart]; rfl⟩
  have hbare : ∃ err, loadBare e le listing delayed filters none sel st = .error err := by
    unfold loadBare
    split
    · exact ⟨_, rfl⟩
    · simp only
      split
      · exact ⟨_, rfl⟩
      all_goals
        next h =>
        obtain ⟨i, hi⟩ := List.getElem?_of_mem hin
        obtain ⟨y, _, hy⟩ := (mapPy_spec _ _ _ h).2 i _ hi
        exact absurd hy (hone y)
  obtain ⟨err, hb⟩ := hbare
  refine ⟨err, ?_⟩
  unfold load
  rw [hb]
  rfl

/-! ### Cases -/

namespace ViewFileCase

/-- A view of one partition, just created. -/
def fresh : State Bool Unit Nat (List Nat) :=
  (create (smallEnv (· == ·)) [()] none (oneFile none (some (onlyTime [1, 2])))).1

theorem fresh_lives : Lives (smallEnv (· == ·)) [()] fresh [] [] :=
  .created [()] none _ (fun _ => rfl) (by simp)

/-- A scalar: the reference of the view has no variable of its dimensions. -/
def scalar : VarMeta Nat := ⟨"s", [], none, 0⟩

/-- After the addition of `scalar`, that fails. -/
def afterScalar : State Bool Unit Nat (List Nat) :=
  (Vw.addVariable (smallEnv (· == ·)) [()] ["time"] scalar fresh).1

/-- After the addition of another variable, that succeeds. -/
def afterX : State Bool Unit Nat (List Nat) :=
  (Vw.addVariable (smallEnv (· == ·)) [()] ["time"] xMeta afterScalar).1

theorem afterScalar_lives : Lives (smallEnv (· == ·)) [()] afterScalar ["s"] [] :=
  .failed [()] fresh afterScalar [] [] ["time"] scalar .valueError fresh_lives nofun rfl

theorem afterX_lives : Lives (smallEnv (· == ·)) [()] afterX ["s"] ["s"] :=
  .added [()] afterScalar afterX ["s"] [] ["time"] xMeta afterScalar_lives
    ⟨(), by simp, fun h => by cases h⟩ rfl

/-- `C83_stored_partial` applies to the other variable, that the partition holds. -/
example : InParts (smallEnv (· == ·)) afterX.files xMeta :=
  C83_stored_partial _ [()] afterX ["s"] ["s"] afterX_lives xMeta
    (show xMeta ∈ [scalar, xMeta] by simp) (by decide)

/-- If the view is opened again after the failure nothing is written: all the hypotheses of
`C83_stored_partial` are met by each variable of the file. -/
example : ∃ st, Lives (smallEnv (· == ·)) [()] st [] [] ∧ st.saved = [xMeta] ∧
    st.files true () ≠ none := by
  refine ⟨_, .added [()] (reopened afterScalar) _ [] [] ["time"] xMeta
    (.reopen [()] afterScalar ["s"] [] afterScalar_lives) ⟨(), by simp, fun h => by cases h⟩ rfl,
    rfl, fun h => by cases h⟩

/-- The removal of the variable that is not stored raises `OSError`, after which the file
declares only what is stored. -/
example : (Vw.dropVariable (smallEnv (· == ·)) [()] "s" afterX).2 = .error .osError ∧
    Lives (smallEnv (· == ·)) [()] (Vw.dropVariable (smallEnv (· == ·)) [()] "s" afterX).1 [] [] ∧
    (Vw.dropVariable (smallEnv (· == ·)) [()] "s" afterX).1.saved = [xMeta] :=
  ⟨rfl, .dropped [()] afterX ["s"] ["s"] "s" afterX_lives
    ⟨scalar, show scalar ∈ [scalar, xMeta] by simp, rfl⟩ (fun t ht => by
      rw [List.mem_singleton.1 ht]
      decide), rfl⟩

/-- The hypotheses of `C83_written` and `C83_unloadable` are met, and the view opened again
raises `KeyError`, for the data that could be loaded. -/
theorem written : scalar ∈ (reopened afterX).metas ∧
    NoArray (smallEnv (· == ·)) (reopened afterX).files "s" ∧
    (∃ err, load (smallEnv (· == ·)) (fun _ _ => true) [()] false (fun _ => true) none none
      (reopened afterX) = .error err) ∧
    load (smallEnv (· == ·)) (fun _ _ => true) [()] false (fun _ => true) none none
      (reopened afterX) = .error .keyError ∧
    ∃ zds, load (smallEnv (· == ·)) (fun _ _ => true) [()] false (fun _ => true) none
      (some ["time", "x"]) (reopened afterX) = .ok (some zds) := by
  obtain ⟨_, h1, h2⟩ := C83_written (smallEnv (· == ·)) [()] (by simp) ["time"] ["time"] scalar
    xMeta fresh afterScalar afterX nofun (fun t ht => by rw [List.mem_singleton.1 ht]; decide)
    nofun (fun t ht => by rw [List.mem_singleton.1 ht]; decide)
    ⟨(), by simp, fun h => by cases h⟩ (fun p part hp v hv => by cases hp; cases hv) rfl rfl
  obtain ⟨part, hpart⟩ : ∃ part, (reopened afterX).files true () = some part := ⟨_, rfl⟩
  exact ⟨h1, h2, C83_unloadable _ _ [()] false (fun _ => true) none (reopened afterX) scalar h1
    nofun () (by simp) rfl part hpart (h2 () part hpart), rfl, _, rfl⟩

end ViewFileCase

open ViewFileCase in
/-- The addition of a scalar fails, then another variable is added: the file declares the
scalar, that the partition does not hold. -/
theorem C83_counterexample : ¬ C83_full := by
  intro h
  obtain ⟨part, hpart⟩ : ∃ part, afterX.files true () = some part := ⟨_, rfl⟩
  obtain ⟨v, hv, hc⟩ := h Bool Unit Nat (List Nat) (smallEnv (· == ·)) [()] afterX ["s"] ["s"]
    (by decide) afterX_lives scalar (show scalar ∈ [scalar, xMeta] by simp) () part hpart
  exact written.2.1 () part hpart v hv (congrArg VarMeta.name hc)

end Verif
