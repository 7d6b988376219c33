import Verif.Lemmas.ViewUpdate
import Verif.Lemmas.Variable

/-! The arrays given to the callbacks of the updates of a view are well formed. -/

namespace Verif.Vw

open Nd Ds Upd Spec

variable {D P V H : Type}

/-- The arrays of a dataset are well formed. -/
def ArraysOk (zds : Dataset V) : Prop := ∀ v ∈ zds.vars, ArrOk v.array

theorem mk_arrays {vars : List (Var V)} {attrs : List (String × String)}
    {chunks : List (String × Nat)} {limit : Nat} {del : Option Bool} {zds : Dataset V}
    (hv : ∀ v ∈ vars, ArrOk v.array) (h : mk vars attrs chunks limit del = .ok zds) :
    ArraysOk zds := by
  intro v hm
  rw [(mk_spec _ _ _ _ _ _ h).2.1] at hm
  rcases foldl_setVar_mem vars [] v hm with h | h
  · exact hv v h
  · simp at h

theorem concat_arrays {ds r : Dataset V} {others : List (Dataset V)} {dim : String}
    (hd : ArraysOk ds) (ho : ∀ o ∈ others, ArraysOk o) (h : concat ds others dim = .ok r) :
    ArraysOk r := by
  unfold concat at h
  split at h
  · cases h
  split at h
  · cases h
  simp only [bind, Except.bind] at h
  split at h
  · cases h
  · next vars hvars =>
    refine mk_arrays ?_ h
    intro v' hv'
    obtain ⟨v, hvm, hve⟩ := mapPy_mem _ _ _ hvars v' hv'
    split at hve
    · cases hve
    · next ws hws =>
      have hwok : ∀ w ∈ ws, ArrOk w.array := by
        intro w hw
        obtain ⟨o, hom, hoe⟩ := mapPy_mem _ _ _ hws w hw
        unfold getVarE at hoe
        split at hoe
        · cases hoe
        · next x hx =>
          cases hoe
          exact ho o hom _ (getVar_some _ _ _ hx).1
      unfold concatVar at hve
      split at hve
      · cases hve
      split at hve
      · cases hve
      split at hve
      · cases hve; exact hd _ hvm
      · split at hve
        · next a ha =>
          cases hve
          refine concatenate_arrOk ?_ ha
          intro b hb
          rcases List.mem_cons.1 hb with rfl | hb
          · exact hd _ hvm
          · obtain ⟨w, hw, rfl⟩ := List.mem_map.1 hb
            exact hwok w hw
        · cases hve; exact hd _ hvm
        · cases hve

theorem openGroup_arrays {delayed : Bool} {sel : Option (List String)} {vars : List (Var V)}
    {zds : Dataset V} (hv : ∀ v ∈ vars, ArrOk v.array)
    (h : Upd.openGroup delayed sel vars = .ok zds) : ArraysOk zds := by
  refine mk_arrays ?_ h
  intro v hm
  obtain ⟨w, hw, rfl⟩ := List.mem_map.1 hm
  exact hv w (List.mem_filter.1 hw).1

theorem openArrays_ok {delayed : Bool} {cur : Option (Part V H)} {names : List String}
    {vars : List (Var V)} (hc : ∀ part, cur = some part → ∀ v ∈ part.vars, ArrOk v.array)
    (h : mapPy (openArray delayed cur) names = .ok vars) : ∀ v ∈ vars, ArrOk v.array := by
  intro v hv
  obtain ⟨n, _, hn⟩ := mapPy_mem _ _ _ h v hv
  unfold openArray at hn
  split at hn
  · cases hn
  · next part =>
    simp only [bind, Except.bind] at hn
    split at hn
    · cases hn
    · next w hw =>
      cases hn
      unfold getVarE at hw
      split at hw
      · cases hw
      · next x hx =>
        cases hw
        exact hc part rfl w (getVar_some _ _ _ hx).1

theorem addArrays_ok (vars : List (Var V)) (hv : ∀ v ∈ vars, ArrOk v.array) :
    ∀ (zds r : Dataset V), ArraysOk zds → addArrays zds vars = .ok r → ArraysOk r := by
  induction vars with
  | nil => intro zds r hz h; cases h; exact hz
  | cons v t ih =>
    intro zds r hz h
    simp only [addArrays, bind, Except.bind] at h
    split at h
    · cases h
    · next zds' hz' =>
      refine ih (fun w hw => hv w (List.mem_cons_of_mem _ hw)) zds' r ?_ h
      unfold addArray at hz'
      split at hz'
      · next heq =>
        cases hz'
        unfold Ds.addVariable at heq
        split at heq
        · cases heq
        · simp only at heq
          split at heq
          · cases heq
          · next a ha =>
            split at ha
            · cases ha
            · cases ha
              simp only [Prod.mk.injEq] at heq
              rw [← heq.1]
              intro w hw
              rcases setVar_mem _ _ _ hw with rfl | hw
              · exact hv v (List.mem_cons_self ..)
              · exact hz w hw
      · cases hz'

theorem loadOne_arrays {e : Env D V H} {delayed : Bool} {refSel names : List String}
    {ref cur : Option (Part V H)} {zds : Dataset V}
    (hr : ∀ part, ref = some part → ∀ v ∈ part.vars, ArrOk v.array)
    (hc : ∀ part, cur = some part → ∀ v ∈ part.vars, ArrOk v.array)
    (h : loadOne e delayed refSel names ref cur [] = .ok zds) : ArraysOk zds := by
  unfold loadOne at h
  split at h
  · cases h
  · next r =>
    simp only [bind, Except.bind, if_true] at h
    split at h
    · cases h
    · next z hz =>
      have hz := openGroup_arrays (hr r rfl) hz
      split at h
      · split at h
        · cases h
        · next vars hvars => exact mk_arrays (openArrays_ok hc hvars) h
      · split at h
        · cases h
        · next vars hvars =>
          split at h
          · cases h
          · next z' hz' =>
            cases h
            exact addArrays_ok vars (openArrays_ok hc hvars) z _ hz hz'

/-- The arrays of the view and of its reference are well formed. -/
def FilesOk (e : Env D V H) (fs : Files D P V H) : Prop :=
  ∀ p part, fs e.refDir p = some part ∨ fs e.base p = some part → ∀ v ∈ part.vars, ArrOk v.array

theorem loadList_arrays {e : Env D V H} {delayed : Bool} {sel : Option (List String)}
    {metas : List (VarMeta V)} {parts : List P} {fs : Files D P V H} {dsl : List (Dataset V × P)}
    (hf : FilesOk e fs) (h : loadList e delayed sel metas parts fs = .ok dsl) :
    ∀ x ∈ dsl, ArraysOk x.1 := by
  intro x hx
  obtain ⟨p, _, hp⟩ := mapPy_mem _ _ _ h x hx
  simp only [bind, Except.bind] at hp
  split at hp
  · cases hp
  · next z hz =>
    cases hp
    exact loadOne_arrays (fun part h => hf p part (.inl h)) (fun part h => hf p part (.inr h)) hz

variable [DecidableEq D] [DecidableEq P]

omit [DecidableEq D] in
theorem selectOverlap_given {e : Env D V H} {depth : Nat} {dsl : List (Dataset V × P)} {p : P}
    {r : Dataset V × (Nat × Nat)} (hd : ∀ x ∈ dsl, ArraysOk x.1)
    (h : selectOverlap e depth dsl p = .ok r) : ArraysOk r.1 := by
  unfold selectOverlap at h
  split at h
  · cases h
  · next w _ =>
    have hsub : ∀ x ∈ ((List.range (2 * depth + 1)).filterMap fun k =>
        if depth ≤ w + k then dsl[w + k - depth]? else none), x ∈ dsl := by
      intro x hx
      obtain ⟨k, _, hk⟩ := List.mem_filterMap.1 hx
      split at hk
      · exact List.mem_of_getElem? hk
      · cases hk
    split at h
    · cases h
    · next x rest heq =>
      rw [heq] at hsub
      simp only [bind, Except.bind] at h
      split at h
      · cases h
      · next zds hz =>
        split at h
        · cases h
        · cases h
          refine concat_arrays (hd x (hsub x (List.mem_cons_self ..))) ?_ hz
          intro o ho
          obtain ⟨y, hy, rfl⟩ := List.mem_map.1 ho
          exact hd y (hsub y (List.mem_cons_of_mem _ hy))

omit [DecidableEq D] in
/-- The arrays to write are well formed if those of the datasets are. -/
theorem callItems_arrays {e : Env D V H} {how : How} {f : Callback V (Dict V)}
    {dsl : List (Dataset V × P)} {p : P} {l : List (String × Py (Arr V))}
    (hf : ∀ zds ind d, ArraysOk zds → f zds ind = .ok d → ∀ x ∈ d, ArrOk x.2)
    (hd : ∀ x ∈ dsl, ArraysOk x.1) (h : callItems e how f dsl p = .ok l) :
    ∀ x ∈ l, ∀ a, x.2 = .ok a → ArrOk a := by
  unfold callItems at h
  split at h
  · split at h
    · cases h
    · next y hy =>
      simp only [bind, Except.bind] at h
      split at h
      · cases h
      · next d hfd =>
        cases h
        intro x hx a ha
        obtain ⟨z, hz, rfl⟩ := List.mem_map.1 hx
        cases ha
        exact hf _ _ d (hd y (List.mem_of_find?_eq_some hy)) hfd z hz
  · simp only [bind, Except.bind] at h
    split at h
    · cases h
    · next zi hz =>
      obtain ⟨zds, ind⟩ := zi
      simp only at h
      split at h
      · cases h
      · next d hfd =>
        cases h
        have hok := hf _ _ d (selectOverlap_given hd hz) hfd
        intro x hx a ha
        obtain ⟨z, hz', rfl⟩ := List.mem_map.1 hx
        simp only at ha
        split at ha
        · exact trim_arrOk (hok z hz') (selectOverlap_le hz) ha
        · cases ha
          exact hok z hz'

/-- The writes keep `Q`, which tells among others that the files are well formed. -/
structure KeptOk (e : Env D V H) (f : Callback V (Dict V)) (Q : Files D P V H → Prop) : Prop where
  callback : ∀ zds ind d, ArraysOk zds → f zds ind = .ok d → ∀ x ∈ d, ArrOk x.2
  files : ∀ fs, Q fs → FilesOk e fs
  step : ∀ fs p n a fs', Q fs → ArrOk a → writeOne e fs p (n, .ok a) = .ok fs' → Q fs'

theorem KeptOk.one {e : Env D V H} {f : Callback V (Dict V)}
    {Q : Files D P V H → Prop} (hk : KeptOk e f Q) {fs fs' : Files D P V H} {p : P}
    {x : String × Py (Arr V)} (hq : Q fs)
    (hc : ∀ a, x.2 = .ok a → ArrOk a) (h : writeOne e fs p x = .ok fs') : Q fs' := by
  obtain ⟨n, r⟩ := x
  cases r with
  | error err => simp only [writeOne, bind, Except.bind] at h; cases h
  | ok a => exact hk.step fs p n a fs' hq (hc a rfl) h

theorem KeptOk.items {e : Env D V H} {f : Callback V (Dict V)}
    {Q : Files D P V H → Prop} (hk : KeptOk e f Q) {p : P}
    (l : List (String × Py (Arr V))) (hc : ∀ x ∈ l, ∀ a, x.2 = .ok a → ArrOk a)
    (fs : Files D P V H) (hq : Q fs) : Q (writeItems e fs p l).1 := by
  induction l generalizing fs with
  | nil => exact hq
  | cons x t ih =>
    simp only [writeItems]
    split
    · exact hq
    · next fs' h =>
      exact ih (fun y hy => hc y (List.mem_cons_of_mem _ hy)) fs'
        (hk.one hq (hc x (List.mem_cons_self ..)) h)

theorem KeptOk.delayed {e : Env D V H} {f : Callback V (Dict V)}
    {Q : Files D P V H → Prop} (hk : KeptOk e f Q) {p : P} (how : How)
    (now : Files D P V H → Py (List (Dataset V × P)))
    (hnow : ∀ fs dsl, Q fs → now fs = .ok dsl → ∀ x ∈ dsl, ArraysOk x.1) (ks : List Nat)
    (fs : Files D P V H) (hq : Q fs) : Q (writeDelayed e how f now p fs ks).1 := by
  induction ks generalizing fs with
  | nil => exact hq
  | cons k t ih =>
    simp only [writeDelayed]
    split
    · exact hq
    · next fs' h =>
      refine ih fs' ?_
      simp only [bind, Except.bind] at h
      split at h
      · cases h
      · next dsl hdsl =>
        split at h
        · cases h
        · next l hl =>
          split at h
          · cases h
          · next x hx =>
            exact hk.one hq (callItems_arrays hk.callback (hnow fs dsl hq hdsl) hl x
              (List.mem_of_getElem? hx)) h

theorem KeptOk.updateOne {e : Env D V H} {f : Callback V (Dict V)}
    {Q : Files D P V H → Prop} (hk : KeptOk e f Q) {p : P} (how : How)
    (now : Files D P V H → Py (List (Dataset V × P)))
    (hnow : ∀ fs dsl, Q fs → now fs = .ok dsl → ∀ x ∈ dsl, ArraysOk x.1)
    (fs : Files D P V H) (hq : Q fs) : Q (Vw.updateOne e how f now fs p).1 := by
  unfold Vw.updateOne
  split
  · exact hq
  · next l h =>
    split
    · exact hk.delayed how now hnow _ fs hq
    · simp only [bind, Except.bind] at h
      split at h
      · cases h
      · next dsl hdsl =>
        exact hk.items l (callItems_arrays hk.callback (hnow fs dsl hq hdsl) h) fs hq

theorem KeptOk.batch {e : Env D V H} {f : Callback V (Dict V)}
    {Q : Files D P V H → Prop} (hk : KeptOk e f Q) (how : How)
    (now : Files D P V H → Py (List (Dataset V × P)))
    (hnow : ∀ fs dsl, Q fs → now fs = .ok dsl → ∀ x ∈ dsl, ArraysOk x.1) (b : List P)
    (fs : Files D P V H) (hq : Q fs) : Q (updateBatch e how f now fs b).1 := by
  induction b generalizing fs with
  | nil => exact hq
  | cons p t ih =>
    simp only [updateBatch]
    have h1 := hk.updateOne (p := p) how now hnow fs hq
    split
    · next h => rw [h] at h1; exact h1
    · next h =>
      rw [h] at h1
      exact ih _ h1

theorem KeptOk.batches {e : Env D V H} {f : Callback V (Dict V)}
    {Q : Files D P V H → Prop} (hk : KeptOk e f Q) (how : How)
    (now : Files D P V H → Py (List (Dataset V × P)))
    (hnow : ∀ fs dsl, Q fs → now fs = .ok dsl → ∀ x ∈ dsl, ArraysOk x.1) (bs : List (List P))
    (fs : Files D P V H) (hq : Q fs) : Q (updateBatches e how f now fs bs).1 := by
  induction bs generalizing fs with
  | nil => exact hq
  | cons b t ih =>
    simp only [updateBatches]
    have h1 := hk.batch how now hnow b fs hq
    split <;> (next h => rw [h] at h1; exact ih _ h1)

/-- What the writes of well formed arrays preserve is preserved by an update, whatever its
outcome. -/
theorem KeptOk.update {e : Env D V H} {how : How} {listing : List P} {filters : P → Bool}
    {sel : Option (List String)} {f : Callback V (Dict V)} {st : State D P V H}
    {Q : Files D P V H → Prop} (hk : KeptOk e f Q)
    (hq : Q st.files) : Q (Vw.update e how listing filters sel f st).1.files := by
  rcases update_split e how listing filters sel f st with ⟨err, h⟩ | ⟨h, _⟩ |
    ⟨dsl, bs, hl, _, hb, _, h⟩
  · rw [h]; exact hq
  · rw [h]; exact hq
  · rw [h]
    refine hk.batches how _ ?_ bs _ hq
    intro fs dsl' hfs hd
    split at hd
    · exact loadList_arrays (hk.files fs hfs) hd
    · cases hd
      exact loadList_arrays (hk.files _ hq) hl

end Verif.Vw
