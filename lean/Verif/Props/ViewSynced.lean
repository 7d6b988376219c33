import Verif.Props.View

/-! C36: what `is_synced` answers. -/

namespace Verif

open Spec Nd Ds Upd Vw

variable {D P V H : Type} [DecidableEq D] [DecidableEq P] [DecidableEq H]

omit [DecidableEq D] [DecidableEq P] in
/-- When a dry run answers. -/
theorem syncOne_dry_answers (e : Env D V H) (metas : List (VarMeta V))
    (ref cur : Option (Part V H)) : (∃ b, (syncOne e true metas ref cur).2 = .ok b) ↔
      ∀ part, cur = some part → part.check ≠ none ∧ ∃ l d, HasAxis e ref l d := by
  cases cur with
  | none => exact ⟨fun _ _ h => (by cases h), fun _ => ⟨true, rfl⟩⟩
  | some part =>
    constructor
    · rintro ⟨b, hb⟩ part' hp
      cases hp
      simp only [syncOne] at hb
      split at hb
      · cases hb
      · next c hc =>
        split at hb
        · cases hb
        · next a ha =>
          exact ⟨by rw [hc]; simp, _, _, (axisRef_spec e ref a ha).1⟩
    · intro h
      obtain ⟨h1, l, d, h2⟩ := h part rfl
      obtain ⟨c, hc⟩ := Option.ne_none_iff_exists'.1 h1
      simp only [syncOne, hc, axisRef_ok e ref l d h2]
      split
      · split <;> exact ⟨_, rfl⟩
      · exact ⟨_, rfl⟩

/-- C36: `is_synced` answers exactly when the reference has partitions, each partition of the
view has a checksum and its axis can be read in the reference; it raises otherwise. -/
theorem C36_answers (e : Env D V H) (listing : List P) (hn : listing.Nodup)
    (st : State D P V H) : (∃ b, (isSynced e listing st).2 = .ok b) ↔
      listing ≠ [] ∧ ∀ p ∈ listing, ∀ part, st.files e.base p = some part →
        part.check ≠ none ∧ ∃ l d, HasAxis e (st.files e.refDir p) l d := by
  obtain ⟨r1, r2⟩ := runTasks_result e (syncOne e true st.metas) listing hn st.files
  unfold isSynced
  constructor
  · rintro ⟨b, hb⟩
    split at hb
    · cases hb
    · next hl =>
      refine ⟨hl, fun p hp => ?_⟩
      split at hb
      · cases hb
      · next fs l hr =>
        rw [hr] at r1
        obtain ⟨h1, h2⟩ := r1 l rfl
        rw [← h1] at hp
        obtain ⟨x, hx, rfl⟩ := List.mem_map.1 hp
        exact (syncOne_dry_answers e st.metas _ _).1 ⟨_, h2 x.1 x.2 hx⟩
  · rintro ⟨hl, h⟩
    rw [if_neg hl]
    obtain ⟨l, hr⟩ := r2 fun p hp => (syncOne_dry_answers e st.metas _ _).2 (h p hp)
    split
    · next h => rw [h] at hr; cases hr
    · exact ⟨_, rfl⟩

/-- C36: the answer of `is_synced` is True exactly when the view has all the partitions of the
reference, with its axes and variables of their lengths. -/
theorem C36_verdict (e : Env D V H) (listing : List P) (hn : listing.Nodup)
    (st : State D P V H) (hs : SoundView e st.files) (hc : NoCollision e st.files) (b : Bool)
    (h : (isSynced e listing st).2 = .ok b) :
    b = true ↔ ∀ p ∈ listing, InStep e (st.files e.refDir p) (st.files e.base p) := by
  obtain ⟨r1, _⟩ := runTasks_result e (syncOne e true st.metas) listing hn st.files
  unfold isSynced at h
  split at h
  · cases h
  · split at h
    · cases h
    · next fs l hr =>
      rw [hr] at r1
      obtain ⟨h1, h2⟩ := r1 l rfl
      cases h
      rw [List.isEmpty_iff, List.filter_eq_nil_iff]
      constructor
      · intro hq p hp
        have hp' := hp
        rw [← h1] at hp'
        obtain ⟨x, hx, rfl⟩ := List.mem_map.1 hp'
        have hb : x.2 = false := by simpa using hq x hx
        obtain ⟨part, c, l, d, e1, e2, e3, e4⟩ :=
          (syncOne_dry_result e st.metas _ _ x.2 (h2 x.1 x.2 hx)).1 hb
        have hsp := hs.view x.1 part e1
        have hv : c.values = l := hc x.1 part c l d e1 e2 e3 ((hsp.sum c e2).symm.trans e4)
        have hd : c.dim = d := (hs.dim x.1 part c e1 e2).trans (hs.refDim x.1 l d e3).symm
        exact ⟨part, c, l, d, e1, e2, e3, hv, e4, hd ▸ hv ▸ hsp.long c e2⟩
      · intro hq x hx
        have hp : x.1 ∈ listing := by rw [← h1]; exact List.mem_map_of_mem hx
        obtain ⟨part, c, l, d, e1, e2, e3, e4, e5, _⟩ := hq x.1 hp
        have := (syncOne_dry_result e st.metas _ _ x.2 (h2 x.1 x.2 hx)).2
          ⟨part, c, l, d, e1, e2, e3, e5⟩
        simp [this]

/-- C36, after any history in which variables are only added to a view in step with its
reference. -/
theorem C36_verdict_history (e : Env D V H) (hd : e.base ≠ e.refDir) (listing : List P)
    (hn : listing.Nodup) (st : State D P V H) (hr : Reach e true st)
    (hc : NoCollision e st.files) (b : Bool) (h : (isSynced e listing st).2 = .ok b) :
    b = true ↔ ∀ p ∈ listing, InStep e (st.files e.refDir p) (st.files e.base p) :=
  C36_verdict e listing hn st (reach_good e hd st hr).sound hc b h

/-- The hypotheses are met: the reference gained a record, and `is_synced` answers False. -/
example : Reach (smallEnv (· == ·)) true (changedView [1, 2] [1, 2, 3]) ∧
    NoCollision (smallEnv (· == ·)) (changedView [1, 2] [1, 2, 3]).files ∧
    (isSynced (smallEnv (· == ·)) [()] (changedView [1, 2] [1, 2, 3])).2 = .ok false :=
  ⟨changedView_reach.1, fun _ _ _ _ _ _ _ _ h => h, rfl⟩

/-- A partition of the view without checksum: `is_synced` raises. -/
example : (isSynced (smallEnv (· == ·)) [()]
    ⟨oneFile (some (onlyTime [1])) (some (onlyTime [1])), [], []⟩).2 = .error .valueError := rfl

end Verif
