import Verif.Lemmas.Frame
import Verif.Props.PipelineCases

/-! C69: what is stored stays until a call addresses it. -/

namespace Verif

open Spec Nd Ds Sch Pipe Upd

variable {V : Type}

/-- C69: a call, successful or not, made by any object, whatever fails in the storage, leaves
the variable of a partition that it does not address. -/
theorem C69_call (w : World (List Int) V) (sc : Scheme V) (hsplit : w.split = splitDataset sc)
    (hsc : GoodScheme sc) (o : Obj V) (fs : Files (List Int) V) (k : List Int) (n : String)
    (c : Call (List Int) V) (h : Leaves sc w k n c) :
    SameAt k n fs.parts (exec w o fs c).2.1.parts := by
  unfold exec
  split
  · exact SameAt.refl _ _ _
  · cases c with
    | partitions filters => exact SameAt.refl _ _ _
    | load le delayed sel filters ix => exact SameAt.refl _ _ _
    | map delayed sel filters f => exact SameAt.refl _ _ _
    | mapOverlap delayed sel filters depth f => exact SameAt.refl _ _ _
    | validatePartitions filters fix => exact validatePartitions_agree h n fs
    | insert faults validate np merge ds =>
      exact SameAt.of_eq (insert_other hsplit hsc h.1 h.2.1 h.2.2 fs)
    | update delayed sel depth filters f isLazy vars workers => exact update_agree h fs
    | addVariable faults m => exact addVariable_agree h fs k
    | dropVariable faults name => exact dropVariable_agree h fs k
    | dropPartitions filters faults => exact dropPartitions_agree h n fs

/-- C69: a stored variable of a partition stays the same, and a variable that is not stored
stays away, through any history of calls that do not address it: successful or not, with
failures of the storage, by any objects, with the collection opened again at any time. -/
theorem C69_history (w : World (List Int) V) (sc : Scheme V) (hsplit : w.split = splitDataset sc)
    (hsc : GoodScheme sc) (k : List Int) (n : String) (fs fs' : Files (List Int) V)
    (h : Later w (Leaves sc w k n) fs fs') : SameAt k n fs.parts fs'.parts := by
  induction h with
  | start => exact SameAt.refl _ _ _
  | call o c _ hc ih => exact ih.trans (C69_call w sc hsplit hsc o _ k n c hc)
  | opened readOnly _ ih => exact ih.trans (SameAt.of_eq (by rw [fromConfig_parts.1]))

/-- C69: the variables that are not split are written once: no history of calls, whatever they
address, changes them. -/
theorem C69_immutable (w : World (List Int) V) (fs fs' : Files (List Int) V)
    (h : Later w (fun _ => True) fs fs') (iv : List (Var V)) (hi : fs.imm = some iv) :
    fs'.imm = some iv := by
  induction h with
  | start => exact hi
  | call o c _ _ ih => exact exec_imm o _ c ih
  | opened readOnly _ ih => rw [fromConfig_parts.2]; exact ih

/-- C69: the records of an insertion that returned stay until a call addresses them.  After any
history of calls that do not address the variable `v` of the partition `k`, this partition
stores exactly the records of the key `k` of the inserted variable, and each load of this
partition that returns and selects the variable gives these records. -/
theorem C69_inserted (w : World (List Int) V) (o : Obj V) (sc : Scheme V)
    (hsplit : w.split = splitDataset sc) (hsc : GoodScheme sc)
    (haxis : o.imm = true → o.axis = o.dim) (hdims : ∀ m ∈ o.metas, m.dims.Nodup)
    (faults : Faults (List Int)) (validate : Bool) (np : Option Int)
    (ds ds' : Dataset V) (hi : Insertable o ds)
    (hok : ∀ v ∈ ds.vars, ArrOk v.array) (fs fs1 fs2 : Files (List Int) V) (hs : Aligned o fs)
    (ks : List (List Int))
    (h : Sch.insert w o faults validate np none ds fs = (ds', fs1, .ok ks))
    (hsort : ds'.delayed = true ∨ KeysMonotone sc ds'.vars)
    (k : List Int) (hk : k ∈ ks) (v : Var V) (hv : v ∈ ds'.vars) (hd : o.dim ∈ v.dims)
    (hl : Later w (Leaves sc w k v.name) fs1 fs2) :
    ∃ lo hi u, RecordsWithKey sc ds'.vars k lo hi ∧ RecordsOf o.dim lo hi v u ∧
      (∀ x : Var V, x.name = v.name → (Stores fs2.parts k x ↔ x = u)) ∧
      ∀ (o2 : Obj V) (le : List Int → List Int → Bool) (d : Bool) (sel : Option (List String))
        (filters : List Int → Bool) (z : Dataset V),
        (w.list fs2.parts).filter filters = [k] → Chosen sel v.name →
        Sch.load w o2 le d sel filters none fs2 = .ok (some z) →
        { u with delayed := d } ∈ z.vars := by
  have hagree := C69_history w sc hsplit hsc k v.name fs1 fs2 hl
  rcases insert_core hsplit hsc haxis hdims hi hok hs h hsort with ⟨_, e, he⟩ |
    ⟨zds, pieces, n, c1, c2, c3, c4, c5, c6, c7, c8, c9, c10, c11, c12, c13, c14, c15, c16⟩
  · cases he
  · obtain ⟨rfl, heff⟩ := c16 ks rfl
    obtain ⟨r1, r2⟩ := core_records c1 c2 c4 c9 c8 c10 c11 c12
    obtain ⟨p, hp, rfl⟩ := List.mem_map.1 hk
    have hparts : fs1.parts p.1 = some (zds.vars.map (pieceVar o.dim p.2)) := by
      have := heff p hp
      unfold EffectOn at this
      split at this
      · exact this
      · exact this
      · next hm => cases hm
    have hvz : v ∈ zds.vars := by
      rw [c4]
      exact List.mem_filter.2 ⟨hv, decide_eq_true hd⟩
    have hst1 : ∀ x : Var V, x.name = v.name →
        (Stores fs1.parts p.1 x ↔ x = pieceVar o.dim p.2 v) := by
      intro x hx
      constructor
      · rintro ⟨vars, h1, h2⟩
        rw [hparts] at h1
        cases h1
        obtain ⟨y, hy, rfl⟩ := List.mem_map.1 h2
        rw [eq_of_nodup_map c5.names hy hvz hx]
      · rintro rfl
        exact ⟨_, hparts, List.mem_map_of_mem hvz⟩
    have hst2 : ∀ x : Var V, x.name = v.name →
        (Stores fs2.parts p.1 x ↔ x = pieceVar o.dim p.2 v) := fun x hx =>
      (hagree.2 x hx).symm.trans (hst1 x hx)
    refine ⟨p.2.1, p.2.2, pieceVar o.dim p.2 v, r1 p hp, pieceVar_records (c2 v hv).2, hst2, ?_⟩
    intro o2 le d sel filters z hf hch hz
    obtain ⟨u, h1, h2, h3⟩ := load_one (v := pieceVar o.dim p.2 v) hf hz
      ((hst2 (pieceVar o.dim p.2 v) rfl).2 rfl) hch
    rwa [(hst2 u h2).1 h1] at h3

end Verif
