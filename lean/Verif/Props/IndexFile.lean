import Verif.Lemmas.IndexFile
import Verif.Props.IndexQuery

/-! C67: objects that share the file of an index. -/

namespace Verif

open Spec Ix

variable {dtype schema info : List (String × String)}

/-- A query by an object that has just written the table, and by one that reads it. -/
theorem query_same (keys types : List String) (t : Table) (columns : List (String × List Int))
    (op : Option String) (mask : Option (List Bool)) (only : Bool) :
    query ⟨keys, types, some t, none⟩ columns op mask only =
      query ⟨keys, types, some t, some t⟩ columns op mask only := by
  have hr : Ix.read ⟨keys, types, some t, none⟩ = Ix.read ⟨keys, types, some t, some t⟩ := rfl
  have hc : columnNames ⟨keys, types, some t, none⟩ only =
      columnNames ⟨keys, types, some t, some t⟩ only := rfl
  unfold query
  rw [hr, hc]
  rfl

/-- C67: whatever the calls made before on objects created or opened on the file, an update that
writes rows leaves a file from which an object with the same keys, columns and metadata is opened;
it has the same table, and gives the same answer to every query as the object that was updated.

`_partial`: the columns that the class declares must not contain a key of the partitioning
(`C67_counterexample`), and all the objects must be created with the same metadata
(`C67_metadata_counterexample`). -/
theorem C67_reopen_partial (hd : KeysApart dtype schema) (hne : schema ≠ []) (calls : List Call)
    (hc : AllowedCalls dtype schema info World.start calls) (i : Nat) (o : Obj)
    (ho : (World.start.run dtype schema calls).objs i = some o)
    (l : List (List (String × Int) × Data)) (hl : GoodRows dtype schema l)
    (hrows : ∃ x ∈ l, x.2.rows ≠ []) :
    ∃ o' f p, updateObj o (World.start.run dtype schema calls).file (.ok l) =
        ((o', some f), .ok ()) ∧
      openFile dtype (some f) = .ok p ∧
      p.keys = schema.map (·.1) ∧ o'.keys = schema.map (·.1) ∧
      p.types = dtype ++ schema ∧ o'.types = dtype ++ schema ∧
      p.info = info ∧ o'.info = info ∧
      (tableObj p (some f)).2 = .ok f.table ∧ (tableObj o' (some f)).2 = .ok f.table ∧
      ∀ columns op mask only, (queryObj p (some f) columns op mask only).2 =
        (queryObj o' (some f) columns op mask only).2 := by
  have h := index_run hd hne calls _ (index_start dtype schema info) hc
  obtain ⟨o', f', h1, h2, h3, _, _, h6, _⟩ := updateObj_ok hd hne h o (h.objs i o ho) l hl
  obtain ⟨g, rfl, hcache⟩ := h6 hrows
  obtain ⟨p, hp⟩ : ∃ p, openFile dtype (some g) = .ok p := ⟨_, rfl⟩
  obtain ⟨p1, p2, p3, p4⟩ := openFile_inv hd h3 p hp
  refine ⟨o', g, p, h1, hp, p1, h2.1, p2, h2.2.1, p3, h2.2.2, ?_, ?_, ?_⟩
  · simp only [tableObj, readObj, Ix.read, Obj.state, p4]
    rfl
  · simp only [tableObj, readObj, Ix.read, Obj.state, hcache]
  · intro columns op mask only
    simp only [queryObj, Obj.state, p1, p2, p4, h2.1, h2.2.1, hcache]
    exact query_same _ _ _ _ _ _ _

/-- C67: no update is lost, whichever objects make them: after any calls, the rows of a partition
are those that the last update that returned rows for it computed; there are none when no update
did.

`_partial`: as for `C67_reopen_partial`. -/
theorem C67_shared_partial (hd : KeysApart dtype schema) (hne : schema ≠ []) (calls : List Call)
    (hc : AllowedCalls dtype schema info World.start calls) (part : List (String × Int))
    (hp : part.map (·.1) = schema.map (·.1)) :
    (∀ c ∈ calls, ∀ d, ¬ WritesRows c part d) ∧
      computedRows part (rowsIn (World.start.run dtype schema calls).file) = [] ∨
    ∃ before c after d, calls = before ++ c :: after ∧ WritesRows c part d ∧
      Computed part d (computedRows part (rowsIn (World.start.run dtype schema calls).file)) ∧
      ∀ c' ∈ after, ∀ d', ¬ WritesRows c' part d' := by
  suffices ∀ w, IndexInv dtype schema info w → AllowedCalls dtype schema info w calls →
      (∀ c ∈ calls, ∀ d, ¬ WritesRows c part d) ∧
        computedRows part (rowsIn (w.run dtype schema calls).file) =
          computedRows part (rowsIn w.file) ∨
      ∃ before c after d, calls = before ++ c :: after ∧ WritesRows c part d ∧
        Computed part d (computedRows part (rowsIn (w.run dtype schema calls).file)) ∧
        ∀ c' ∈ after, ∀ d', ¬ WritesRows c' part d' from
    this _ (index_start dtype schema info) hc
  clear hc
  induction calls with
  | nil => exact fun w _ _ => .inl ⟨by simp, rfl⟩
  | cons c t ih =>
    intro w h hc
    have hstep : (∀ d, ¬ WritesRows c part d) ∧ computedRows part (rowsIn (w.step dtype schema c).file) =
          computedRows part (rowsIn w.file) ∨
        ∃ d, WritesRows c part d ∧
          Computed part d (computedRows part (rowsIn (w.step dtype schema c).file)) := by
      have hc1 := hc.1
      cases c with
      | create i m => exact .inl ⟨fun d ⟨_, _, e, _⟩ => by (cases e), rfl⟩
      | reopen i =>
        refine .inl ⟨fun d ⟨_, _, e, _⟩ => by (cases e), ?_⟩
        simp only [World.step]
        split <;> rfl
      | query i columns op mask only =>
        refine .inl ⟨fun d ⟨_, _, e, _⟩ => by (cases e), ?_⟩
        simp only [World.step]
        split <;> rfl
      | table i =>
        refine .inl ⟨fun d ⟨_, _, e, _⟩ => by (cases e), ?_⟩
        simp only [World.step]
        split <;> rfl
      | update i r =>
        simp only [World.step]
        obtain ⟨o, ho⟩ := Option.ne_none_iff_exists'.1 hc1.1
        simp only [ho]
        cases r with
        | error e =>
          exact .inl ⟨fun d ⟨_, _, e, _⟩ => by (cases e), rfl⟩
        | ok l =>
          obtain ⟨o', f', h1, _, _, h4, h5, _⟩ :=
            updateObj_ok hd hne h o (h.objs i o ho) l (hc1.2 l rfl)
          rw [h1]
          by_cases hx : ∃ x ∈ l, x.1 = part ∧ x.2.rows ≠ []
          · obtain ⟨x, hx, rfl, hr⟩ := hx
            exact .inr ⟨x.2, ⟨i, l, rfl, hx, hr⟩, h4 x hx hr⟩
          · refine .inl ⟨?_, h5 part hp fun x hxl hxp =>
              Classical.byContradiction fun hr => hx ⟨x, hxl, hxp, hr⟩⟩
            rintro d ⟨_, _, e, hm, hr⟩
            cases e
            exact hx ⟨_, hm, rfl, hr⟩
    rcases ih _ (index_step hd hne h c hc.1) hc.2 with ⟨a1, a2⟩ | ⟨before, c', after, d, b1, b2, b3, b4⟩
    · rcases hstep with ⟨s1, s2⟩ | ⟨d, s1, s2⟩
      · refine .inl ⟨?_, a2.trans s2⟩
        intro c' hc'
        rcases List.mem_cons.1 hc' with rfl | hc'
        · exact s1
        · exact a1 c' hc'
      · refine .inr ⟨[], c, t, d, rfl, s1, ?_, a1⟩
        show Computed part d (computedRows part (rowsIn ((w.step dtype schema c).run dtype schema t).file))
        rw [a2]
        exact s2
    · exact .inr ⟨c :: before, c', after, d, by rw [b1]; rfl, b2, b3, b4⟩

/-- C67: an index is opened after the first update that wrote a row, and not before: then `open`
raises, and so does `table`. -/
theorem C67_open (hd : KeysApart dtype schema) (hne : schema ≠ []) (calls : List Call)
    (hc : AllowedCalls dtype schema info World.start calls) :
    ((∃ c ∈ calls, ∃ part d, WritesRows c part d) →
      ∃ p, openFile dtype (World.start.run dtype schema calls).file = .ok p) ∧
    (¬ (∃ c ∈ calls, ∃ part d, WritesRows c part d) →
      openFile dtype (World.start.run dtype schema calls).file = .error .osError ∧
      ∀ o, tableObj o (World.start.run dtype schema calls).file = (o, .error .valueError)) := by
  suffices ∀ w, IndexInv dtype schema info w → AllowedCalls dtype schema info w calls →
      ((∃ g, w.file = some g) ∨ (∃ c ∈ calls, ∃ part d, WritesRows c part d) →
        ∃ g, (w.run dtype schema calls).file = some g) ∧
      (w.file = none ∧ ¬ (∃ c ∈ calls, ∃ part d, WritesRows c part d) →
        (w.run dtype schema calls).file = none) by
    obtain ⟨h1, h2⟩ := this _ (index_start dtype schema info) hc
    refine ⟨fun h => ?_, fun h => ?_⟩
    · obtain ⟨g, hg⟩ := h1 (.inr h)
      exact ⟨_, by rw [hg]; rfl⟩
    · rw [h2 ⟨rfl, h⟩]
      exact ⟨rfl, fun _ => rfl⟩
  clear hc
  induction calls with
  | nil => exact fun w _ _ => ⟨fun h => h.elim id (fun ⟨_, h, _⟩ => nomatch h), fun h => h.1⟩
  | cons c t ih =>
    intro w h hc
    have hstep : ((w.step dtype schema c).file = w.file ∧ ¬ ∃ part d, WritesRows c part d) ∨
        ((∃ g, (w.step dtype schema c).file = some g) ∧ ∃ part d, WritesRows c part d) := by
      have hc1 := hc.1
      cases c with
      | create i m => exact .inl ⟨rfl, fun ⟨_, _, _, _, e, _⟩ => by (cases e)⟩
      | reopen i =>
        refine .inl ⟨?_, fun ⟨_, _, _, _, e, _⟩ => by (cases e)⟩
        simp only [World.step]
        split <;> rfl
      | query i columns op mask only =>
        refine .inl ⟨?_, fun ⟨_, _, _, _, e, _⟩ => by (cases e)⟩
        simp only [World.step]
        split <;> rfl
      | table i =>
        refine .inl ⟨?_, fun ⟨_, _, _, _, e, _⟩ => by (cases e)⟩
        simp only [World.step]
        split <;> rfl
      | update i r =>
        simp only [World.step]
        obtain ⟨o, ho⟩ := Option.ne_none_iff_exists'.1 hc1.1
        simp only [ho]
        cases r with
        | error e => exact .inl ⟨rfl, fun ⟨_, _, _, _, e, _⟩ => by (cases e)⟩
        | ok l =>
          obtain ⟨o', f', h1, _, _, _, _, h6, h7⟩ :=
            updateObj_ok hd hne h o (h.objs i o ho) l (hc1.2 l rfl)
          rw [h1]
          by_cases hx : ∃ x ∈ l, x.2.rows ≠ []
          · obtain ⟨g, hg, _⟩ := h6 hx
            obtain ⟨x, hxl, hr⟩ := hx
            exact .inr ⟨⟨g, hg⟩, x.1, x.2, i, l, rfl, hxl, hr⟩
          · refine .inl ⟨(h7 fun x hxl => Classical.byContradiction fun hr => hx ⟨x, hxl, hr⟩).1, ?_⟩
            rintro ⟨_, _, _, _, e, hm, hr⟩
            cases e
            exact hx ⟨_, hm, hr⟩
    obtain ⟨i1, i2⟩ := ih _ (index_step hd hne h c hc.1) hc.2
    refine ⟨fun hh => i1 ?_, fun hh => i2 ?_⟩
    · rcases hstep with ⟨s1, s2⟩ | ⟨s1, _⟩
      · rcases hh with hh | ⟨c', hc', hw⟩
        · exact .inl (by rw [s1]; exact hh)
        · rcases List.mem_cons.1 hc' with rfl | hc'
          · exact absurd hw s2
          · exact .inr ⟨c', hc', hw⟩
      · exact .inl s1
    · rcases hstep with ⟨s1, s2⟩ | ⟨_, s2⟩
      · exact ⟨by rw [s1]; exact hh.1, fun ⟨c', hc', hw⟩ => hh.2 ⟨c', by simp [hc'], hw⟩⟩
      · exact absurd ⟨c, by simp, s2⟩ hh.2

/-- C67: after any calls, an object opened on the file answers a query, with a mask or without,
from the table of the file: it selects only records of rows that the mask keeps and that satisfy the
conditions; it selects all of them when no such row is strictly inside another one of the same
partition (`C42_counterexample`). -/
theorem C67_answer (hd : KeysApart dtype schema) (hne : schema ≠ []) (calls : List Call)
    (hc : AllowedCalls dtype schema info World.start calls) (g : File)
    (hg : (World.start.run dtype schema calls).file = some g)
    (hs : "start" ∈ dtype.map (·.1) ∧ "stop" ∈ dtype.map (·.1))
    (columns : List (String × List Int)) (hcol : ∀ c ∈ columns, c.1 ∈ (dtype ++ schema).map (·.1))
    (op : String) (hop : op ∈ ["and", "and_not", "or", "xor"]) (mask : Option (List Bool))
    (hm : ∀ m, mask = some m → m.length = g.table.rows.length) :
    ∃ p out, openFile dtype (some g) = .ok p ∧
      (queryObj p (some g) columns (some op) mask true).2 = .ok out ∧
      (∀ part j, Selected out part j → part.map (·.1) = schema.map (·.1) ∧
        ∃ r, Matched g.table mask op columns r ∧ InPart part r ∧ RowCovers r j) ∧
      (NotNested (schema.map (·.1)) (Matched g.table mask op columns) → ∀ part j,
        part.map (·.1) = schema.map (·.1) →
        (∃ r, Matched g.table mask op columns r ∧ InPart part r ∧ RowCovers r j) →
        Selected out part j) := by
  have h := index_run hd hne calls _ (index_start dtype schema info) hc
  obtain ⟨p, hp⟩ : ∃ p, openFile dtype (some g) = .ok p := ⟨_, rfl⟩
  obtain ⟨p1, p2, _, p4⟩ := openFile_inv hd h p (by rw [hg]; exact hp)
  obtain ⟨f1, f2, _, _⟩ := h.file g hg
  have hq : GoodQuery (p.state (some g)) g.table columns mask := by
    refine ⟨?_, ?_, ?_, ?_, ?_, hm⟩
    · show p.keys ≠ []
      rw [p1]
      simpa using hne
    · simp only [Obj.state, p4, Ix.read]
      rfl
    · intro n hn
      rw [f1, List.map_append, List.mem_append]
      rcases List.mem_append.1 hn with hn | hn
      · exact .inr (p1 ▸ (show n ∈ p.keys from hn))
      · simp only [List.mem_cons, List.not_mem_nil, or_false] at hn
        rcases hn with rfl | rfl
        · exact .inl hs.1
        · exact .inl hs.2
    · intro r hr n hn hl
      rw [← f2 r hr] at hn
      obtain ⟨x, hx, rfl⟩ := List.mem_map.1 hn
      rw [List.lookup_eq_none_iff] at hl
      simpa using hl x hx
    · intro c hcm
      rw [f1]
      refine ⟨hcol c hcm, ?_⟩
      show c.1 ∈ p.types.map (·.1)
      rw [p2]
      exact hcol c hcm
  have hk : (p.state (some g)).keys = schema.map (·.1) := p1
  by_cases hn : NotNested (schema.map (·.1)) (Matched g.table mask op columns)
  · obtain ⟨out, h1, h2, _⟩ := C42_query_partial (p.state (some g)) columns op hop mask g.table hq
      (by rw [hk]; exact hn)
    rw [hk] at h2
    exact ⟨p, out, hp, h1, fun part j hj => (h2 part j).1 hj,
      fun _ part j hpart hr => (h2 part j).2 ⟨hpart, hr⟩⟩
  · obtain ⟨out, h1, h2, _⟩ := C42_sound (p.state (some g)) columns op hop mask g.table hq
    rw [hk] at h2
    exact ⟨p, out, hp, h1, h2, fun hn' => absurd hn' hn⟩

/-- C67: an object keeps the table it has read or written: its queries do not depend on the file any
more. -/
theorem C67_cache (o : Obj) (f g : Option File) (columns : List (String × List Int))
    (op : Option String) (mask : Option (List Bool)) (t : Table) (ho : o.cache = some t) :
    (queryObj o f columns op mask true).2 = (queryObj o g columns op mask true).2 ∧
      (queryObj o f columns op mask true).1.cache = some t := by
  refine ⟨?_, ?_⟩
  · simp only [queryObj, Obj.state, ho]
    unfold query
    rfl
  · simp only [queryObj]
    split
    · exact ho
    · simp only [readObj, Ix.read, Obj.state, ho]

end Verif
