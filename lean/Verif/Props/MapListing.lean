import Verif.Props.Overlap
import Verif.Props.Listing

/-! C35: `map` over the partitions of a directory. -/

namespace Verif

open Spec Nd Ds Upd Listing Path

variable {V : Type}

/-- C35: `map` over the partitions selected by a filter in the directory of a collection
gives exactly one result for each stored partition that the filter keeps, with its keys, in
increasing order; each result is that of the callback for the content of the partition. -/
theorem C35_map_selected_partial {R : Type} (fmt : Int → List Char)
    (hfmt : fmt = fmtInt ∨ fmt = fmt02) (k : String) (ks : List String) (base : List Char)
    (root : Node) (hroot : RootLayout fmt k ks root) (hdot : ∀ t, k.toList ≠ '.' :: t)
    (hk : ∀ x ∈ k :: ks, '=' ∉ x.toList) (hb : ¬ (k.toList ++ ['=']) <:+: base ++ ['/'])
    (hne : base ≠ [])
    (hin : ∀ kvs, Stored fmt (k :: ks) root kvs → ¬ base <:+: '/' :: joinWith fmt ['/'] kvs)
    (imm : Option (List Char))
    (himm : imm = none ∨ imm = some (base ++ "/.immutable".toList))
    (f : List (String × Int) → Py Bool) (keep : List (String × Int) → Bool)
    (hp : ∀ kvs, Stored fmt (k :: ks) root kvs → f kvs = .ok (keep kvs))
    (c : Cfg (List Char) V) (cb : Callback V R) (st : Store (List Char) V)
    (hparts : partitions (k :: ks) (k :: ks).length base imm (some f) root = .ok c.parts)
    (r : List (List (String × Int) × R))
    (h : mapParts c (parse (k :: ks)) cb st = .ok r) :
    (∀ kvs, kvs ∈ r.map (·.1) ↔ Stored fmt (k :: ks) root kvs ∧ keep kvs = true) ∧
    (r.map (·.1)).Pairwise (fun a b => values a < values b) ∧
    ∀ x ∈ r, ∃ zds, loadDataset c st (partitionPath fmt base x.1) = .ok zds ∧
      cb zds none = .ok x.2 := by
  have hf : GoodFmt fmt := by
    rcases hfmt with rfl | rfl
    · exact goodFmt_int
    · exact goodFmt_02
  obtain ⟨kl, _, h2, h3, h4, _⟩ := C20_selection_partial fmt hfmt k ks base root hroot hdot hk hb
    hne hin imm himm f keep hp
  rw [hparts] at h4
  simp only [Except.ok.injEq] at h4
  obtain ⟨hlen, hr⟩ := (C35_map c (parse (k :: ks)) cb st).1 r h
  -- the i-th result
  have hget : ∀ (i : Nat) kvs, (kl.filter keep)[i]? = some kvs → ∃ res zds,
      r[i]? = some (kvs, res) ∧ loadDataset c st (partitionPath fmt base kvs) = .ok zds ∧
      cb zds none = .ok res := by
    intro i kvs hi
    have hmem := (List.mem_filter.1 (List.mem_of_getElem? hi)).1
    obtain ⟨key, res, zds, e1, e2, e3, e4⟩ := hr i (partitionPath fmt base kvs) (by
      rw [h4, Selected, List.getElem?_map, hi]; rfl)
    rw [parse_partitionPath fmt hf base k ks kvs (Stored_names ((h2 kvs).1 hmem)) hk hb] at e2
    cases e2
    exact ⟨res, zds, e1, e3, e4⟩
  have hlen' : r.length = (kl.filter keep).length := by
    rw [hlen, h4, Selected, List.length_map]
  have hkeys : r.map (·.1) = kl.filter keep := by
    apply List.ext_getElem?
    intro i
    rw [List.getElem?_map]
    cases hi : (kl.filter keep)[i]? with
    | none =>
      rw [List.getElem?_eq_none_iff] at hi
      rw [List.getElem?_eq_none (by omega)]
      rfl
    | some kvs =>
      obtain ⟨res, _, e1, _⟩ := hget i kvs hi
      rw [e1]
      rfl
  refine ⟨?_, ?_, ?_⟩
  · intro kvs
    rw [hkeys, List.mem_filter, h2]
  · rw [hkeys]
    exact h3.filter _
  · intro x hx
    obtain ⟨i, hi⟩ := List.getElem?_of_mem hx
    have hlt : i < (kl.filter keep).length := by
      rw [← hlen']; exact (List.getElem?_eq_some_iff.1 hi).1
    obtain ⟨res, zds, e1, e2, e3⟩ := hget i _ (List.getElem?_eq_getElem hlt)
    rw [hi] at e1
    cases e1
    exact ⟨zds, e2, e3⟩

/-- The number of records of a dataset along `"d"`. -/
def countD : Callback Nat Nat := fun zds _ =>
  match zds.dims.lookup "d" with
  | none => .error .keyError
  | some n => .ok n

/-- The premises about the listing and the call are met by the directory of `C16`. -/
example : (∃ parts, partitions ["cycle", "pass"] 2 "/data".toList none
      (some fun x => .ok (decide (x.map (·.2) ≠ [10, 2]))) c16Root = .ok parts ∧
    mapParts { delayed := true, imm := none, sel := none, depth := 0, dim := "d", trim := true,
               parts } (parse ["cycle", "pass"]) countD
      (fun p => some [dvar "x" (p.map fun _ => 0)]) =
      .ok [([("cycle", 2), ("pass", 30)], 21), ([("cycle", 10), ("pass", -1)], 22)]) :=
  ⟨["/data/cycle=2/pass=30".toList, "/data/cycle=10/pass=-1".toList], by decide +kernel,
    by decide +kernel⟩

end Verif
