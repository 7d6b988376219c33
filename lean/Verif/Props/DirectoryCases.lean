import Verif.Props.Directory
import Verif.Props.FrameCases

/-! Cases of C71: the collection of PipeCase with its directories. -/

namespace Verif

open Spec Listing Nd Ds Sch Pipe Upd

namespace DirCase

open PipeCase

/-- One key. -/
def nm : Dir.Naming (List Int) := Dir.sequence "key" []

/-- The path of the collection. -/
def base : List Char := "/data".toList

theorem good : GoodNaming nm :=
  (C71_sequence (V := Int) "key" [] (by intro t; simp) (by decide)).1

theorem base_ok : ¬ (nm.first.toList ++ ['=']) <:+: base ++ ['/'] := by
  decide

/-- A new collection. -/
def new : Dir.Disk (List Int) Int := Dir.created files.config

/-- The write of the partition 2 fails. -/
def failing : Faults (List Int) := ⟨fun _ => none, fun _ => false, fun p => decide (p = [2])⟩

/-- An insertion that fails for the partition 2, the same insertion again, a removal that fails
for the partition 1. -/
def events : List (Dir.Event (List Int) Int) :=
  [.call obj (.insert failing true (some 1) none dataset), .opened false,
   .call obj (.insert .never true (some 1) none dataset),
   .call obj (.dropPartitions (fun _ => true)
      ⟨fun _ => none, fun p => decide (p = [1]), fun _ => false⟩)]

/-- The listings after the events. -/
def listings : List (Option (List (List Int))) :=
  (List.range 5).map fun n =>
    (Dir.listKeys nm base (Dir.run nm base world new (events.take n)).root).toOption

example : listings = [some [], some [[1]], some [[1]], some [[1], [2]], some [[1]]] := by
  decide +kernel

/-- The names of the entries of the root. -/
def entries : Node → List String
  | .file => []
  | .dir es => es.map fun e => String.ofList e.1

example : entries (Dir.run nm base world new events).root =
    [".zcollection", ".immutable", "key=1"] := by decide +kernel

example : ∃ l, Dir.listKeys nm base (Dir.run nm base world new events).root = .ok l ∧
    ExactListing nm (Dir.run nm base world new events).files.parts l :=
  (C71_history nm good base base_ok world files.config events).2

/-- The first event raised. -/
example : (Dir.exec nm base world obj new (.insert failing true (some 1) none dataset)).2.2 =
    .error .osError := by
  have : (match (Dir.exec nm base world obj new
      (.insert failing true (some 1) none dataset)).2.2 with
    | .error .osError => true
    | _ => false) = true := by decide +kernel
  split at this
  · assumption
  · cases this

/-- Two keys: the directories of the first key remain when the partitions below are removed, and
are not listed. -/
def two : Dir.Naming (List Int) := Dir.sequence "cycle" ["pass"]

/-- The directories of partitions. -/
def make (ps : List (List Int)) (n : Node) : Py Node :=
  ps.foldl (fun r p => do
    let n ← r
    let path ← Dir.components two p
    Dir.makedirs path n) (.ok n)

/-- The partitions (10, 2), (2, 30) and (2, -1) are created, and the first one removed. -/
def tree : Py Node := do
  let n ← make [[10, 2], [2, 30], [2, -1]] (.dir [(".zcollection".toList, .file)])
  let path ← Dir.components two [10, 2]
  Dir.rmtree path n

example : (tree.map entries).toOption = some [".zcollection", "cycle=10", "cycle=2"] := by
  decide +kernel

example : (do let n ← tree; Dir.listKeys two base n).toOption = some [[2, -1], [2, 30]] := by
  decide +kernel

/-- A date: the directories of the 29th of February and of the 1st of March 2000. -/
example : ((Dir.components (Dir.date .day) [11016]).toOption.map fun l =>
      l.map String.ofList) = some ["year=2000", "month=02", "day=29"] ∧
    (Dir.date .day).back [("year", 2000), ("month", 2), ("day", 29)] = some [11016] := by
  decide +kernel

/-- The calls of FrameCase, all made by the object `obj`. -/
def calls : List (Dir.Event (List Int) Int) := FrameCase.calls.map (.call obj)

example (d : Dir.Disk (List Int) Int) (h : Mirrors nm d.root d.files.parts) :
    SameAt [1] "z" d.files.parts (Dir.run nm base world d calls).files.parts :=
  (C71_frame nm good base base_ok world scheme rfl (by intro h; cases h) [1] "z" d h calls (by
    intro e he
    obtain ⟨c, hc, rfl⟩ := List.mem_map.1 he
    exact FrameCase.calls_leave c hc)).1

/-- A directory that is not one of a partition, such as the temporary directory of a replaced
partition left by a crash (C26): the listing raises, and the directories are not those of the
partitions. -/
def stray : Node := .dir [(".zcollection".toList, .file), ("0f3a".toList, .dir [])]

example : (Dir.listKeys nm base stray).toOption = none := by decide +kernel

end DirCase

end Verif
