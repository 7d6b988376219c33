import Verif.Model.Py

/-!
Model of the synchronisation: `zcollection/sync.py` (`ProcessSync`) and
`zcollection/storage.py` (`execute_transaction`).

Several processes execute transactions on the same collection.  A transaction is a set of tasks
executed by the cluster.  The state changes by the small steps below, in any order.
-/

namespace Verif.Lock

/-- Where a process is in `execute_transaction` (storage.py:68-82). -/
inductive Phase where
  /-- not in a transaction -/
  | idle
  /-- storage.py:73, waiting for the lock -/
  | waiting
  /-- storage.py:74-76, in the `with` block -/
  | inside
  /-- storage.py:77-82, the lock is released; the process waits for the end of the tasks -/
  | left
deriving DecidableEq

/-- One process: its phase, how the tasks of its transaction were given (`eager` for the futures of
`Client.map` and `persist`, that the cluster executes at once; not for the delayed tasks), and the
number of its tasks to start and running. -/
structure Proc where
  phase : Phase
  eager : Bool
  pending : Nat
  running : Nat
  failed : Bool
deriving DecidableEq

/-- The processes, the one that holds the lock of the file, and whether the file of the lock
exists. -/
structure State (P : Type) where
  proc : P → Proc
  owner : Option P
  lockFile : Bool

/-- Nothing is executed. -/
def initial (P : Type) : State P := ⟨fun _ => ⟨.idle, false, 0, 0, false⟩, none, false⟩

variable {P : Type} [DecidableEq P]

/-- Change one process. -/
def setProc (s : State P) (p : P) (x : Proc) : State P :=
  { s with proc := fun q => if q = p then x else s.proc q }

/-- What happens. -/
inductive Event (P : Type) where
  /-- the process calls `execute_transaction` with this number of tasks -/
  | begin (p : P) (eager : Bool) (n : Nat)
  /-- `ProcessSync.__enter__` (sync.py:57-58): the lock is taken when nobody holds it -/
  | acquire (p : P)
  /-- the cluster starts a task -/
  | start (p : P)
  /-- a task ends, or raises -/
  | finish (p : P) (ok : Bool)
  /-- `client.gather` returns when all the tasks are done, or raises as soon as a task has raised,
  and `ProcessSync.__exit__` (sync.py:60-64) releases the lock -/
  | leave (p : P)
  /-- an exception in the `with` block (`KeyboardInterrupt`, ...) -/
  | interrupt (p : P)
  /-- storage.py:77-82, all the tasks are finished -/
  | finished (p : P)

/-- The effect of an event, when it can happen.  `begin`: collection/__init__.py:465, 582, 625, 686
and view/__init__.py:119, 284, 329, 535, 792 give eager tasks, collection/__init__.py:411 (insert)
gives delayed tasks. -/
def step (s : State P) : Event P → Option (State P)
  | .begin p eager n =>
    if (s.proc p).phase = .idle ∧ 0 < n then some (setProc s p ⟨.waiting, eager, n, 0, false⟩)
    else none
  | .acquire p =>
    if (s.proc p).phase = .waiting ∧ s.owner = none then
      some { setProc s p { s.proc p with phase := .inside } with owner := some p, lockFile := true }
    else none
  | .start p =>
    -- `client.compute` gives the delayed tasks to the cluster (storage.py:74)
    if 0 < (s.proc p).pending ∧ ((s.proc p).phase = .inside ∨ (s.proc p).phase = .left ∨
        (s.proc p).phase = .waiting ∧ (s.proc p).eager = true) then
      some (setProc s p { s.proc p with
        pending := (s.proc p).pending - 1, running := (s.proc p).running + 1 })
    else none
  | .finish p ok =>
    if 0 < (s.proc p).running then
      some (setProc s p { s.proc p with
        running := (s.proc p).running - 1, failed := (s.proc p).failed || !ok })
    else none
  | .leave p =>
    if (s.proc p).phase = .inside ∧
        ((s.proc p).failed = true ∨ (s.proc p).pending = 0 ∧ (s.proc p).running = 0) then
      some { setProc s p { s.proc p with phase := .left } with owner := none }
    else none
  | .interrupt p =>
    if (s.proc p).phase = .inside then
      some { setProc s p { s.proc p with phase := .left } with owner := none }
    else none
  | .finished p =>
    if (s.proc p).phase = .left ∧ (s.proc p).pending = 0 ∧ (s.proc p).running = 0 then
      some (setProc s p ⟨.idle, false, 0, 0, false⟩)
    else none

/-- Successive events. -/
def run (s : State P) : List (Event P) → Option (State P)
  | [] => some s
  | e :: t => match step s e with
    | none => none
    | some s => run s t

/-- `ProcessSync.is_locked` (sync.py:71-73): the file of the lock exists.  `fasteners` creates it
when the lock is taken and does not remove it. -/
def isLocked (s : State P) : Bool := s.lockFile

end Verif.Lock
