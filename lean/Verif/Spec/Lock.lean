import Verif.Model.Lock

/-! Specification of the mutual exclusion. -/

namespace Verif.Spec

open Lock

variable {P : Type}

/-- The process writes: one of its tasks is being executed. -/
def Writes (s : State P) (p : P) : Prop := 0 < (s.proc p).running

/-- The process is in the block of the lock. -/
def Holds (s : State P) (p : P) : Prop := (s.proc p).phase = .inside

instance (s : State P) (p : P) : Decidable (Writes s p) := by unfold Writes; infer_instance

end Verif.Spec
