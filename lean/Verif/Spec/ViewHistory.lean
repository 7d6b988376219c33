import Verif.Spec.ViewUpdateLoad
import Verif.Spec.UpdateHistory

/-! Specification of a history of updates of a view followed by a load. -/

namespace Verif.Spec

open Nd Ds Upd Vw

variable {D P V H : Type}

/-- An update of a view: how it is run, the partitions, the variables given to the function, and
the function. -/
structure ViewChange (P V : Type) where
  how : How
  filters : P → Bool
  sel : Option (List String)
  f : Callback V (Dict V)

/-- The change makes the content `b` of the view from the content `a`: the reference and the
variables of the view are the same; nothing happens in the partitions that are not selected; for
a selected partition the function is given what the view showed in `a`, and the variables it
returns, and only they, get the values it returns, without those of the neighbours. -/
structure ViewMadeBy (e : Env D V H) (size : P → Nat) (listing : List P) (u : ViewChange P V)
    (a b : State D P V H) : Prop where
  metas : b.metas = a.metas
  reference : ∀ p, b.files e.refDir p = a.files e.refDir p
  elsewhere : ∀ p, p ∉ selected e listing u.filters a → ∀ n, viewValues e b p n = viewValues e a p n
  values : ∀ i p, (selected e listing u.filters a)[i]? = some p →
    ∃ zds d,
      Shows e a size u.sel (shownTo (selected e listing u.filters a) u.how.depth i p) zds ∧
      u.f zds (info size (selected e listing u.filters a) u.how.depth i p) = .ok d ∧
      (∀ x ∈ d, ∃ v, viewValues e b p x.1 = some v ∧
        StoredFrom u.how e.dim zds (info size (selected e listing u.filters a) u.how.depth i p)
          x.1 x.2 v) ∧
      ∀ n, n ∉ d.map (·.1) → viewValues e b p n = viewValues e a p n

/-- The changes, one after the other, make the content `b` from the content `a`. -/
def ViewMadeInTurn (e : Env D V H) (size : P → Nat) (listing : List P) :
    List (ViewChange P V) → State D P V H → State D P V H → Prop
  | [], a, b => b = a
  | u :: t, a, b => ∃ m, ViewMadeBy e size listing u a m ∧ ViewMadeInTurn e size listing t m b

end Verif.Spec
