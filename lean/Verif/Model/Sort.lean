/-!
A stable sort.  All stable sorts compute the same function of the list and the (total)
order, so this one stands for the sort of Python (`sorted`) and for the stable sorts of
numpy (`kind='mergesort'`, `lexsort`).
-/

namespace Verif.Sort

variable {α : Type}

/-- Insert an element before the first element it is not greater than. -/
def insort (le : α → α → Bool) (x : α) : List α → List α
  | [] => [x]
  | y :: t => if le x y then x :: y :: t else y :: insort le x t

/-- Stable insertion sort. -/
def isort (le : α → α → Bool) : List α → List α
  | [] => []
  | x :: t => insort le x (isort le t)

end Verif.Sort
