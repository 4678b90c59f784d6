import Mathlib.Data.List.Sort

/-! # Standard algorithms used by the contexts -/

namespace Moment

/-- `std::stable_sort` by a numeric key: the result of a stable sort is unique, so any stable algorithm models it. -/
def stableSort {α : Type} (key : α → Nat) (w : List α) : List α := w.insertionSort (fun a b => key a ≤ key b)

/-- `std::unique` followed by `erase`: an element equal to the last one kept is dropped. -/
def uniqueBy {α : Type} (same : α → α → Bool) : List α → List α
  | [] => []
  | a :: w => a :: go a w
where
  go (last : α) : List α → List α
  | [] => []
  | b :: w => if same last b then go last w else b :: go b w

/-- A scan over neighbours, as in `while (rhs_iter != end) { if (p(*lhs_iter, *rhs_iter)) ...; lhs_iter = rhs_iter; ++rhs_iter; }`. -/
def anyNeighbours {α : Type} (p : α → α → Bool) : List α → Bool
  | a :: b :: w => p a b || anyNeighbours p (b :: w)
  | _ => false

end Moment
