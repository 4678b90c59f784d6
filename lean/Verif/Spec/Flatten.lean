import Mathlib.Algebra.BigOperators.Group.List.Basic

/-! # What flattened indices are, as in `sub2ind` of MATLAB -/

namespace Moment.Flatten

/-- One number from each list, in all ways; the choice from the first list changes fastest. -/
def choices {α : Type} : List (List α) → List (List α)
  | [] => [[]]
  | l :: ls => (choices ls).flatMap fun v => l.map fun x => x :: v

/-- The place of an entry of an array with these dimensions: each index is worth the product of the dimensions before. -/
def place (dims v : List Nat) : Nat := ((List.range v.length).map fun i => v.getD i 0 * (dims.take i).prod).sum

/-- The indices that an array with these dimensions has, if they begin with `base`. The last index runs over all dimensions that are left. -/
def Admissible (base : Nat) : List Nat → List (List Nat) → Prop
  | dims, [l] => dims ≠ [] ∧ ∀ x ∈ l, base ≤ x ∧ x < base + dims.prod
  | d :: ds, l :: l' :: ls => (∀ x ∈ l, base ≤ x ∧ x < base + d) ∧ Admissible base ds (l' :: ls)
  | _, _ => False

end Moment.Flatten
