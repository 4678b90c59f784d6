import Verif.Model.Basis
import Verif.Spec.Sound
import Verif.Spec.MomentRules

/-! # Specification: basis vectors

The unknowns are the real numbers `a 0, a 1, …` and `b 0, b 1, …`. A vector of coefficients stands for the linear combination of the unknowns; a
polynomial stands for its value when each symbol has the value `a + i b`. -/

namespace Moment.BasisVec

/-- The linear combination. -/
def dot {K : Type} [AddMonoid K] [Mul K] (v : List (Nat × K)) (a : Nat → K) : K := (v.map fun e => e.2 * a e.1).sum

/-- A sparse vector as it should be: each index is stored once, in increasing order, and is below the dimension. -/
def Proper {K : Type} (n : Nat) (v : List (Nat × K)) : Prop := v.Pairwise (fun x y => x.1 < y.1) ∧ ∀ e ∈ v, e.1 < n

/-- Column `c` of a matrix of coefficients, applied to the unknowns. -/
def colDot (A : List (Nat × Nat × ℂ)) (c : Nat) (a : Nat → ℂ) : ℂ := ((A.filter fun e => e.2.1 = c).map fun e => e.2.2 * a e.1).sum

/-- Triplets in the order that `setFromSortedTriplets` wants, without repetitions, inside the matrix. -/
def SortedTriplets (rows cols : Nat) (A : List (Nat × Nat × ℂ)) : Prop :=
  A.Pairwise (fun x y => x.2.1 < y.2.1 ∨ (x.2.1 = y.2.1 ∧ x.1 < y.1)) ∧ ∀ e ∈ A, e.1 < rows ∧ e.2.1 < cols

/-- Row `i` of a matrix given by triplets, applied to a vector. -/
noncomputable def apply (T : List (Nat × Nat × ℝ)) (x : Nat → ℝ) (i : Nat) : ℝ := ((T.filter fun e => e.1 = i).map fun e => e.2.2 * x e.2.1).sum

/-- The unknowns in one vector: first all `a`, then all `b`. -/
def joined (n : Nat) (a b : Nat → ℝ) (i : Nat) : ℝ := if i < n then a i else b (i - n)

/-- The value of the polynomial depends on the unknown `a k`. -/
def DependsRe (t : Symbols.Table) (p : List Poly.Mono) (k : Nat) : Prop :=
  ∃ (a b a' : Nat → ℝ), (∀ j, j ≠ k → a' j = a j) ∧ Poly.value (Symbols.point t a' b) p ≠ Poly.value (Symbols.point t a b) p

/-- The value of the polynomial depends on the unknown `b k`. -/
def DependsIm (t : Symbols.Table) (p : List Poly.Mono) (k : Nat) : Prop :=
  ∃ (a b b' : Nat → ℝ), (∀ j, j ≠ k → b' j = b j) ∧ Poly.value (Symbols.point t a b') p ≠ Poly.value (Symbols.point t a b) p

/-- The rule fixes the whole symbol, its real part or its imaginary part. -/
def _root_.Moment.Poly.MRule.Straight (r : Poly.MRule) : Prop := r.partial = true → r.dir.im = 0 ∨ r.dir.re = 0

end Moment.BasisVec
