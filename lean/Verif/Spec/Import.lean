import Verif.Model.Import

/-! # Specification: what an imported matrix says about its symbols -/

namespace Moment.Import

open Moment.Symbols
open Moment.Poly (Mono)

/-- The number a monomial stands for when the symbols have the values `v`. -/
noncomputable def value (v : Nat → ℂ) (m : Mono) : ℂ := m.factor * (if m.conj then starRingEnd ℂ (v m.id) else v m.id)

/-- The values agree with the marks of the symbols in the table: Hermitian symbols are real, anti-Hermitian ones imaginary. -/
def Respects (t : Table) (v : Nat → ℂ) : Prop :=
  ∀ s ∈ t.syms, (s.herm = true → (v s.id).im = 0) ∧ (s.anti = true → (v s.id).re = 0)

/-- The matrix of values is Hermitian. -/
def HermitianAt (n : Nat) (M : Nat → Nat → Mono) (v : Nat → ℂ) : Prop :=
  ∀ i < n, ∀ j < n, value v (M i j) = starRingEnd ℂ (value v (M j i))

/-- The matrix of values is symmetric. -/
def SymmetricAt (n : Nat) (M : Nat → Nat → Mono) (v : Nat → ℂ) : Prop :=
  ∀ i < n, ∀ j < n, value v (M i j) = value v (M j i)

/-- The matrix of values is real. -/
def RealAt (n : Nat) (M : Nat → Nat → Mono) (v : Nat → ℂ) : Prop := ∀ i < n, ∀ j < n, (value v (M i j)).im = 0

/-- All that the arguments of `import_matrix` claim about the values. -/
def Claimed (realOnly isComplex isHermitian : Bool) (n : Nat) (M : Nat → Nat → Mono) (size : Nat) (v : Nat → ℂ) : Prop :=
  (realOnly = true → ∀ id < size, (v id).im = 0) ∧
  (isHermitian = true → if isComplex then HermitianAt n M v else SymmetricAt n M v) ∧
  (isComplex = false → RealAt n M v)

/-- Every element that is not zero has a real factor other than zero. -/
def RealFactors (n : Nat) (M : Nat → Nat → Mono) : Prop :=
  ∀ i < n, ∀ j < n, (M i j).id ≠ 0 → (M i j).factor.im = 0 ∧ (M i j).factor ≠ 0

end Moment.Import
