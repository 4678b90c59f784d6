import Verif.Model.ValueMatrix
import Verif.Spec.RawPoly

/-! # Specification: matrices of numbers -/

namespace Moment.ValueMatrix

open Moment.Poly (Mono)
open Moment.MatrixBasis (Mat)
open Moment.SymbolMatrix (Host valueAt polyAt AnyMat)

/-- The matrix holds the numbers `d`, as multiples of the symbol 1, and the symbol 0 for zero. -/
structure Numbers (A : Mat Mono) (n : Nat) (d : Nat → Nat → ℂ) : Prop where
  dim : A.dim = n
  square : A.Square
  entries : ∀ i j, i < n → j < n → (d i j = 0 → A.get? i j = some ⟨0, false, 0⟩) ∧ (d i j ≠ 0 → A.get? i j = some ⟨1, false, d i j⟩)

/-- Hermitian matrices of numbers. -/
def Herm (n : Nat) (d : Nat → Nat → ℂ) : Prop := ∀ i j, i < n → j < n → d j i = (starRingEnd ℂ) (d i j)

/-- Anti-Hermitian matrices of numbers. -/
def Anti (n : Nat) (d : Nat → Nat → ℂ) : Prop := ∀ i j, i < n → j < n → d j i = -(starRingEnd ℂ) (d i j)

/-- A square matrix with all its entries. -/
def Dense.Whole (D : Dense) (n : Nat) : Prop := D.rows = n ∧ D.cols = n ∧ D.data.length = n * n

/-- A square matrix whose stored entries lie in it and are stored once. -/
structure Sparse.Whole (D : Sparse) (n : Nat) : Prop where
  rows : D.rows = n
  cols : D.cols = n
  inside : ∀ e ∈ D.entries, e.1 < n ∧ e.2.1 < n
  once : D.entries.Pairwise fun a b => (a.1, a.2.1) ≠ (b.1, b.2.1)

/-- With an entry, the one at the mirrored place is stored too. -/
def Sparse.Mirrored (D : Sparse) : Prop := ∀ e ∈ D.entries, ∃ e' ∈ D.entries, e'.1 = e.2.1 ∧ e'.2.1 = e.1

/-- The value of an entry of a matrix of either kind. -/
noncomputable def anyAt (v : Nat → ℂ) : AnyMat → Nat → Nat → ℂ
  | .mono A => valueAt v A.sym.mat
  | .poly A => polyAt v A.mat

/-- Its dimension. -/
def anyDim : AnyMat → Nat
  | .mono A => A.sym.mat.dim
  | .poly A => A.mat.dim

end Moment.ValueMatrix
