import Verif.Model.Substituted
import Verif.Spec.SymbolMatrix
import Verif.Spec.MomentRules

/-! # Specification: substituted matrices -/

namespace Moment.Substituted

open Moment.Symbols (Table)
open Moment.Poly (Mono MRule)
open Moment.SymbolMatrix (valueAt polyAt)
open Moment.MatrixBasis (polyTable)

/-- The value of an entry. -/
noncomputable def entryAt (v : Nat → ℂ) : Matrix → Nat → Nat → ℂ
  | .mono A => valueAt v A.mat
  | .poly A => polyAt v A.mat

/-- The dimension. -/
def dim : Matrix → Nat
  | .mono A => A.mat.dim
  | .poly A => A.mat.dim

/-- `Hermitian()`. -/
def flagged : Matrix → Bool
  | .mono A => A.hermitian
  | .poly A => A.hermitian

/-- A square matrix of known symbols. -/
def Good (t : Table) : Matrix → Prop
  | .mono A => A.mat.Square ∧ ∀ m ∈ A.mat.data, m.id < t.syms.length
  | .poly A => A.mat.Square ∧ ∀ p ∈ A.mat.data, ∀ m ∈ p, m.id < t.syms.length

/-- The right sides of the rules consist of known symbols. -/
def KnownRules (t : Table) (b : List MRule) : Prop := ∀ r ∈ b, ∀ m ∈ r.rhs, m.id < t.syms.length

/-- The matrix is Hermitian for the given values of the symbols. -/
def HermitianAt (v : Nat → ℂ) (A : Matrix) : Prop := ∀ i j, i < dim A → j < dim A → entryAt v A j i = (starRingEnd ℂ) (entryAt v A i j)

/-- The flags of the rulebook say what they should. -/
def Rules.Honest (t : Table) (R : Rules) : Prop := R.flags = Poly.flagsOf (polyTable t) R.book

end Moment.Substituted
