import Verif.Model.MatrixSum
import Verif.Spec.SymbolMatrix

/-! # Specification: values of sums of matrices -/

namespace Moment.MatrixSum

open Moment.Symbols (Table)
open Moment.SymbolMatrix (valueAt polyAt)

/-- The value of an entry. -/
noncomputable def entryAt (v : Nat → ℂ) : Part → Nat → Nat → ℂ
  | .mono A => valueAt v A
  | .poly A => polyAt v A

/-- A square matrix of known symbols. -/
def Good (t : Table) : Part → Prop
  | .mono A => A.Square ∧ ∀ m ∈ A.data, m.id < t.syms.length
  | .poly A => A.Square ∧ ∀ p ∈ A.data, ∀ m ∈ p, m.id < t.syms.length

/-- The polynomials of a matrix of polynomials are canonical. -/
def Tidy (t : Table) (o : Poly.Order) : Part → Prop
  | .mono _ => True
  | .poly A => ∀ p ∈ A.data, Poly.Canonical (MatrixBasis.polyTable t) o p

end Moment.MatrixSum
