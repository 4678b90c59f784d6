import Verif.Model.OperatorMatrix
import Verif.Spec.SymbolMatrix
import Mathlib.Logic.Relation

/-! # Specification: what the entries of matrices of operators are, and what can happen while threads make them -/

namespace Moment.OperatorMatrix

/-- States that can occur. -/
def Reachable (J : Job) (s : State) : Prop := Relation.ReflTransGen (Step J) initial s

/-- The functor throws nothing. -/
def Total (J : Job) : Prop := ∀ r c, r < J.n → c < J.n → J.f r c ≠ none

/-- What is meant to be at row `r`, column `c`: what the functor gives, or, above the diagonal of a matrix that ought to be Hermitian, the conjugate of
what it gives for the transposed place. -/
def value (J : Job) (r c : Nat) : Option HSeq := if J.generic = true ∨ c ≤ r then J.f r c else (J.f c r).map J.conj

/-- The same after simplification of moments. -/
def aliasValue (J : Job) (r c : Nat) : Option HSeq :=
  if J.generic = true ∨ c ≤ r then (value J r c).map J.simp else ((value J c r).map J.simp).map J.conj

/-- The cell of row `r`, column `c`. -/
def cell (J : Job) (r c : Nat) : Nat := c * J.n + r

/-- The place an action writes. -/
def Act.target : Act → Nat
  | .put k _ => k | .turn k _ => k | .simplify k => k | .turnAlias k _ => k

/-- The other place it reads. -/
def Act.source : Act → Nat
  | .put k _ => k | .turn _ j => j | .simplify k => k | .turnAlias _ j => j

/-- A worker meets an exception. -/
def Throws (J : Job) (w : Nat) : Prop := ∃ k, Act.put k none ∈ osProgram J w

end Moment.OperatorMatrix
