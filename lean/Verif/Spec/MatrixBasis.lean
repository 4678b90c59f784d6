import Verif.Model.MatrixBasis
import Verif.Spec.Sound
import Mathlib.Algebra.BigOperators.Group.Finset.Basic

/-! # Specification: basis matrices

The unknowns are the real numbers `a 0, a 1, …` and `b 0, b 1, …`. The entries of a symbolic matrix have values when each symbol has the value
`a + i b`; the basis matrices should give the same values as linear combinations. -/

namespace Moment.MatrixBasis

open Moment.Symbols (Table)
open Moment.Poly (Mono)

/-- The value of an entry of a matrix of monomials. -/
noncomputable def monoValue (t : Table) (A : Mat Mono) (a b : Nat → ℝ) (i j : Nat) : ℂ :=
  (A.get? i j).elim 0 (Poly.Mono.value (Symbols.point t a b))

/-- The value of an entry of a matrix of polynomials. -/
noncomputable def polyValue (t : Table) (A : Mat (List Mono)) (a b : Nat → ℝ) (i j : Nat) : ℂ :=
  (A.get? i j).elim 0 (Poly.value (Symbols.point t a b))

/-- The value of each entry is the combination of the entries of the basis matrices `R k` and `I k`. -/
def Rebuilds (t : Table) (n : Nat) (v : (Nat → ℝ) → (Nat → ℝ) → Nat → Nat → ℂ) (R I : Nat → Nat → Nat → ℂ) : Prop :=
  ∀ (a b : Nat → ℝ) (i j : Nat), i < n → j < n →
    (∑ k ∈ Finset.range t.basis.real.length, (a k : ℂ) * R k i j) + (∑ k ∈ Finset.range t.basis.imag.length, (b k : ℂ) * I k i j) = v a b i j

/-- Values at places that mirror each other are conjugate, whatever the unknowns are. (A Hermitian matrix has real values on the diagonal too.) -/
def Mirrored (n : Nat) (v : (Nat → ℝ) → (Nat → ℝ) → Nat → Nat → ℂ) : Prop :=
  ∀ (a b : Nat → ℝ) (i j : Nat), i < n → j < n → i ≠ j → v a b j i = (starRingEnd ℂ) (v a b i j)

/-- The matrix has as many entries as it should. -/
def Mat.Square {α : Type} (A : Mat α) : Prop := A.data.length = A.dim * A.dim

/-- The symbols of the matrix are in the table. -/
def Known (t : Table) (p : List Mono) : Prop := ∀ m ∈ p, m.id < t.syms.length

/-- Entry of a vector of dense matrices with complex entries. -/
noncomputable def viewC (st : Dense ℂ) (k i j : Nat) : ℂ := (st[k]?).elim 0 fun M => M i j

/-- Entry of a vector of dense matrices with real entries. -/
noncomputable def viewR (st : Dense ℝ) (k i j : Nat) : ℂ := (st[k]?).elim 0 fun M => ((M i j : ℝ) : ℂ)

/-- Entry of a sparse matrix: each place is stored at most once. -/
noncomputable def entryC (T : List (Nat × Nat × ℂ)) (i j : Nat) : ℂ := (T.map fun e => if e.1 = i ∧ e.2.1 = j then e.2.2 else 0).sum

/-- Entry of a sparse matrix with real entries. -/
noncomputable def entryR (T : List (Nat × Nat × ℝ)) (i j : Nat) : ℂ := (T.map fun e => if e.1 = i ∧ e.2.1 = j then ((e.2.2 : ℝ) : ℂ) else 0).sum

/-- Entry of a vector of sparse matrices with complex entries. -/
noncomputable def viewSC (st : List (List (Nat × Nat × ℂ))) (k i j : Nat) : ℂ := (st[k]?).elim 0 fun T => entryC T i j

/-- Entry of a vector of sparse matrices with real entries. -/
noncomputable def viewSR (st : List (List (Nat × Nat × ℝ))) (k i j : Nat) : ℂ := (st[k]?).elim 0 fun T => entryR T i j

end Moment.MatrixBasis
