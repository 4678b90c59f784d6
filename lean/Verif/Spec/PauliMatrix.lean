import Verif.Spec.Pauli
import Verif.Spec.Translate
import Verif.Spec.Rules
import Verif.Model.PauliMatrix
import Mathlib.Algebra.Star.Module

/-! # Specification: matrices of Pauli scenarios

What the entries should be, in any algebra in which the Pauli relations hold, and for any functional that does not change under the translations that the
scenario takes as symmetries. -/

namespace Moment.PauliMatrix

open Moment.Pauli Moment.Translate

variable {A : Type*} [Ring A] [Algebra ℂ A] [StarRing A]

/-- The Pauli relations on `n` qubits: `ρ (3 q)`, `ρ (3 q + 1)` and `ρ (3 q + 2)` are X, Y and Z of qubit `q`. -/
structure Represents (n : Nat) (ρ : Nat → A) : Prop where
  star : ∀ o, o < n * 3 → star (ρ o) = ρ o
  square : ∀ o, o < n * 3 → ρ o * ρ o = 1
  xy : ∀ q, q < n → ρ (3 * q) * ρ (3 * q + 1) = Complex.I • ρ (3 * q + 2)
  yz : ∀ q, q < n → ρ (3 * q + 1) * ρ (3 * q + 2) = Complex.I • ρ (3 * q)
  zx : ∀ q, q < n → ρ (3 * q + 2) * ρ (3 * q) = Complex.I • ρ (3 * q + 1)
  apart : ∀ o p, o < n * 3 → p < n * 3 → o / 3 ≠ p / 3 → ρ o * ρ p = ρ p * ρ o

/-- The words are equal up to the symmetry of the scenario. -/
def Symmetry.Class : Symmetry → List Nat → List Nat → Prop
  | .none, w, v => w = v
  | .chain, w, v => ChainClass w v
  | .lattice h, w, v => LatticeClass h w v
  | .closed _ H, w, v => ∃ row col, MovedBy (TorusStep H.height H.width row col) w v

/-- Words in normal form on `n` qubits. -/
def Letters (n : Nat) (w : List Nat) : Prop := Normal w ∧ ∀ o ∈ w, o < n * 3

/-- The functional is compatible with conjugation and does not change under the symmetry. -/
structure Invariant (n : Nat) (y : Symmetry) (ρ : Nat → A) (φ : A →ₗ[ℂ] ℂ) : Prop where
  star : ∀ a, φ (star a) = (starRingEnd ℂ) (φ a)
  move : ∀ w v, Letters n w → Letters n v → y.Class w v → φ (Rewrite.evalWord ρ w) = φ (Rewrite.evalWord ρ v)

/-- The operator of a sequence. -/
noncomputable def operator (ρ : Nat → A) (w : HSeq) : A := Rewrite.phase w.sign • Rewrite.evalWord ρ w.ops

/-- What the entry in the row of `a` and the column of `b` is the moment of. -/
noncomputable def Kind.target (ρ : Nat → A) : Kind → A → A → A
  | .moment, a, b => a * b
  | .localizing x, a, b => a * operator ρ x * b
  | .commutator x, a, b => a * b * operator ρ x - operator ρ x * (a * b)
  | .anticommutator x, a, b => a * b * operator ρ x + operator ρ x * (a * b)

/-- The moment of a sequence. -/
noncomputable def moment (ρ : Nat → A) (φ : A →ₗ[ℂ] ℂ) (w : HSeq) : ℂ := if w.hash = 0 then 0 else φ (operator ρ w)

end Moment.PauliMatrix
