import Verif.Model.PauliInstance
import Verif.Spec.PauliMatrix
import Verif.Spec.PauliSystem
import Verif.Spec.MatrixSum

/-! # What matrices of Pauli scenarios show -/

namespace Moment.PauliInstance

open Moment.Symbols (Table)
open Moment.Poly (Mono)
open Moment.SymbolMatrix (Agrees)
open Moment.PauliMatrix (Represents Invariant operator moment)
open Moment.LocalitySystem (Matrix termWord)

/-- What the entry in the row of `a` and the column of `b` is the moment of, for each kind of matrix and an operator `z`. -/
def target {A : Type} [Ring A] (k : PauliSystem.Kind) (z a b : A) : A :=
  match k with
  | .localizing => a * z * b
  | .commutator => a * b * z - z * (a * b)
  | .anticommutator => a * b * z + z * (a * b)

/-- An element of every algebra with Pauli operators. -/
abbrev Element := (A : Type) → [Ring A] → [Algebra ℂ A] → (Nat → A) → A

/-- A word with positive sign, and a polynomial in words. -/
noncomputable def wordOp (w : HSeq) : Element := fun _ _ _ ρ => operator ρ w
noncomputable def rawOp (q : List (HSeq × ℂ)) : Element := fun _ _ _ ρ => (q.map fun e => e.2 • operator ρ e.1).sum

/-- A polynomial in symbols of a table: symbols stand for their words. -/
noncomputable def polyOp (t : Table) (p : List Mono) : Element := fun _ _ _ ρ => (p.map fun m => m.factor • operator ρ ((termWord t m).getD HSeq.zero)).sum

/-- The matrix has a row and a column for each word of the list, and the entries are the moments of `a z b`, of `[a b, z]` or of `{a b, z}`, for all algebras with
the Pauli relations and all functionals that do not change under the symmetry of the scenario. -/
structure Shows (s : Scene) (k : PauliSystem.Kind) (m : Nat × Nat) (t : Table) (M : Matrix) (z : Element) (ws : List HSeq) : Prop where
  listed : s.words m = some (some ws)
  dim : M.part.dim = ws.length
  known : MatrixSum.Good t M.part
  value : ∀ (A : Type) [Ring A] [Algebra ℂ A] [StarRing A] [StarModule ℂ A] (ρ : Nat → A) (φ : A →ₗ[ℂ] ℂ) (v : Nat → ℂ), Represents s.qubits ρ →
    Invariant s.qubits s.symmetry ρ φ → Agrees t (moment ρ φ) v → ∀ i j a b, ws[i]? = some a → ws[j]? = some b →
      MatrixSum.entryAt v M.part i j = φ (target k (z A ρ) (operator ρ a) (operator ρ b))

end Moment.PauliInstance
