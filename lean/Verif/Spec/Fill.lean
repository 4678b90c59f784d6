import Verif.Spec.Translate
import Mathlib.Data.List.Chain

/-! # Lists of Pauli words -/

namespace Moment.Fill

open Moment.Translate
open Moment.Pauli (Normal)

/-- The word has one letter on each of the sites and none elsewhere. -/
def On (s w : List Nat) : Prop := Normal w ∧ ∀ q, (∃ p, Has w q p) ↔ q ∈ s

/-- Successive letters of the word are at most `N` sites apart. -/
def Near (N : Nat) (w : List Nat) : Prop := w.IsChain fun a b => b / 3 ≤ a / 3 + N

/-- The site `b` is below or to the right of the site `a` on a lattice of `k` columns of height `h`, around the edges if the lattice is closed. -/
def Adjacent (wrap : Bool) (h k a b : Nat) : Prop :=
  a < h * k ∧ b < h * k ∧ a ≠ b ∧
    ((b / h = a / h ∧ (b % h = a % h + 1 ∨ wrap = true ∧ b % h = (a % h + 1) % h)) ∨
      (b % h = a % h ∧ (b / h = a / h + 1 ∨ wrap = true ∧ b / h = (a / h + 1) % k)))

/-- The word has letters exactly at the places of a figure, given by rows and columns, that is moved within an open lattice. -/
def Placed (h k : Nat) (figure : List (Nat × Nat)) (w : List Nat) : Prop :=
  Normal w ∧ ∃ row col, (∀ x ∈ figure, row + x.1 < h ∧ col + x.2 < k) ∧
    ∀ q, (∃ p, Has w q p) ↔ ∃ x ∈ figure, q % h = row + x.1 ∧ q / h = col + x.2

end Moment.Fill
