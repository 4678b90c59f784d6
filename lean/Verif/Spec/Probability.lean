import Mathlib.Algebra.BigOperators.Group.Finset.Basic
import Mathlib.Algebra.Algebra.Defs
import Mathlib.Algebra.Module.LinearMap.Defs
import Mathlib.Data.Complex.Basic

/-! # Specification: probabilities of outcomes of measurements

A scenario is given by its parties, each with its measurements; of a measurement the number of outcomes is known, and whether all outcomes have
operators of their own (`true`) or the last one is implied by the others (`false`). Measurement `m` of party `d` has the operators `P d m k`. -/

namespace Moment.Probability

abbrev Parties := List (List (Nat × Bool))

/-- Positions along one axis of a tensor: all outcomes of the first measurement, then all of the second, and so on. -/
def locate : List Nat → Nat → Option (Nat × Nat)
  | [], _ => none
  | c :: cs, j => if j < c then some (0, j) else (locate cs (j - c)).map fun x => (x.1 + 1, x.2)

/-- Position 0 stands for no measurement. -/
def choice (counts : List Nat) : Nat → Option (Nat × Nat)
  | 0 => none
  | j + 1 => locate counts j

/-- Outcomes of the measurements of a party. -/
def outcomes (mmts : List (Nat × Bool)) : List Nat := mmts.map Prod.fst

/-- Outcomes that have operators of their own. -/
def stored (mmts : List (Nat × Bool)) : List Nat := mmts.map fun m => if m.2 then m.1 else m.1 - 1

/-- Dimensions of the tensor of all outcomes, and of the Collins-Gisin tensor. -/
def fullDims (ps : Parties) : List Nat := ps.map fun mmts => (outcomes mmts).sum + 1

def gisinDims (ps : Parties) : List Nat := ps.map fun mmts => (stored mmts).sum + 1

/-- The operator of a choice of party `d`. -/
def single {A : Type} [One A] (P : Nat → Nat → Nat → A) (d : Nat) : Option (Nat × Nat) → A
  | none => 1
  | some (m, k) => P d m k

/-- The product of the operators of choices, one for every party from party `d` on. -/
def joint {A : Type} [Monoid A] (P : Nat → Nat → Nat → A) : Nat → List (Option (Nat × Nat)) → A
  | _, [] => 1
  | d, c :: cs => single P d c * joint P (d + 1) cs

/-- The choices that an index of either tensor stands for. -/
def fullChoices (ps : Parties) (index : List Nat) : List (Option (Nat × Nat)) := List.zipWith (fun mmts i => choice (outcomes mmts) i) ps index

def gisinChoices (ps : Parties) (index : List Nat) : List (Option (Nat × Nat)) := List.zipWith (fun mmts i => choice (stored mmts) i) ps index

/-- The operators of a measurement with an implied outcome add up to one. -/
def Complete {A : Type} [Semiring A] (ps : Parties) (P : Nat → Nat → Nat → A) : Prop :=
  ∀ (d : Nat) mmts (m : Nat) n, ps[d]? = some mmts → mmts[m]? = some (n, false) → ∑ k ∈ Finset.range n, P d m k = 1

/-- Position of an index in a tensor of the given dimensions, the first index running fastest. -/
def position : List Nat → List Nat → Nat
  | d :: ds, i :: is => i + d * position ds is
  | _, _ => 0

/-- The entries of the Collins-Gisin tensor are the values of products of operators. -/
def Describes {A : Type} [Ring A] [Algebra ℂ A] (ps : Parties) (P : Nat → Nat → Nat → A) (φ : A →ₗ[ℂ] ℂ) (v : Nat → ℂ) : Prop :=
  ∀ idx, List.Forall₂ (· < ·) idx (gisinDims ps) → v (position (gisinDims ps) idx) = φ (joint P 0 (gisinChoices ps idx))

/-- The observable of a measurement with two outcomes: 1 for the first outcome, -1 for the second. Index 0 stands for no measurement, index `m + 1` for
measurement `m`. -/
def observable {A : Type} [Ring A] (P : Nat → Nat → Nat → A) (d : Nat) : Nat → A
  | 0 => 1
  | m + 1 => P d m 0 - P d m 1

/-- The product of observables, one for every party from party `d` on. -/
def correlation {A : Type} [Ring A] (P : Nat → Nat → Nat → A) : Nat → List Nat → A
  | _, [] => 1
  | d, x :: xs => observable P d x * correlation P (d + 1) xs

/-- Parties with a number of measurements each, all with two outcomes, of which the last is implied. -/
def binary (counts : List Nat) : Parties := counts.map fun c => List.replicate c (2, false)

end Moment.Probability
