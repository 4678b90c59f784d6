import Verif.Model.FactorTable
import Mathlib.Algebra.BigOperators.Group.List.Basic
import Mathlib.Algebra.GroupWithZero.Basic

/-! # What factor tables and extended matrices should be -/

namespace Moment.Inflation.Extend

variable {W : Type} {M : Type}

/-- A word that does not factorize and is its own canonical form. -/
def Basic (sc : Scenario W) (w : W) : Prop := sc.factorize w = [w] ∧ sc.canonical w = w

/-- What is asked of a context, for the words `D` that symbols may have: zero and one are different and do not factorize; a word has factors, whose
canonical forms are words that do not factorize. -/
structure Lawful (sc : Scenario W) (D : W → Prop) (zero one : W) : Prop where
  different : zero ≠ one
  word_zero : D zero
  word_one : D one
  zero_basic : Basic sc zero
  one_basic : Basic sc one
  some_factor : ∀ w, D w → sc.factorize w ≠ []
  basic : ∀ w, D w → ∀ f ∈ sc.factorize w, D (sc.canonical f) ∧ Basic sc (sc.canonical f)

/-- Values of words that are possible in the scenario: zero and one have their values, independent factors multiply, and moments do not depend on how
copies of the sources are labelled. -/
structure Moments [CommMonoidWithZero M] (sc : Scenario W) (D : W → Prop) (zero one : W) (μ : W → M) : Prop where
  at_zero : μ zero = 0
  at_one : μ one = 1
  product : ∀ w, D w → μ w = ((sc.factorize w).map μ).prod
  relabelled : ∀ w, D w → ∀ f ∈ sc.factorize w, μ (sc.canonical f) = μ f

/-- Values of symbols that respect the factor table: symbol 0 is zero, symbol 1 is one, and each symbol has the product of the values of its factors. -/
structure Respects [CommMonoidWithZero M] (t : Table W) (v : Nat → M) : Prop where
  at_zero : v 0 = 0
  at_one : v 1 = 1
  product : ∀ (i : Nat) e, t.entries[i]? = some e → v i = (e.symbols.map v).prod

/-- The factors of a symbol. -/
def FactorsOf (t : Table W) (k : Nat) (l : List Nat) : Prop := ∃ e, t.entries[k]? = some e ∧ e.symbols = l

end Moment.Inflation.Extend
