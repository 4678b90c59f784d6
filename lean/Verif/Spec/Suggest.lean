import Verif.Spec.Extend

/-! # Specification: suggestion of extensions -/

namespace Moment.Inflation.Suggest
open Moment.Inflation.Extend (Scenario Table FactorsOf)

variable {W : Type}

/-- The symbols that need an extension: they occur in the matrix and have several factors. -/
def Needed (t : Table W) (included : List Nat) (k : Nat) : Prop := k ∈ included ∧ ∃ l, FactorsOf t k l ∧ 1 < l.length

/-- The symbol `k` is what the table has for a word of the matrix times the symbol `f`. -/
def Makes (sc : Scenario W) (t : Table W) [DecidableEq W] (gens : List W) (f k : Nat) : Prop :=
  ∃ g ∈ gens, ∃ i l, t.syms[i]? = some (some (sc.canonical g)) ∧ FactorsOf t i l ∧ t.find (combineFactors l [f]) = some k

end Moment.Inflation.Suggest
