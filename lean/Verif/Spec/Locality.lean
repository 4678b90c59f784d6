import Mathlib.Algebra.GroupWithZero.Defs

/-! # What locality words mean

Operators are outcomes of measurements of parties. Words are products. Operators of different parties commute, every operator is a projector,
and different outcomes of one measurement exclude each other. -/

namespace Moment.Locality

/-- Outcome `out` of measurement `mmt` of party `party`. -/
structure Op where
  party : Nat
  mmt : Nat
  out : Nat
  deriving DecidableEq, Repr

/-- `SameOperator u v`: the relations make the words (or zero, `none`) equal. -/
inductive SameOperator : Option (List Op) → Option (List Op) → Prop
  | refl x : SameOperator x x
  | symm {x y} : SameOperator x y → SameOperator y x
  | trans {x y z} : SameOperator x y → SameOperator y z → SameOperator x z
  | commute (u v : List Op) (a b : Op) : a.party ≠ b.party → SameOperator (some (u ++ a :: b :: v)) (some (u ++ b :: a :: v))
  | project (u v : List Op) (a : Op) : SameOperator (some (u ++ a :: a :: v)) (some (u ++ a :: v))
  | exclude (u v : List Op) (a b : Op) : a.party = b.party → a.mmt = b.mmt → a.out ≠ b.out →
      SameOperator (some (u ++ a :: b :: v)) none

/-- An assignment of elements of a monoid with zero that satisfies the relations. -/
structure Represents {M : Type} [MonoidWithZero M] (f : Op → M) : Prop where
  commute : ∀ a b : Op, a.party ≠ b.party → f a * f b = f b * f a
  project : ∀ a : Op, f a * f a = f a
  exclude : ∀ a b : Op, a.party = b.party → a.mmt = b.mmt → a.out ≠ b.out → f a * f b = 0

/-- The scenario `s` (outcomes of every measurement of every party) has operators for all outcomes but the last. -/
def Exists (s : List (List Nat)) (a : Op) : Prop := ∃ mmts, s[a.party]? = some mmts ∧ ∃ n, mmts[a.mmt]? = some n ∧ a.out + 1 < n

end Moment.Locality
