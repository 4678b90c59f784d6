import Mathlib.Algebra.GroupWithZero.Defs
import Mathlib.Data.Set.Function

/-! # What inflation words and moments mean

A causal network has observables and sources; every source feeds some of the observables. In the inflation of level `L` there are `L` copies of
every source, and a copy of an observable for every choice of copies of its sources. -/

namespace Moment.Inflation

/-- A network: outcomes of each observable (0 for an observable that is not a projective measurement), observables fed by each source. -/
structure Causal where
  outcomes : List Nat
  sources : List (List Nat)

/-- Every source only feeds observables that exist. -/
def Causal.WellFormed (n : Causal) : Prop := ∀ src ∈ n.sources, ∀ o ∈ src, o < n.outcomes.length

/-- The sources of an observable, in ascending order. -/
def Causal.sourcesOf (n : Causal) (o : Nat) : List Nat :=
  (List.range n.sources.length).filter fun s => decide (∃ src, n.sources[s]? = some src ∧ o ∈ src)

/-- Outcome `out` of observable `obs`, for the given copy of each source of the observable (in the order of `sourcesOf`). -/
structure Op where
  obs : Nat
  copy : List Nat
  out : Nat
  deriving DecidableEq, Repr

/-- The operator exists at inflation level `level`: a projective observable has an operator for all outcomes but the last, another observable has
exactly one. -/
def Exists (n : Causal) (level : Nat) (a : Op) : Prop :=
  ∃ k, n.outcomes[a.obs]? = some k ∧ a.copy.length = (n.sourcesOf a.obs).length ∧ (∀ x ∈ a.copy, x < level) ∧
    if k = 0 then a.out = 0 else a.out + 1 < k

/-- The operator belongs to a projective measurement. -/
def Projective (n : Causal) (a : Op) : Prop := n.outcomes[a.obs]? ≠ some 0

instance (n : Causal) (a : Op) : Decidable (Projective n a) := inferInstanceAs (Decidable (_ ≠ _))

/-- Different outcomes of one copy of an observable. -/
def Exclusive (a b : Op) : Prop := a.obs = b.obs ∧ a.copy = b.copy ∧ a.out ≠ b.out

instance (a b : Op) : Decidable (Exclusive a b) := inferInstanceAs (Decidable (_ ∧ _ ∧ _))

/-- `SameOperator n x y`: the relations make the words (or zero, `none`) equal. -/
inductive SameOperator (n : Causal) : Option (List Op) → Option (List Op) → Prop
  | refl x : SameOperator n x x
  | symm {x y} : SameOperator n x y → SameOperator n y x
  | trans {x y z} : SameOperator n x y → SameOperator n y z → SameOperator n x z
  | commute (u v : List Op) (a b : Op) : SameOperator n (some (u ++ a :: b :: v)) (some (u ++ b :: a :: v))
  | project (u v : List Op) (a : Op) : Projective n a → SameOperator n (some (u ++ a :: a :: v)) (some (u ++ a :: v))
  | exclude (u v : List Op) (a b : Op) : Exclusive a b → SameOperator n (some (u ++ a :: b :: v)) none

/-- An assignment of elements of a monoid with zero that satisfies the relations. -/
structure Represents (n : Causal) {M : Type} [MonoidWithZero M] (f : Op → M) : Prop where
  commute : ∀ a b : Op, f a * f b = f b * f a
  project : ∀ a : Op, Projective n a → f a * f a = f a
  exclude : ∀ a b : Op, Exclusive a b → f a * f b = 0

/-- The copy `v` of source `s` feeds the copy of the observable. -/
def FedBy (n : Causal) (a : Op) (s v : Nat) : Prop := (s, v) ∈ (n.sourcesOf a.obs).zip a.copy

/-- The two operators depend on a common source. An observable without sources depends on its own randomness only. -/
def Linked (n : Causal) (a b : Op) : Prop :=
  (∃ s v, FedBy n a s v ∧ FedBy n b s v) ∨ (n.sourcesOf a.obs = [] ∧ a.obs = b.obs)

/-- Relabel the copies of the sources: copy `v` of source `s` becomes copy `σ s v`. -/
def relabel (n : Causal) (σ : Nat → Nat → Nat) (a : Op) : Op :=
  { a with copy := List.zipWith σ (n.sourcesOf a.obs) a.copy }

/-- `σ` permutes the copies of every source. -/
def Relabelling (level : Nat) (σ : Nat → Nat → Nat) : Prop := ∀ s, Set.BijOn (σ s) {v | v < level} {v | v < level}

end Moment.Inflation
