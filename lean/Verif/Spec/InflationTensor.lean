import Verif.Spec.Inflation
import Verif.Spec.Probability

/-! # Specification: copies of observables and products of their operators -/

namespace Moment.Inflation

/-- A copy of an observable: the observable, and the copy of each of its sources. -/
structure Copy where
  obs : Nat
  at_ : List Nat
  deriving DecidableEq, Repr

/-- The operator of an outcome. -/
def Copy.op (x : Copy) (k : Nat) : Op := ⟨x.obs, x.at_, k⟩

/-- The copy exists at the inflation level. -/
def Copy.Valid (n : Causal) (level : Nat) (x : Copy) : Prop :=
  x.obs < n.outcomes.length ∧ x.at_.length = (n.sourcesOf x.obs).length ∧ ∀ s ∈ x.at_, s < level

/-- Position 0 of a dimension stands for no measurement of the copy, position `k + 1` for its outcome `k`. -/
def picked : List Copy → List Nat → List Op
  | x :: xs, i :: is => match i with
    | 0 => picked xs is
    | k + 1 => x.op k :: picked xs is
  | _, _ => []

/-- The operators of each projective measurement, with that of the last outcome, add up to one. -/
def Sums {A : Type} [Semiring A] (n : Causal) (P : Op → A) : Prop :=
  ∀ o k copy, n.outcomes[o]? = some (k + 1) → ∑ i ∈ Finset.range (k + 1), P ⟨o, copy, i⟩ = 1

end Moment.Inflation
