import Verif.Spec.Probability

/-! # Specification: index sequences of recursive storage

Numbers are counted from `base`, in chunks of the given sizes: `sizes[0]` numbers in the first chunk, and so on. -/

namespace Moment.Recursive

/-- The chunk of a number. -/
def chunkOf (sizes : List Nat) (base j : Nat) : Option Nat :=
  if base ≤ j then (Probability.locate sizes (j - base)).map Prod.fst else none

/-- At most `depth` numbers, of chunks that ascend. -/
def Path (sizes : List Nat) (base depth : Nat) (idx : List Nat) : Prop :=
  idx.length ≤ depth ∧ (∀ j ∈ idx, (chunkOf sizes base j).isSome) ∧
    idx.Pairwise fun i j => ∀ a b, chunkOf sizes base i = some a → chunkOf sizes base j = some b → a < b

/-- A visitor called on values in order: the values it leaves and its state in the end. -/
def runVisitor {α S : Type} (f : S → α → List Nat → S × α) : List (List Nat × α) → S → List (List Nat × α) × S
  | [], s => ([], s)
  | x :: xs, s => ((x.1, (f s x.2 x.1).2) :: (runVisitor f xs (f s x.2 x.1).1).1, (runVisitor f xs (f s x.2 x.1).1).2)

end Moment.Recursive
