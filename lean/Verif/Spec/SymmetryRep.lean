import Verif.Model.SymmetryRep
import Mathlib.Algebra.Algebra.Basic
import Mathlib.Algebra.Algebra.Hom

/-! # What representations on words stand for -/

namespace Moment.SymRep

/-- Every step from words to longer words that a list of lengths needs is there: the list goes up to `n`, and each length in it is the sum of two that are
one or come earlier. -/
structure Plan (n : Nat) (l : List Nat) : Prop where
  last : l.getLast? = some n
  sorted : l.Pairwise (· < ·)
  parts : ∀ m ∈ l, ∃ a b, a + b = m ∧ b ≤ a ∧ (a = 1 ∨ a ∈ l) ∧ (b = 1 ∨ b ∈ l)

variable {R : Type} [Ring R] [Algebra ℝ R]

/-- The words of each length up to `N` stand for elements `ev` of an algebra, and products of words for products of elements, with positive signs. -/
structure Faithful (c : Ctx) (ev : HSeq → R) (N : Nat) : Prop where
  /-- products -/
  mul : ∀ {a b l r}, a + b ≤ N → l ∈ c.words a → r ∈ c.words b → ev (c.mul l r) = ev l * ev r
  /-- the zero word -/
  zero : ∀ {a b l r}, a + b ≤ N → l ∈ c.words a → r ∈ c.words b → (c.mul l r).hash = 0 → ev (c.mul l r) = 0
  /-- products are among the longer words, up to zero -/
  found : ∀ {a b l r}, a + b ≤ N → l ∈ c.words a → r ∈ c.words b → (c.mul l r).hash = 0 ∨ ∃ w ∈ c.words (a + b), (c.mul l r).hash = w.hash
  /-- and stand for the same elements -/
  same : ∀ {a b l r w}, a + b ≤ N → l ∈ c.words a → r ∈ c.words b → w ∈ c.words (a + b) → (c.mul l r).hash = w.hash → ev (c.mul l r) = ev w
  /-- all longer words are products -/
  split : ∀ {a b w}, 0 < a → 0 < b → a + b ≤ N → w ∈ c.words (a + b) → ∃ l ∈ c.words a, ∃ r ∈ c.words b, (c.mul l r).hash = w.hash
  /-- words are listed once, and are not zero -/
  nodup : ∀ {n}, n ≤ N → ((c.words n).map HSeq.hash).Nodup
  nonzero : ∀ {n w}, n ≤ N → w ∈ c.words n → w.hash ≠ 0

/-- The matrix `A` represents the map `φ` on the words `ws`. -/
def Represents (ev : HSeq → R) (φ : R →ₐ[ℝ] R) (ws : List HSeq) (A : Entries) : Prop :=
  ∀ j (hj : j < ws.length), φ (ev ws[j]) = ∑ i : Fin ws.length, A i j • ev ws[i]

end Moment.SymRep
