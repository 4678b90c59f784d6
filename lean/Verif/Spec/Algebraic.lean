import Verif.Spec.Rules

/-! # Specification: what follows from rules

Independent of the program: an equation follows from a set of rules if it is true in every complex algebra in which the rules are. -/

namespace Moment.Rewrite

/-- The terms are equal in every algebra in which the rules hold. -/
def Implies (R : Set RRule) (a b : Term) : Prop := ∀ (A : Type) [Ring A] [Algebra ℂ A] (ρ : Nat → A), Models ρ R → eval ρ a = eval ρ b

/-- The adjoint of a term: the word backwards with every operator replaced by its adjoint, and the conjugate of the phase. -/
def adjoint (adj : Nat → Nat) (t : Term) : Term := t.map fun x => (x.1.conj, x.2.reverse.map adj)

/-- With an equation the rules also imply its adjoint. -/
def AdjointClosed (adj : Nat → Nat) (R : Set RRule) : Prop := ∀ l r, (l, r) ∈ R → Implies R (some (.pos, l.reverse.map adj)) (adjoint adj r)

/-- The rules imply that the first `n` operators commute. -/
def CommutingBelow (n : Nat) (R : Set RRule) : Prop := ∀ a < n, ∀ b < n, Implies R (some (.pos, [a, b])) (some (.pos, [b, a]))

/-- No rule has a phase. -/
def Phaseless (R : Set RRule) : Prop := ∀ l s r, (l, some (s, r)) ∈ R → s = .pos

end Moment.Rewrite
