import Verif.Model.Poly
import Mathlib.Algebra.BigOperators.Group.List.Basic

/-! # Specification: values of polynomials

A symbol stands for a complex number (the value of a moment). Symbol 0 is zero, symbol 1 is one, Hermitian symbols are real and anti-Hermitian
symbols imaginary. Only the data `Mono` and `Table` of the model are used. -/

namespace Moment.Poly

/-- The assignment respects the symbol table: zero is 0, Hermitian symbols are real, anti-Hermitian ones imaginary. -/
structure Respects (t : Table) (v : Nat → ℂ) : Prop where
  zero : v 0 = 0
  herm : ∀ i, t.herm i = true → (starRingEnd ℂ) (v i) = v i
  anti : ∀ i, t.anti i = true → (starRingEnd ℂ) (v i) = -v i

/-- Value of a monomial. -/
noncomputable def Mono.value (v : Nat → ℂ) (m : Mono) : ℂ := m.factor * if m.conj then (starRingEnd ℂ) (v m.id) else v m.id

/-- Value of a list of monomials: the sum. -/
noncomputable def value (v : Nat → ℂ) (p : List Mono) : ℂ := (p.map (Mono.value v)).sum

/-- A symbol table as it should be: zero counts as Hermitian and anti-Hermitian, one is Hermitian, and no symbol but zero is both. -/
structure Table.Good (t : Table) : Prop where
  zeroHerm : t.herm 0 = true
  zeroAnti : t.anti 0 = true
  oneHerm : t.herm 1 = true
  notBoth : ∀ i, i ≠ 0 → ¬ (t.herm i = true ∧ t.anti i = true)

/-- Canonical polynomials: strictly ordered (so no term is repeated), no zero terms, and only symbols that are neither Hermitian nor
anti-Hermitian are conjugated. -/
structure Canonical (t : Table) (o : Order) (p : List Mono) : Prop where
  sorted : p.Pairwise fun a b => o.rank a.id < o.rank b.id ∨ (a.id = b.id ∧ a.conj = false ∧ b.conj = true)
  nonzero : ∀ m ∈ p, m.factor ≠ 0 ∧ m.id ≠ 0
  plain : ∀ m ∈ p, m.conj = true → t.herm m.id = false ∧ t.anti m.id = false

end Moment.Poly
