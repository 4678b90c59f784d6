import Verif.Spec.Extend
import Verif.Spec.MomentRules
import Verif.Model.FactorRules

/-! # Specification: rules for products

Values of the symbols of an inflation scenario are real numbers, zero and one have theirs, and each symbol has the product of the values of its factors. -/

namespace Moment.Inflation.Expand
open Moment.Poly (Mono MRule value Solves Assignment Zero Canonical Order)
open Moment.Inflation.Extend (Table Respects FactorsOf)

/-- The values that count: real, and products of factors multiply. -/
def Factored {W : Type} (t : Table W) (v : Nat → ℂ) : Prop := Assignment flags v ∧ Respects t v

/-- The equations of a rulebook: its rules, and the rules that are not yet worked in. -/
def Book.Holds (b : Book) (v : Nat → ℂ) : Prop := Solves flags b.rules v ∧ Zero v b.raw

/-- Rulebooks as `complete()` and merging make them, with proper polynomials waiting. -/
structure Book.Proper (o : Order) (b : Book) : Prop where
  made : Poly.Book flags o b.rules
  raw : ∀ p ∈ b.raw, Canonical flags o p

/-- All symbols of the rulebook are among the first `n`. -/
structure Book.Known (n : Nat) (b : Book) : Prop where
  lhs : ∀ r ∈ b.rules, r.lhs < n
  rhs : ∀ r ∈ b.rules, ∀ m ∈ r.rhs, m.id < n
  raw : ∀ p ∈ b.raw, ∀ m ∈ p, m.id < n

/-- The symbol `k` is, for all values that count, the product of symbols of some terms, one from each polynomial. -/
def ProductOf {W : Type} (t : Table W) (qs : List (List Mono)) (k : Nat) : Prop :=
  ∃ ms : List Nat, List.Forall₂ (fun q m => ∃ x ∈ q, x.id = m) qs ms ∧ ∀ v, Factored t v → v k = (ms.map v).prod

/-- What a rulebook replaces the symbol `k` by. -/
def Replaces (b : List MRule) (k : Nat) (q : List Mono) : Prop :=
  (∃ r ∈ b, r.lhs = k ∧ r.rhs = q) ∨ ((∀ r ∈ b, r.lhs ≠ k) ∧ ((k ≠ 0 ∧ q = [⟨k, false, 1⟩]) ∨ (k = 0 ∧ q = [])))

/-- Symbols with one factor are their own factors. This is so if words with one factor are their own canonical forms. -/
def Settled {W : Type} (t : Table W) : Prop := ∀ (i : Nat) e, t.entries[i]? = some e → e.fundamental = true → e.symbols = [i]

/-- No symbol stands for the product of the symbols `a` and `b`: none has the factors of both. -/
def Absent {W : Type} (t : Table W) (a b : Nat) : Prop :=
  ∃ la lb, FactorsOf t a la ∧ FactorsOf t b lb ∧ ∀ k l, FactorsOf t k l → 0 ∉ l → ¬ l.Perm (la ++ lb)

end Moment.Inflation.Expand
