import Mathlib.Algebra.BigOperators.Group.List.Basic
import Mathlib.Algebra.Module.LinearMap.Basic
import Mathlib.LinearAlgebra.Finsupp.LinearCombination
import Verif.Model.RawPoly
import Verif.Spec.SymbolMatrix
import Verif.Spec.Pauli

/-! # Specification: what raw polynomials mean

Words stand for vectors of some space: operators, or numbers (moments). A weighted list of words stands for the weighted sum. -/

namespace Moment.RawPoly

open Moment.Symbols (Table Env)

variable {M : Type} [AddCommGroup M] [Module ℂ M]

/-- The weighted sum. -/
def total (ρ : HSeq → M) (r : Raw) : M := (r.map fun e => e.2 • ρ e.1).sum

/-- Words are told apart by their hashes, and have a phase; a word of hash zero stands for zero. -/
structure Stands (W : HSeq → Prop) (ρ : HSeq → M) : Prop where
  zero : ∀ w, W w → w.hash = 0 → ρ w = 0
  phase : ∀ w, W w → ρ w = Rewrite.phase w.sign • ρ { w with sign := .pos }
  hash : ∀ w v, W w → W v → w.hash = v.hash → w.sign = .pos → v.sign = .pos → ρ w = ρ v

/-- Raw polynomials as callers can have them: words of the context with positive sign. -/
def Over (W : HSeq → Prop) (r : Raw) : Prop := ∀ e ∈ r, W e.1 ∧ e.1.sign = .pos

/-- Ascending hashes, no word that is zero, no weight that is zero. -/
structure Condensed (r : Raw) : Prop where
  sorted : r.Pairwise fun a b => a.1.hash < b.1.hash
  words : ∀ e ∈ r, e.1.hash ≠ 0
  weights : ∀ e ∈ r, e.2 ≠ 0

/-- The weight of a hash. -/
def weightOf (r : Raw) (h : UInt64) : ℂ := (r.map fun e => if e.1.hash = h then e.2 else 0).sum

/-! ## Pauli operators on states -/

/-- States of the register. -/
abbrev State := Pauli.Bits →₀ ℂ

/-- The operator of a word. -/
noncomputable def operator (w : HSeq) : State →ₗ[ℂ] State :=
  if w.hash = 0 then 0 else Finsupp.linearCombination ℂ fun b =>
    Finsupp.single (Pauli.actS w.sign w.ops b).2 (Rewrite.phase (Pauli.actS w.sign w.ops b).1)

end Moment.RawPoly
