import Verif.Spec.Inflation
import Verif.Spec.SymbolMatrix
import Verif.Model.InflationContext

/-! # Specification: moments of inflated networks

The operators of an inflated network are self-adjoint elements of an algebra that meet the relations of the scenario; a functional is exchangeable if it does
not see which copies of the sources are which. -/

namespace Moment.Inflation

/-- The functional gives the same moment to a word after the copies of the sources have been permuted. -/
def Exchangeable {A : Type} [Ring A] [Algebra ℂ A] (n : Causal) (level : Nat) (P : Op → A) (φ : A →ₗ[ℂ] ℂ) : Prop :=
  ∀ (σ : Nat → Nat → Nat) (u : List Op), Relabelling level σ → (∀ a ∈ u, Exists n level a) → φ ((u.map (relabel n σ)).map P).prod = φ (u.map P).prod

/-- The hash has room for words of `L` operators. -/
structure Room (c : Ctx) (L : Nat) : Prop where
  radix : operatorCount c < 2 ^ 64
  words : (∑ k ∈ Finset.range (L + 1), operatorCount c ^ k) < 2 ^ 64

/-- Simplified words. -/
def Normal (c : Ctx) (w : List Nat) : Prop := (∀ m ∈ w, m < operatorCount c) ∧ simplify c w = .word w

/-- Zero, or a simplified word of at most `L` operators with its hash. -/
def IsSeq (c : Ctx) (L : Nat) (w : HSeq) : Prop :=
  (w.hash = 0 ∧ w.ops = []) ∨ (w.hash = hashWord (UInt64.ofNat (operatorCount c)) w.ops ∧ Normal c w.ops ∧ w.ops.length ≤ L)

open Classical in
/-- The operator with a number. -/
noncomputable def opOf (n : Causal) (c : Ctx) (m : Nat) : Op :=
  if h : ∃ a, Exists n c.infl a ∧ operatorNumber c a.obs (flattenIndex c.infl a.copy) a.out = m then h.choose else ⟨0, [], 0⟩

/-- The moments of a functional. -/
noncomputable def moment {A : Type} [Ring A] [Algebra ℂ A] (n : Causal) (c : Ctx) (P : Op → A) (φ : A →ₗ[ℂ] ℂ) (w : HSeq) : ℂ :=
  if w.hash = 0 then 0 else Rewrite.phase w.sign * φ (w.ops.map fun m => P (opOf n c m)).prod

end Moment.Inflation
