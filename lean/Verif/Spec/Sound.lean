import Verif.Spec.SymbolTable
import Verif.Spec.Poly

/-! # Specification: symbol tables and the numbers they describe

The unknowns are real numbers `a 0, a 1, …` and `b 0, b 1, …`, one for each basis element; a symbol stands for `a + i b` of its offsets. -/

namespace Moment.Symbols

/-- A symbol table in a proper state. `Proof/Sound.lean` shows that this holds after every history in which no merge of bit sets
threw and no symbol without parts was asked for. -/
structure Sound (t : Table) : Prop where
  offsets : Offsets t
  parts : ∀ s ∈ t.syms, (s.herm = true ↔ s.im = none) ∧ (s.anti = true ↔ s.re = none)
  zero : ∃ s, t.syms[0]? = some s ∧ s.herm = true ∧ s.anti = true
  one : ∃ s, t.syms[1]? = some s ∧ s.herm = true
  notBoth : ∀ s ∈ t.syms, s.id ≠ 0 → ¬ (s.herm = true ∧ s.anti = true)

/-- The operation does not ask for symbols without real and imaginary part. -/
def Op.Parts : Op → Prop
  | .create r i => r = true ∨ i = true
  | .createMany _ r i => r = true ∨ i = true
  | _ => True

/-- The symbol tables that histories of operations reach when no merge of bit sets threw and no symbol without parts was asked for; no
scenario overrides `is_sequence_null`. -/
def Reached (t : Table) : Prop := ∃ (c : Env) (l : List Op), (∀ w, c.null w = (false, false)) ∧ (∀ o ∈ l, o.Parts) ∧ runOk c Table.new l = some t

/-- The number a symbol stands for. -/
noncomputable def Sym.at (s : Sym) (a b : Nat → ℝ) : ℂ := ⟨s.re.elim 0 a, s.im.elim 0 b⟩

/-- The values of all symbols. -/
noncomputable def point (t : Table) (a b : Nat → ℝ) (id : Nat) : ℂ := match t.syms[id]? with
  | some s => s.at a b
  | none => 0

/-- What polynomials read from a symbol table. -/
def flags (t : Table) : Poly.Table := ⟨fun i => (t.syms[i]?).any Sym.herm, fun i => (t.syms[i]?).any Sym.anti⟩

end Moment.Symbols
