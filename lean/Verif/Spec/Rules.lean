import Verif.Model.Sign
import Mathlib.Data.Complex.Basic
import Mathlib.Algebra.Algebra.Basic
import Mathlib.Algebra.BigOperators.Group.List.Basic
import Mathlib.Logic.Relation
import Mathlib.Data.List.Shortlex

/-! # Specification: rewriting words with phases

Independent of the program: a *term* is zero or a word of operators with a phase. A *rewrite rule* replaces a word by a term. Terms and rules
have a meaning in every complex algebra in which the operators are interpreted. -/

namespace Moment.Rewrite

/-- Zero, or a phase times a word. -/
abbrev Term := Option (Sign × List Nat)

/-- Left side (a word), right side (a term). -/
abbrev RRule := List Nat × Term

/-- The complex number of a phase. -/
noncomputable def phase : Sign → ℂ
  | .pos => 1 | .imag => Complex.I | .neg => -1 | .negImag => -Complex.I

/-- One replacement: a left side occurring in the word is replaced by the right side (phases multiply), or the whole term becomes zero. -/
inductive Step (R : Set RRule) : Term → Term → Prop
  | word {l r u v : List Nat} {s t : Sign} : (l, some (t, r)) ∈ R → Step R (some (s, u ++ l ++ v)) (some (s.mul t, u ++ r ++ v))
  | zero {l u v : List Nat} {s : Sign} : (l, none) ∈ R → Step R (some (s, u ++ l ++ v)) none

/-- Any number of replacements. -/
abbrev Steps (R : Set RRule) : Term → Term → Prop := Relation.ReflTransGen (Step R)

/-- No left side of a rule occurs in the word. -/
def Irreducible (R : Set RRule) (w : List Nat) : Prop := ∀ rule ∈ R, ¬ rule.1 <:+: w

/-- Nothing can be replaced in the term any more. -/
def Normal (R : Set RRule) (t : Term) : Prop := ∀ t', ¬ Step R t t'

/-- Every term has at most one result: fully reduced terms reached from the same term are equal. -/
def UniqueResults (R : Set RRule) : Prop := ∀ t a b, Steps R t a → Steps R t b → Normal R a → Normal R b → a = b

section Algebra

variable {A : Type*} [Ring A] [Algebra ℂ A] (ρ : Nat → A)

/-- Value of a word: the product of its operators. -/
def evalWord (w : List Nat) : A := (w.map ρ).prod

/-- Value of a term. -/
noncomputable def eval : Term → A
  | none => 0
  | some (s, w) => phase s • evalWord ρ w

/-- The equation of a rule is true under the interpretation. -/
def Holds (rule : RRule) : Prop := evalWord ρ rule.1 = eval ρ rule.2

/-- All equations of a set of rules are true. -/
def Models (R : Set RRule) : Prop := ∀ rule ∈ R, Holds ρ rule

end Algebra

end Moment.Rewrite
