import Mathlib.Data.Rat.Defs
import Mathlib.Algebra.Field.Rat

/-! # What texts of symbols mean -/

namespace Moment.SymbolText.Spec

/-- Characters that may stand before a number. -/
def Blank (t : List Char) : Prop := ∀ c ∈ t, c = ' ' ∨ c = '\t' ∨ c = '\n' ∨ c = '\x0b' ∨ c = '\x0c' ∨ c = '\r'

/-- A text of digits, and the number it is. -/
def IsNat (t : List Char) (n : Nat) : Prop := t ≠ [] ∧ (∀ c ∈ t, c.isDigit = true) ∧ n = Nat.ofDigitChars 10 t 0

/-- A sign, with its value. -/
inductive IsSign : List Char → Int → Prop
  | no : IsSign [] 1
  | plus : IsSign ['+'] 1
  | minus : IsSign ['-'] (-1)

/-- An integer. -/
def IsInt (t : List Char) (n : Int) : Prop := ∃ s d g m, t = s ++ d ∧ IsSign s g ∧ IsNat d m ∧ n = g * m

/-- Digits after a decimal point. -/
inductive IsFraction : List Char → List Char → Prop
  | no : IsFraction [] []
  | point {d : List Char} : (∀ c ∈ d, c.isDigit = true) → IsFraction ('.' :: d) d

/-- An exponent. -/
inductive IsExponent : List Char → Int → Prop
  | no : IsExponent [] 0
  | small {t : List Char} {n : Int} : IsInt t n → IsExponent ('e' :: t) n
  | large {t : List Char} {n : Int} : IsInt t n → IsExponent ('E' :: t) n

/-- A decimal number. -/
def IsDecimal (t : List Char) (q : ℚ) : Prop :=
  ∃ s a f b x g e m, t = s ++ a ++ f ++ x ∧ IsSign s g ∧ (∀ c ∈ a, c.isDigit = true) ∧ IsFraction f b ∧ IsExponent x e ∧ IsNat (a ++ b) m ∧
    q = g * m * 10 ^ (e - b.length)

/-- A factor: a decimal number and what it is rounded to. -/
def IsFactor (round : ℚ → Option ℚ) (t : List Char) (q : ℚ) : Prop := ∃ b d x, t = b ++ d ∧ Blank b ∧ IsDecimal d x ∧ round x = some q

/-- A star is for conjugation. -/
inductive IsStar : List Char → Bool → Prop
  | no : IsStar [] false
  | star : IsStar ['*'] true

/-- What a text means: a factor and a symbol after `#`; a symbol, perhaps with a sign; or a number, with a decimal point. -/
inductive Means (round : ℚ → Option ℚ) : List Char → Nat → ℚ → Bool → Prop
  | hash {b d s : List Char} {n : Nat} {c : Bool} : Blank b → IsInt d n → n < 2 ^ 31 → IsStar s c → Means round ('#' :: b ++ d ++ s) n 1 c
  | factor {f b d s : List Char} {q : ℚ} {n : Nat} {c : Bool} : IsFactor round f q → Blank b → IsInt d n → n < 2 ^ 31 → IsStar s c →
      Means round (f ++ '#' :: b ++ d ++ s) n q c
  | symbol {b d s : List Char} {n : Nat} {c : Bool} : Blank b → IsInt d n → n < 2 ^ 31 → IsStar s c → Means round (b ++ d ++ s) n 1 c
  | negative {b d s : List Char} {n : Nat} {c : Bool} : Blank b → IsInt d (-n) → 0 < n → n < 2 ^ 31 → IsStar s c → Means round (b ++ d ++ s) n (-1) c
  | number {f : List Char} {q : ℚ} : IsFactor round f q → '.' ∈ f → Means round f 1 q false

end Moment.SymbolText.Spec
