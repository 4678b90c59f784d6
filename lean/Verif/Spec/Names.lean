import Verif.Model.Names

/-! # What names of operators are for -/

namespace Moment.Names
open Moment.Rules (Pre ConjMode)

/-- A list of names that may be given. -/
def Proper (p : Pre) (raw : List Text) : Prop :=
  raw.length = p.raw ∧ raw.Nodup ∧ ∀ t ∈ raw, ∃ c cs, t = c :: cs ∧ c.isAlpha ∧ ∀ d ∈ cs, d.isAlpha ∨ d.isDigit ∨ d ∈ ['_', '.', '|']

/-- The name that operator `k` should have. -/
def nameOf (p : Pre) (raw : List Text) (k : Nat) : Option Text :=
  match p.mode with
  | .selfAdjoint => raw[k]?
  | .bunched => if k < p.raw then raw[k]? else (raw[k - p.raw]?).map (· ++ ['*'])
  | .interleaved => if k % 2 = 0 then raw[k / 2]? else (raw[k / 2]?).map (· ++ ['*'])

/-- Operator numbers fit into `oper_name_t`. -/
def Fits (p : Pre) : Prop := p.num ≤ 32768

/-- A string that is moved to itself stays as it is. -/
def Harmless (mv : Moves) (p : Pre) : Prop := p.mode = .interleaved → ∀ t, mv.self t = t

end Moment.Names
