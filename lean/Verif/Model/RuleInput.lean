import Verif.Model.Names
import Mathlib.Data.Rat.Floor

/-! # Model of the input of operator rules
(cpp/mex_functions/import/read_monomial_rules.cpp, utilities/read_as_vector.cpp, functions/matrix_system/algebraic_matrix_system.cpp)

MATLAB values are of the kinds that the code tells apart. Doubles are rational numbers (infinities and NaN are left out); integer arrays of all widths are lists of
integers. Strings are lists of characters (C37 models the conversion). Only the texts of exceptions are left out. -/

namespace Moment.RuleInput
open Moment.Names (Text Table)
open Moment.Rules (Pre Rule)

/-- A result, an exception, or undefined behaviour. -/
inductive Out (α : Type)
  | ok (a : α)
  | refused
  | undefined
  deriving DecidableEq

/-- One step after another. -/
def Out.bind {α β : Type} : Out α → (α → Out β) → Out β
  | .ok a, f => f a
  | .refused, _ => .refused
  | .undefined, _ => .undefined

/-- A loop that pushes results to a vector. -/
def Out.each {α β : Type} (f : α → Out β) : List α → Out (List β)
  | [] => .ok []
  | a :: l => (f a).bind fun b => (Out.each f l).bind fun bs => .ok (b :: bs)

/-- An exception if there is no value. -/
def Out.ofOption {α : Type} : Option α → Out α
  | some a => .ok a
  | none => .refused

/-- `matlab::data::Array` by `getType()`. Missing strings have no value. -/
inductive Value
  | strings (l : List (Option Text))
  | chars (t : Text)
  | ints (l : List Int)
  | doubles (l : List Rat)
  | cell (l : List Value)

/-- `static_cast<int16_t>` of an integer (read_as_vector.cpp:69), which is modular. -/
def cast16 (x : Int) : Int := Int.bmod x 65536

/-- Rounding towards zero. -/
def towardsZero (q : Rat) : Int := if 0 ≤ q then ⌊q⌋ else ⌈q⌉

/-- `static_cast<int16_t>` of a floating point number (read_as_vector.cpp:69), which is undefined if the result does not fit. -/
def castDouble (q : Rat) : Out Int := if -32768 ≤ towardsZero q ∧ towardsZero q ≤ 32767 then .ok (towardsZero q) else .undefined

/-- The body of `get_op_seq_from_numeric` after the array was read (read_monomial_rules.cpp:98-115), for indices that count from 1; `none` is zero. -/
def numeric (p : Pre) (l : List Int) : Out (Option (List Nat)) :=
  if l = [0] then .ok none
  else
    let l := l.map fun x => cast16 (x - 1)
    if l.all fun x => decide (0 ≤ x) && (Names.oper p.num == 0 || decide (x < Names.oper p.num)) then .ok (some (l.map Int.toNat)) else .refused

/-- `get_op_seq` (read_monomial_rules.cpp:28-140). -/
def side (p : Pre) (T : Table) : Value → Out (Option (List Nat))
  | .strings l => (Out.each (fun s => Out.ofOption (s.bind T.find)) l).bind fun w => .ok (some (w.map Int.toNat))
  | .chars t => (Out.ofOption (T.readChars t)).bind fun w => .ok (some (w.map Int.toNat))
  | .ints l => numeric p (l.map cast16)
  | .doubles l => (Out.each castDouble l).bind (numeric p)
  | .cell _ => .refused

/-- The sign in the middle (read_monomial_rules.cpp:211-237). -/
def middle : Value → Out Sign
  | .chars t =>
    if t = ['-'] then .ok .neg else if t = ['i'] then .ok .imag else if t = ['-', 'i'] then .ok .negImag else if t = ['+'] then .ok .pos else .refused
  | _ => .refused

/-- `RawMonomialRule` (read_monomial_rules.h:27-31). -/
structure Raw where
  lhs : List Nat
  rhs : List Nat
  sign : Sign
  zero : Bool
  deriving DecidableEq

/-- The rest of the loop (read_monomial_rules.cpp:245-262). -/
def sides (p : Pre) (T : Table) (g : Sign) (l r : Value) : Out Raw :=
  (side p T l).bind fun
    | none => .refused
    | some lhs => (side p T r).bind fun
      | none => .ok ⟨lhs, [], .pos, true⟩
      | some rhs => .ok ⟨lhs, rhs, g, false⟩

/-- The body of the loop of `read_monomial_rules` (read_monomial_rules.cpp:203-263). -/
def rule (p : Pre) (T : Table) : Value → Out Raw
  | .cell [l, m, r] => (middle m).bind fun g => sides p T g l r
  | .cell [l, r] => sides p T .pos l r
  | _ => .refused

/-- `read_monomial_rules` (read_monomial_rules.cpp:185-266). -/
def readRules (p : Pre) (T : Table) : Value → Out (List Raw)
  | .cell l => Out.each (rule p T) l
  | _ => .refused

/-- `check_rule_length` (read_monomial_rules.cpp:276-290). -/
def lengthsOk (p : Pre) (l : List Raw) : Bool := l.all fun r => decide (r.lhs.length ≤ longestHashable p.num) && decide (r.rhs.length ≤ longestHashable p.num)

/-- `HashedSequence{word, hasher, sign}`. -/
def seq (p : Pre) (w : List Nat) (g : Sign) : HSeq := ⟨p.hash w, w, g⟩

/-- `RawMonomialRule::to_rule` (read_monomial_rules.cpp:144-183). -/
def Raw.toRule (p : Pre) (r : Raw) : Out Rule :=
  if longestHashable p.num < r.lhs.length ∨ longestHashable p.num < r.rhs.length then .refused
  else Out.ofOption (
    if r.zero then Rule.make (seq p r.lhs .pos) HSeq.zero
    else if p.hash r.rhs < p.hash r.lhs then Rule.make (seq p r.lhs .pos) (seq p r.rhs r.sign)
    else Rule.make (seq p r.rhs .pos) (seq p r.lhs r.sign))

/-- Rules for the context of `algebraic_matrix_system` (algebraic_matrix_system.cpp:24-34, 107-112, 124-131). -/
def rules (p : Pre) (T : Table) (v : Value) : Out (List Rule) :=
  (readRules p T v).bind fun l => if lengthsOk p l then Out.each (Raw.toRule p) l else .refused

end Moment.RuleInput
