import Verif.Model.PolyInput
import Verif.Model.Utilities

/-! # Model of the function that names numbers alphabetically (cpp/mex_functions/functions/utility/alphabetic_name.cpp)

Values of `double` are reals; infinite values and those that are not a number are left out. Names are lists of character codes. -/

namespace Moment.NameList
open Moment.RuleInput (Out)
open Moment.PolyInput (towardsZero)

/-- Numeric input: integers of any type, or `double` and `single`. Other types are refused by `AlphabeticNameParams` (alphabetic_name.cpp:66-80). -/
inductive Numbers
  | ints (l : List Int)
  | doubles (l : List ℝ)
  | other

/-- The flags `lower` and `zero_index` (alphabetic_name.cpp:62-63). -/
structure Flags where
  upper : Bool
  zero : Bool

/-- `AlphabeticNamer::operator()` (alphabetic_namer.cpp:23-43), with character codes. -/
noncomputable def name (f : Flags) (id : Nat) : List Nat := (Util.alphabeticName id).map fun d => (if f.upper then 65 else 97) + d

/-- The shift by one (alphabetic_name.cpp:44-49, 105-110). -/
def shift (f : Flags) (id : Nat) : Out Nat := if f.zero then .ok id else if id < 1 then .refused else .ok (id - 1)

/-- `static_cast<size_t>` of an integer (alphabetic_name.cpp:43): modulo 2^64. -/
def castInt (x : Int) : Out Nat := .ok (x % 2 ^ 64).toNat

/-- `static_cast<size_t>` of a floating point number (alphabetic_name.cpp:43): towards zero, undefined if the result does not fit. -/
noncomputable def castDouble (x : ℝ) : Out Nat := if towardsZero x < 0 ∨ 2 ^ 64 ≤ towardsZero x then .undefined else .ok (towardsZero x).toNat

/-- The loop of `dense` (alphabetic_name.cpp:42-54). -/
noncomputable def dense {α : Type} (f : Flags) (cast : α → Out Nat) (l : List α) : Out (List (List Nat)) :=
  Out.each (fun x => (cast x).bind fun id => (shift f id).bind fun id => .ok (name f id)) l

/-- `read_positive_integer<uint64_t>` (read_as_scalar.h:224-239, read_as_scalar.cpp:62-83): negative numbers are refused. -/
noncomputable def readInt (x : Int) : Out Nat := if x < 0 then .refused else castInt x

/-- The same for floating point numbers. -/
noncomputable def readDouble (x : ℝ) : Out Nat := if x < 0 then .refused else castDouble x

/-- What is given to output: one text, or an array of texts. -/
inductive Result
  | text (t : List Nat)
  | array (shape : List Nat) (ts : List (List Nat))

/-- `AlphabeticName::operator()` (alphabetic_name.cpp:99-117). -/
noncomputable def run (f : Flags) (shape : List Nat) : Numbers → Out Result
  | .ints [x] => (readInt x).bind fun id => (shift f id).bind fun id => .ok (.text (name f id))
  | .ints l => (dense f castInt l).bind fun ts => .ok (.array shape ts)
  | .doubles [x] => (readDouble x).bind fun id => (shift f id).bind fun id => .ok (.text (name f id))
  | .doubles l => (dense f castDouble l).bind fun ts => .ok (.array shape ts)
  | .other => .refused

end Moment.NameList
