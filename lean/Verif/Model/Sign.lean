import Mathlib.Algebra.Group.Defs

/-! # Model of `SequenceSignType` (cpp/lib_moment/sequence_sign_type.h) -/

namespace Moment

/-- `enum class SequenceSignType : uint8_t` (sequence_sign_type.h:22-31). -/
inductive Sign
  | pos | imag | neg | negImag
  deriving DecidableEq, Repr, Inhabited

namespace Sign

/-- `static_cast<uint8_t>(SequenceSignType)`: the numeric values of the enumeration (sequence_sign_type.h:22-31). -/
def code : Sign → Nat
  | pos => 0 | imag => 1 | neg => 2 | negImag => 3

/-- `static_cast<SequenceSignType>(n)` for `n < 4` (sequence_sign_type.h:22-31).
Values of 4 and more do not occur because every caller masks with `0x03`. -/
def ofCode : Nat → Sign
  | 0 => pos | 1 => imag | 2 => neg | _ => negImag

/-- `negate` (sequence_sign_type.h:44-46). -/
def negate (s : Sign) : Sign := ofCode (s.code ^^^ 2)

/-- `is_negative` (sequence_sign_type.h:51-53). -/
def isNegative (s : Sign) : Bool := s.code &&& 2 != 0

/-- `is_imaginary` (sequence_sign_type.h:58-60). -/
def isImaginary (s : Sign) : Bool := s.code &&& 1 != 0

/-- `conjugate` (sequence_sign_type.h:65-68). -/
def conj (s : Sign) : Sign := ofCode ((4 - s.code) &&& 3)

/-- `operator*` (sequence_sign_type.h:74-77). -/
def mul (a b : Sign) : Sign := ofCode ((a.code + b.code) &&& 3)

/-- `difference` (sequence_sign_type.h:83-85). -/
def difference (a b : Sign) : Sign := ofCode ((4 + b.code - a.code) &&& 3)

/-- `are_negatives` (sequence_sign_type.h:90-92). -/
def areNegatives (a b : Sign) : Bool := ((4 - a.code + b.code) &&& 3) == 2

end Sign
end Moment
