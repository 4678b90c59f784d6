import Verif.Model.Sign
import Mathlib.Data.Complex.Basic
import Mathlib.Tactic.NormNum

/-! # C01: the four word phases behave as powers of `i`

Specification: `value` is the complex number a phase stands for
(`to_scalar`, sequence_sign_type.h:94-106; the C++ value is an exact `std::complex<double>`). -/

namespace Moment.C01

open Complex

/-- The complex number of a phase: `to_scalar` (sequence_sign_type.h:94-106). -/
noncomputable def value : Sign → ℂ
  | .pos => 1 | .imag => I | .neg => -1 | .negImag => -I

/-- Different phases are different numbers. -/
theorem C01_value_injective : Function.Injective value := by
  intro a b h
  cases a <;> cases b <;> simp [value, Complex.ext_iff] at h ⊢ <;> norm_num at h

/-- Products, conjugates, negation and quotients of phases are those of the numbers they stand for. -/
theorem C01_sign_arithmetic (a b : Sign) :
    value (a.mul b) = value a * value b ∧
    value a.conj = star (value a) ∧
    value a.negate = - value a ∧
    value a * value (a.difference b) = value b := by
  refine ⟨?_, ?_, ?_, ?_⟩ <;> cases a <;> cases b <;>
    simp [value, Sign.mul, Sign.conj, Sign.negate, Sign.difference, Sign.ofCode, Sign.code]

/-- The tests agree with the numbers: negative tests, imaginary test, "negatives of each other". -/
theorem C01_sign_tests (a b : Sign) :
    (a.isNegative = true ↔ value a = -1 ∨ value a = -I) ∧
    (a.isImaginary = true ↔ (value a).re = 0) ∧
    (a.areNegatives b = true ↔ value a = - value b) := by
  refine ⟨?_, ?_, ?_⟩ <;> cases a <;> cases b <;>
    simp [value, Sign.isNegative, Sign.isImaginary, Sign.areNegatives, Sign.code, Complex.ext_iff] <;> norm_num

example : value (Sign.mul .imag .negImag) = 1 := by
  rw [(C01_sign_arithmetic _ .negImag).1]; simp [value]

end Moment.C01
