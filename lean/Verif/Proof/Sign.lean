import Verif.Model.Sign
import Mathlib.Tactic.Cases

/-! Group structure on phases, used by the other modules. -/

namespace Moment.Sign

instance : CommGroup Sign where
  mul := mul
  one := pos
  inv := conj
  mul_assoc a b c := by cases a <;> cases b <;> cases c <;> rfl
  one_mul a := by cases a <;> rfl
  mul_one a := by cases a <;> rfl
  inv_mul_cancel a := by cases a <;> rfl
  mul_comm a b := by cases a <;> cases b <;> rfl

@[simp] theorem mul_eq (a b : Sign) : mul a b = a * b := rfl
@[simp] theorem conj_eq (a : Sign) : conj a = a⁻¹ := rfl
@[simp] theorem one_eq : (pos : Sign) = 1 := rfl

theorem negate_eq (a : Sign) : negate a = neg * a := by cases a <;> rfl

end Moment.Sign
