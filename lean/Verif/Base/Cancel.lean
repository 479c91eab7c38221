import Verif.Base.Num

/-!
# Laws of exact arithmetic that survive rounding: multiplication by zero, cancellation of equal numbers, doubling
-/

set_option linter.unusedSectionVars false

namespace Stochopy

class CancelOps (K : Type) [AddZeroClass K] [One K] [Sub K] [Mul K] [Div K] [NatCast K] : Prop where
  sub_self : ∀ a : K, a - a = 0
  mul_zero : ∀ a : K, a * 0 = 0
  zero_mul : ∀ a : K, 0 * a = 0
  double_sub : ∀ a : K, a + a - a = a
  half_double : ∀ a : K, 1 / 2 * (a + a) = a

/-- Exact arithmetic. -/
instance CancelOps.ofField {K : Type} [Field K] [LinearOrder K] [IsStrictOrderedRing K] : CancelOps K where
  sub_self := _root_.sub_self
  mul_zero := MulZeroClass.mul_zero
  zero_mul := MulZeroClass.zero_mul
  double_sub a := add_sub_cancel_right a a
  half_double a := by rw [← two_mul, ← mul_assoc, one_div, inv_mul_cancel₀ two_ne_zero, one_mul]

end Stochopy
