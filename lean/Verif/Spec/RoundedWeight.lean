import Mathlib.Algebra.Order.GroupWithZero.Canonical

/-!
# Weights with rounded multiplication

Multiplication of floating point numbers is commutative and monotone but not associative.
-/

namespace Rustomata

/-- The laws that multiplication with rounding satisfies: it is commutative and monotone, and 0 and 1 are as usual. That no product is 0 by underflow is not among them. -/
class RoundedWeight (W : Type _) extends MulZeroOneClass W, CommMagma W, LinearOrder W, IsBotZeroClass W where
  mul_le_mul_left' : ∀ a b : W, a ≤ b → ∀ c, c * a ≤ c * b

instance (priority := 50) RoundedWeight.ofExact {W : Type _} [LinearOrderedCommMonoidWithZero W] : RoundedWeight W :=
  { (inferInstance : MulZeroOneClass W), (inferInstance : CommMagma W), (inferInstance : LinearOrder W), (inferInstance : IsBotZeroClass W) with
    mul_le_mul_left' := fun _ _ h c => mul_le_mul_right h c }

instance (priority := 50) RoundedWeight.mulLeftMono {W : Type _} [RoundedWeight W] : MulLeftMono W := ⟨fun c _ _ h => RoundedWeight.mul_le_mul_left' _ _ h c⟩
instance (priority := 50) RoundedWeight.mulRightMono {W : Type _} [RoundedWeight W] : MulRightMono W :=
  ⟨fun c a b h => by simpa only [Function.swap, mul_comm _ c] using RoundedWeight.mul_le_mul_left' _ _ h c⟩

end Rustomata
