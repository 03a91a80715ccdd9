import Mathlib.Analysis.SpecialFunctions.Pow.NNReal
import Mathlib.Order.WithBot

/-!
# Specification: weights that are rounded

`LogDomain<f64>` keeps the logarithm of a weight as a floating-point number: products are sums of logarithms, rounded to the next floating-point number.
Nothing is assumed about the numbers that can be represented except that rounding is monotone and does not change them, as required by IEEE 754.
The logarithm of zero is `⊥` (negative infinity). Sums that overflow are not considered.
-/

namespace Rustomata.Spec

/-- A way to round real numbers. The numbers that are not changed are those that can be represented. -/
structure Rounding where
  round : ℝ → ℝ
  mono : Monotone round
  idem : ∀ x, round (round x) = round x
  zero : round 0 = 0

/-- Sums of two non-positive numbers are rounded with a relative error of at most `ε`. -/
structure Rounding.Within (r : Rounding) (ε : ℝ) : Prop where
  nonneg : 0 ≤ ε
  lt_one : ε < 1
  sum : ∀ x y, r.round x = x → r.round y = y → x ≤ 0 → y ≤ 0 → (1 + ε) * (x + y) ≤ r.round (x + y) ∧ r.round (x + y) ≤ (1 - ε) * (x + y)

/-- Weights whose logarithms can be represented. -/
def LogWeight (r : Rounding) : Type := WithBot {x : ℝ // r.round x = x}

namespace LogWeight
variable {r : Rounding}

noncomputable instance : LinearOrder (LogWeight r) := inferInstanceAs (LinearOrder (WithBot {x : ℝ // r.round x = x}))

/-- The weight with logarithm `x`. -/
def ofLog (x : ℝ) (h : r.round x = x) : LogWeight r := WithBot.some ⟨x, h⟩

/-- Weight zero. -/
def ofZero : LogWeight r := (⊥ : WithBot {x : ℝ // r.round x = x})

instance : One (LogWeight r) := ⟨ofLog 0 r.zero⟩

/-- Products are rounded sums of logarithms. -/
def mul : LogWeight r → LogWeight r → LogWeight r
  | some x, some y => ofLog (r.round (x.1 + y.1)) (r.idem _)
  | _, _ => ofZero

instance : Mul (LogWeight r) := ⟨mul⟩

/-- The weight itself. -/
noncomputable def value : LogWeight r → NNReal
  | some x => ⟨Real.exp x.1, (Real.exp_pos _).le⟩
  | none => 0

end LogWeight

end Rustomata.Spec
