import Verif.Model.Util
import Mathlib.Analysis.SpecialFunctions.Pow.NNReal

/-!
# Model of `Factorizable`

Source: `/repo/src/util/factorizable.rs`. Weights of type `LogDomain<f64>` are non-negative real numbers; rounding is not modelled.
-/

namespace Rustomata

/-- `factorize` for `LogDomain<f64>` (factorizable.rs:11-16): `n` times the `n`-th root. -/
noncomputable def logFactorize (w : NNReal) (n : Nat) : List NNReal := List.replicate n (w ^ (1 / (n : ℝ)))

/-- `factorize` for `()` (factorizable.rs:18-22). -/
def unitFactorize (_ : Unit) (n : Nat) : List Unit := List.replicate n ()

end Rustomata
