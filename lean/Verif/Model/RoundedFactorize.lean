import Verif.Spec.Rounding

/-!
# Model of src/util/factorizable.rs with rounded logarithms

A weight of type `LogDomain<f64>` is the rounded logarithm of a number. The `n`-th root of a weight is its logarithm times `1.0 / n as f64`; the quotient and the product
are rounded. `n` is at most 2 ^ 53, so that `n as f64` is exact.
-/

namespace Rustomata
open Spec

/-- `pow` of `LogDomain` (crate `log_domain`): the product of the logarithm and the exponent. For weight zero, the logarithm is minus infinity, and so is the product
with a positive exponent. -/
noncomputable def logPow {r : Rounding} (w : LogWeight r) (p : ℝ) : LogWeight r :=
  match w with
  | none => LogWeight.ofZero
  | some x => LogWeight.ofLog (r.round (x.1 * p)) (r.idem _)

/-- `factorize` for `LogDomain<f64>` (factorizable.rs:11-16): `n` times the `n`-th root. -/
noncomputable def roundedFactorize {r : Rounding} (w : LogWeight r) (n : Nat) : List (LogWeight r) :=
  List.replicate n (logPow w (r.round (1 / (n : ℝ))))

end Rustomata
