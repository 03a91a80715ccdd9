import Mathlib.Data.NNReal.Basic
import Verif.Spec.Pmcfg

/-!
# Specification: costs of derivations

With probabilities as weights, the cost of a derivation is its negative logarithm: the sum of the costs of its rules.
-/

namespace Rustomata.Spec

section
variable {R R' : Type _}

mutual
/-- The sum of the costs of the rules of a derivation. -/
noncomputable def DTree.cost (c : R → NNReal) : DTree R → NNReal
  | .node r cs => c r + costs c cs
/-- The sum of the costs of a sequence of derivations. -/
noncomputable def costs (c : R → NNReal) : List (DTree R) → NNReal
  | [] => 0
  | d :: ds => d.cost c + costs c ds
end

end

end Rustomata.Spec
