import Verif.Spec.Pmcfg

/-!
# The rules that `Lcfrs::new` accepts
-/

namespace Rustomata.Spec
variable {N T W : Type _}

/-- All rules for a nonterminal have the same number of components. -/
def OneFanout (rules : List (PMCFGRule N T W)) : Prop :=
  ∀ r ∈ rules, ∀ r' ∈ rules, r.head = r'.head → r.composition.length = r'.composition.length

/-- The initial nonterminal has a rule with one component. -/
def StartsWithOne (rules : List (PMCFGRule N T W)) (init : N) : Prop := ∃ r ∈ rules, r.head = init ∧ r.composition.length = 1

/-- Each nonterminal of the right-hand side has a rule, the last one has a component, and the variables are exactly those of the right-hand side, each once. -/
def AcceptedRule (rules : List (PMCFGRule N T W)) (r : PMCFGRule N T W) : Prop :=
  (∀ A ∈ r.tail, ∃ r' ∈ rules, r'.head = A) ∧ (varsOf r.composition).Nodup ∧
  (∀ i j, (i, j) ∈ varsOf r.composition ↔ ∃ A, r.tail[i]? = some A ∧ ∃ r' ∈ rules, r'.head = A ∧ j < r'.composition.length) ∧
  ∀ A, r.tail.getLast? = some A → ∀ r' ∈ rules, r'.head = A → r'.composition ≠ []

end Rustomata.Spec
