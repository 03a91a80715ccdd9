import Verif.Spec.Visits
import Mathlib.Logic.Relation

/-!
# Specification: left recursion for grammars whose components are visited one after the other
-/

namespace Rustomata.Spec
open Rustomata
variable {N T W : Type _}

/-- The component of a rule begins with a variable for a nonterminal that was not visited before, and there is a rule for this nonterminal. The pairs are a rule and the number
of the component that is visited. -/
def LeftVisit (cut : Composition T → Composition T) (rules : List (PMCFGRule N T W)) (x y : PMCFGRule N T W × Nat) : Prop :=
  x.1 ∈ rules ∧ y.1 ∈ rules ∧ ∃ i c, (cut x.1.composition)[x.2]? = some (.var i y.2 :: c) ∧ lastBefore (cut x.1.composition) x.2 0 i = none ∧ x.1.tail[i]? = some y.1.head

/-- A sequence of rules that begins with a rule for an initial nonterminal, and continues with first visits at the left; and its last rule with the component that is visited. -/
inductive LeftVisits (cut : Composition T → Composition T) (g : PMCFG N T W) : List (PMCFGRule N T W) → PMCFGRule N T W × Nat → Prop
  | first {r} : r ∈ g.rules → r.head ∈ g.initial → LeftVisits cut g [r] (r, 0)
  | step {rs x y} : LeftVisits cut g rs x → LeftVisit cut g.rules x y → LeftVisits cut g (rs ++ [y.1]) y

/-- Some component is reached from itself by first visits at the left. -/
def VisitRecursive (cut : Composition T → Composition T) (rules : List (PMCFGRule N T W)) : Prop := ∃ x, Relation.TransGen (LeftVisit cut rules) x x

/-- The component can be the first one of its node that is visited. -/
def FirstVisited (cut : Composition T → Composition T) (g : PMCFG N T W) (r : PMCFGRule N T W) (j : Nat) : Prop :=
  r ∈ g.rules ∧ ((r.head ∈ g.initial ∧ j = 0) ∨ ∃ r' ∈ g.rules, ∃ j' k i c, (cut r'.composition)[j']? = some c ∧ (varsOf [c])[k]? = some (i, j) ∧
    lastBefore (cut r'.composition) j' k i = none ∧ r'.tail[i]? = some r.head)

end Rustomata.Spec
