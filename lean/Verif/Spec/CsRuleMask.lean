import Verif.Spec.Pmcfg

/-!
# Specification of useful rules

A nonterminal is productive for a word if it derives a tuple over the terminals of the word.
-/

namespace Rustomata.Spec
variable {N T W : Type _}

/-- The nonterminal derives a tuple that uses only terminals of the word. -/
def DerivesOver (rules : List (PMCFGRule N T W)) (word : List T) (A : N) : Prop :=
  ∃ d v, Derives rules A d v ∧ ∀ c ∈ v, ∀ a ∈ c, a ∈ word

/-- Nonterminals reachable from `init` by rules whose right-hand sides derive tuples over the terminals of the word. -/
inductive UsefulReach (rules : List (PMCFGRule N T W)) (word : List T) (init : N) : N → Prop
  | init : UsefulReach rules word init init
  | step {r A} : UsefulReach rules word init r.head → r ∈ rules → (∀ B ∈ r.tail, DerivesOver rules word B) → A ∈ r.tail →
      UsefulReach rules word init A

/-- Normal form: no component is empty, no rule is without components, and each rule consists of one terminal or of variables only. -/
def NormalForm (rules : List (PMCFGRule N T W)) : Prop :=
  ∀ r ∈ rules, r.composition ≠ [] ∧ (∀ c ∈ r.composition, c ≠ []) ∧
    ((∃ a, r.composition = [[.t a]]) ∨ ∀ c ∈ r.composition, ∀ x ∈ c, ∃ i j, x = .var i j)

/-- Grammars for the Chomsky-Schützenberger parser: LCFRS in normal form in which each nonterminal of a right-hand side has a rule. -/
structure ParserGrammar (rules : List (PMCFGRule N T W)) (init : N) : Prop where
  lcfrs : IsLcfrs rules init
  normal : NormalForm rules
  closed : ∀ r ∈ rules, ∀ A ∈ r.tail, ∃ r' ∈ rules, r'.head = A

end Rustomata.Spec
