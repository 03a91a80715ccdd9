import Verif.Spec.Cfg

/-!
# Specification: grammars in which rules occur several times
-/

namespace Rustomata.Spec
open Rustomata
variable {N T W : Type _} [DecidableEq N] [DecidableEq T]

/-- The sum of the weights of the occurrences of a rule. -/
def ruleTotal [AddMonoid W] (G : CFG N T W) (A : N) (γ : List (LetterT N T)) : W :=
  ((G.rules.filter fun r => r.head = A ∧ r.composition = γ).map CFGRule.weight).sum

/-- The sum of ones for the occurrences of an initial nonterminal. -/
def startTotal [One W] [AddMonoid W] (G : CFG N T W) (S : N) : W := ((G.initial.filter fun S' => S' = S).map fun _ => (1 : W)).sum

/-- `G'` consists of the rules and initial nonterminals of `G`, each of them once, and the weights of rules that occur several times are added. -/
structure MergedCfg [AddMonoid W] (G G' : CFG N T W) : Prop where
  initial_nodup : G'.initial.Nodup
  initial_mem : ∀ S, S ∈ G'.initial ↔ S ∈ G.initial
  nodup : (G'.rules.map fun r => (r.head, r.composition)).Nodup
  mem : ∀ r, r ∈ G'.rules ↔ (∃ r' ∈ G.rules, r'.head = r.head ∧ r'.composition = r.composition) ∧ r.weight = ruleTotal G r.head r.composition

end Rustomata.Spec
