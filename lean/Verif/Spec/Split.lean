import Verif.Spec.Pmcfg

/-!
# Grammars with a nonterminal for each occurrence of a variable
-/

namespace Rustomata.Spec
variable {N T W : Type _}

/-- The variables of a component are numbered by their occurrences, from `n` on. -/
def numberVars : Nat → List (VarT T) → List (VarT T)
  | _, [] => []
  | n, .t a :: c => .t a :: numberVars n c
  | n, .var _ _ :: c => .var n 0 :: numberVars (n + 1) c

/-- The nonterminals that the variables of a component stand for, by occurrence. -/
def occurrences (tail : List N) (c : List (VarT T)) : List N := (varsOf [c]).filterMap fun v => tail[v.1]?

/-- The rule with its own nonterminal for each occurrence of a variable; nonterminals without variable are dropped. -/
def splitRule (r : PMCFGRule N T W) : PMCFGRule N T W := ⟨r.head, occurrences r.tail r.composition.flatten, [numberVars 0 r.composition.flatten], r.weight⟩

/-- Each variable occurs at most once in the rule. -/
def NonCopying (rules : List (PMCFGRule N T W)) : Prop := ∀ r ∈ rules, (varsOf r.composition).Nodup

/-- Each nonterminal of a right-hand side has a derivation. -/
def AllProductive (rules : List (PMCFGRule N T W)) : Prop := ∀ r ∈ rules, ∀ A ∈ r.tail, ∃ d v, Derives rules A d v

end Rustomata.Spec
