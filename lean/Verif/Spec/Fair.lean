import Verif.Model.Pmcfg
import Mathlib.Algebra.BigOperators.Group.List.Basic
import Mathlib.Logic.Relation

/-!
# Specification: weights that fade, and left recursion
-/

namespace Rustomata.Spec
open Rustomata
variable {N T W : Type _}

/-- Long products of the weights fall below `v`. -/
def Fades [Mul W] [One W] [LE W] (ws : List W) (v : W) : Prop := ∃ L : Nat, ∀ us : List W, (∀ u ∈ us, u ∈ ws) → v ≤ us.foldl (· * ·) 1 → us.length ≤ L

/-- The first component of the rule `r` begins with the first component of a nonterminal for which there is the rule `r'`. -/
def LeftCorner (rules : List (PMCFGRule N T W)) (r r' : PMCFGRule N T W) : Prop :=
  r ∈ rules ∧ r' ∈ rules ∧ ∃ i c cs, r.composition = (.var i 0 :: c) :: cs ∧ r.tail[i]? = some r'.head

/-- A sequence of rules that begins with a rule for an initial nonterminal, where each rule is at the left corner of the one before, and its last rule. -/
inductive LeftPath (g : PMCFG N T W) : List (PMCFGRule N T W) → PMCFGRule N T W → Prop
  | first {r} : r ∈ g.rules → r.head ∈ g.initial → LeftPath g [r] r
  | step {rs r r'} : LeftPath g rs r → LeftCorner g.rules r r' → LeftPath g (rs ++ [r']) r'

/-- Some rule is reached from itself at left corners. -/
def LeftRecursive (rules : List (PMCFGRule N T W)) : Prop := ∃ r, Relation.TransGen (LeftCorner rules) r r

end Rustomata.Spec
