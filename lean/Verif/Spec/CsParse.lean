import Verif.Spec.CsRuleMask
import Verif.Spec.CsDerivation
import Verif.Model.Tsa
import Verif.Proofs.TreeStack

/-!
# Specification of the Chomsky-Schützenberger parser
-/

namespace Rustomata.Spec

section
variable {N T W : Type _}

/-- If a nonterminal has a terminal rule, then all its rules are rules for this terminal. -/
def Preterminals (rules : List (PMCFGRule N T W)) : Prop :=
  ∀ r ∈ rules, ∀ a, r.composition = [[.t a]] → ∀ r' ∈ rules, r'.head = r.head → r'.composition = [[.t a]]

/-- There is no cycle of components that consist of one variable. -/
def NoVariableCycle (rules : List (PMCFGRule N T W)) : Prop :=
  ∃ rank : N → Nat → Nat, ∀ r ∈ rules, ∀ (c i j : Nat) B, r.composition[c]? = some [.var i j] → r.tail[i]? = some B → rank B j < rank r.head c

/-- `ParsedBy rules init word ds out`: `out` are the derivations `ds` of the word, each at most once (where derivations are distinguished by the numbers of their
rules), in the order of their weights. -/
def ParsedBy [Monoid W] [LE W] (rules : List (PMCFGRule N T W)) (init : N) (word : List T) (ds : List (DTree Nat × DTree (PMCFGRule N T W)))
    (out : List (GornTree (PMCFGRule N T W))) : Prop :=
  (ds.map Prod.fst).Nodup ∧ ds.Pairwise (fun x y => y.2.weight ≤ x.2.weight) ∧
    (∀ e d, (e, d) ∈ ds → Numbers rules e d ∧ Derives rules init d [word]) ∧
    List.Forall₂ (fun x t => t.Sorted ∧ ∀ p, t.get p = x.2.at? p) ds out

/-- `out` are some of the derivations of the word. -/
def ParsesSome [Monoid W] [LE W] (rules : List (PMCFGRule N T W)) (init : N) (word : List T) (out : List (GornTree (PMCFGRule N T W))) : Prop :=
  ∃ ds, ParsedBy rules init word ds out

/-- `out` are the derivations of the word. -/
def Parses [Monoid W] [LE W] (rules : List (PMCFGRule N T W)) (init : N) (word : List T) (out : List (GornTree (PMCFGRule N T W))) : Prop :=
  ∃ ds, ParsedBy rules init word ds out ∧ ∀ e d, Numbers rules e d ∧ Derives rules init d [word] → (e, d) ∈ ds

end

end Rustomata.Spec
