import Verif.Spec.Pmcfg
import Verif.Model.Tsa
import Verif.Proofs.TreeStack

/-!
# Specification of fallback derivations

A fallback derivation uses rules that are merged from components of different rules for one nonterminal.
-/

namespace Rustomata.Spec
variable {N T W : Type _}

/-- `d` is a derivation from `A` of the tuple `v` by the rules at its nodes. -/
def Derivation (d : DTree (PMCFGRule N T W)) (A : N) (v : List (List T)) : Prop :=
  ∀ rs : List (PMCFGRule N T W), (∀ p r, d.at? p = some r → r ∈ rs) → Derives rs A d v

/-- Renames the nonterminals of a right-hand side in a symbol. -/
def renameVar (f : Nat → Nat) : VarT T → VarT T
  | .var i j => .var (f i) j
  | .t a => .t a

/-- `r` is merged from `rules`: each component is empty or the component with the same index of a rule with the same left-hand side, up to the numbers of the
nonterminals of the right-hand side. -/
def Merged [Zero W] (rules : List (PMCFGRule N T W)) (r : PMCFGRule N T W) : Prop :=
  r.weight = 0 ∧ ∀ (n : Nat) c, r.composition[n]? = some c → c = [] ∨ ∃ r' ∈ rules, r'.head = r.head ∧ ∃ c' f, r'.composition[n]? = some c' ∧
    c = c'.map (renameVar f) ∧ ∀ i j, (i, j) ∈ varsOf [c'] → r.tail[f i]? = r'.tail[i]?

/-- `m` is a derivation of `u` from `A` with merged rules. -/
def FallbackOf [Zero W] (rules : List (PMCFGRule N T W)) (A : N) (u : List T) (m : GornTree (PMCFGRule N T W)) : Prop :=
  m.Sorted ∧ ∃ d, (∀ p, m.get p = d.at? p) ∧ Derivation d A [u] ∧ ∀ p r, d.at? p = some r → Merged rules r

end Rustomata.Spec
