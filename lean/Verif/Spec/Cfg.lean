import Verif.Model.Cfg
import Mathlib.Logic.Relation
import Mathlib.Algebra.BigOperators.Group.List.Basic

/-!
# Specification of context-free derivations

Uses only the record types of grammars.
-/

namespace Rustomata.Spec
variable {N T W : Type _}

/-- One rewriting step of a context-free grammar. -/
def Rewrites (G : CFG N T W) (u v : List (LetterT N T)) : Prop :=
  ∃ pre post, ∃ r ∈ G.rules, u = pre ++ [.label r.head] ++ post ∧ v = pre ++ r.composition ++ post

/-- The grammar generates the word from one of its initial nonterminals. -/
def Generates (G : CFG N T W) (w : List T) : Prop :=
  ∃ S ∈ G.initial, Relation.ReflTransGen (Rewrites G) [.label S] (w.map .value)

/-- `Leftmost G γ rs w`: from the sentential form `γ`, the leftmost derivation with the rules `rs` yields `w`. -/
inductive Leftmost (G : CFG N T W) : List (LetterT N T) → List (CFGRule N T W) → List T → Prop
  | nil : Leftmost G [] [] []
  | read {t γ rs w} : Leftmost G γ rs w → Leftmost G (.value t :: γ) rs (t :: w)
  | expand {r γ rs w} : r ∈ G.rules → Leftmost G (r.composition ++ γ) rs w → Leftmost G (.label r.head :: γ) (r :: rs) w

/-- The weight of a derivation. -/
def ruleWeight [Monoid W] (rs : List (CFGRule N T W)) : W := (rs.map CFGRule.weight).prod

end Rustomata.Spec
