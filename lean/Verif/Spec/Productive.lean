import Verif.Spec.CsExtract

/-!
# Productive nonterminals
-/

namespace Rustomata.Spec
variable {N W : Type _}

/-- A nonterminal of a grammar of disco-dop is productive if it is a tag, or if it has a rule with productive nonterminals on the right-hand side. -/
inductive Productive (l : List (DiscoDeriv N × List (List Bool) × W)) (tags : N → Prop) : N → Prop
  | tag {A : N} : tags A → Productive l tags A
  | rule {x : DiscoDeriv N × List (List Bool) × W} : x ∈ l → (∀ B ∈ discoRhs x.1, Productive l tags B) → Productive l tags x.1.lhs

end Rustomata.Spec
