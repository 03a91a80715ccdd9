import Verif.Spec.CsParse

/-!
# Specification of the Chomsky-Schützenberger parser for arbitrary terminal rules
-/

namespace Rustomata.Spec

section
variable {N T W : Type _}

/-- `ParsedLength rules init word ds out`: `out` are the derivations `ds`, which are derivations of sentences that have as many words as `word`. -/
def ParsedLength (rules : List (PMCFGRule N T W)) (init : N) (word : List T) (ds : List (DTree Nat × DTree (PMCFGRule N T W)))
    (out : List (GornTree (PMCFGRule N T W))) : Prop :=
  (∀ e d, (e, d) ∈ ds → Numbers rules e d ∧ ∃ u, Derives rules init d [u] ∧ u.length = word.length) ∧
    List.Forall₂ (fun x t => t.Sorted ∧ ∀ p, t.get p = x.2.at? p) ds out

/-- `out` are derivations of sentences with the same number of words, and every derivation of the word is among them. -/
def ParsesEach (rules : List (PMCFGRule N T W)) (init : N) (word : List T) (out : List (GornTree (PMCFGRule N T W))) : Prop :=
  ∃ ds, ParsedLength rules init word ds out ∧ ∀ e d, Numbers rules e d ∧ Derives rules init d [word] → (e, d) ∈ ds

end

end Rustomata.Spec
