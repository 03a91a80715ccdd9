import Verif.Model.CsParse
import Verif.Spec.CsCycles

/-!
# When the enumeration of derivations ends
-/

namespace Rustomata.Spec

section
variable {N T W : Type _} [DecidableEq T] [Zero W] [One W] [Mul W] [LinearOrder W]

/-- The iterator over the derivations of a sentence returns `k` derivations or `None` after finitely many calls of the iterator over the bracket words: `m` calls end, and
then there are `k` derivations, or a call returned `None`, or there were more calls than the limit of the number of candidates. -/
def Ends (R : CsRep N T W) (o : CsOptions W) (word : List T) (k : Nat) : Prop :=
  ∃ m fuel cands out, R.generate o word fuel m = some cands ∧ R.parses o word fuel m = some out ∧
    (k ≤ out.length ∨ none ∈ cands ∨ ∃ c, o.candidates = some c ∧ c < m)

end

/-- There are at least `k` derivations of the word. -/
def AtLeast {N T W : Type _} (rules : List (PMCFGRule N T W)) (init : N) (word : List T) (k : Nat) : Prop :=
  ∃ es : List (DTree Nat × DTree (PMCFGRule N T W)), es.length = k ∧ es.Nodup ∧ ∀ e d, (e, d) ∈ es → Numbers rules e d ∧ Derives rules init d [word]

end Rustomata.Spec
