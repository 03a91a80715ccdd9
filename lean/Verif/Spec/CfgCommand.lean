import Verif.Spec.CfgMerge
import Verif.Spec.CsCommand
import Verif.Model.CfgCommand

/-!
# Specification of the command `cfg parse`
-/

namespace Rustomata.Spec
variable {D N T W : Type _}

/-- At most `n` things with `P`, none of them twice. -/
structure SomeOf (P : D → Prop) (n : Nat) (ds : List D) : Prop where
  nodup : ds.Nodup
  length : ds.length ≤ n
  all : ∀ d ∈ ds, P d

/-- The `n` best things with `P`, best first: each other thing with `P` is not better than any of them; if there are less than `n`, there are no other ones. -/
structure BestOf [LE W] (P : D → Prop) (weight : D → W) (n : Nat) (ds : List D) : Prop extends SomeOf P n ds where
  sorted : ds.Pairwise fun d e => weight e ≤ weight d
  best : ∀ d, P d → d ∈ ds ∨ ds.length = n ∧ ∀ e ∈ ds, weight d ≤ weight e

/-- A derivation of the word: an initial nonterminal and the rules of a leftmost derivation. -/
def CfgDerivation (G : CFG N T W) (w : List T) (d : N × List (CFGRule N T W)) : Prop := d.1 ∈ G.initial ∧ Leftmost G [.label d.1] d.2 w

variable [DecidableEq N] [DecidableEq T]

/-- The weight of a derivation with the rules of the merged grammar, where each occurrence of the initial nonterminal in `G` counts. -/
def derivationWeight [Monoid W] [AddMonoid W] (G : CFG N T W) (d : N × List (CFGRule N T W)) : W := startTotal G d.1 * ruleWeight d.2

/-- The text that is printed for a sentence: for each derivation a line with the configuration that has read everything, whose store consists of the bottom symbol and whose
weight is the weight of the derivation. -/
def weightLines {N' T' : Type _} [Monoid W] [AddMonoid W] (dbg : Configuration (PushDown (PushState N' T')) T' W → List Nat) (G : CFG N T W)
    (ds : List (N × List (CFGRule N T W))) : List Nat :=
  (ds.map fun d => dbg ⟨[], [.designated], derivationWeight G d⟩ ++ [10]).flatten

end Rustomata.Spec
