import Verif.Spec.CsCommand
import Verif.Spec.Pmcfg
import Verif.Model.McfgCommand

/-!
# Specification of the command `mcfg parse --negra`
-/

namespace Rustomata.Spec
variable {N T W : Type _}

/-- Some derivations of the word from initial nonterminals, at most `n` ones, none of them twice. -/
def SomeDerivations (g : PMCFG N T W) (w : List T) (n : Nat) (ds : List (DTree (PMCFGRule N T W))) : Prop :=
  ds.Nodup ∧ ds.length ≤ n ∧ ∀ d ∈ ds, ∃ S ∈ g.initial, Derives g.rules S d [w]

/-- The `n` best derivations of the word: they are ordered by their weights, and each other derivation of the word is not better than any of them; if there are less
than `n`, there are no other ones. -/
def BestDerivations [Monoid W] [LE W] (g : PMCFG N T W) (w : List T) (n : Nat) (ds : List (DTree (PMCFGRule N T W))) : Prop :=
  SomeDerivations g w n ds ∧ ds.Pairwise (fun d e => e.weight ≤ d.weight) ∧
    ∀ S ∈ g.initial, ∀ d, Derives g.rules S d [w] → d ∈ ds ∨ ds.length = n ∧ ∀ e ∈ ds, d.weight ≤ e.weight

/-- The text that is printed for a sentence: the trees of the derivations in the export format. -/
def ExportsOf (ds : List (DTree (PMCFGRule (List Nat) (List Nat) W))) (w : List (List Nat)) (id : Nat) (text : List Nat) : Prop :=
  ∃ bs, List.Forall₂ (fun d b => ExportOf (fun s => s) d.at? w w id b) ds bs ∧ text = bs.flatten

end Rustomata.Spec
