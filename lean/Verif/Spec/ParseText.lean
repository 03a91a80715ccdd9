import Verif.Spec.TsaCommand
import Verif.Spec.Visits
import Verif.Model.ParseText

/-!
# Specification of the drawing of a tree, and of the command `mcfg parse` without `--negra`
-/

namespace Rustomata.Spec
open Rustomata
variable {W : Type _}

/-- The two lines for a node in the drawing of a tree. -/
def nodeLines (marked : Bool) (v : List Nat) : List Nat → List (List Nat)
  | [] => [[32], (if marked then 42 else 32) :: v]
  | x :: p =>
    let bars := (p.map fun _ => [124, 32]).flatten
    [32 :: bars ++ [124], (if marked then 42 else 32) :: bars ++ [43, 45] ++ natText ((x :: p).getLastD 0) ++ [58, 32] ++ v]

/-- The drawing of a tree with a marked node: the lines of the nodes, in the lexicographic order of their addresses. -/
def Drawing (label : List Nat → Option (List Nat)) (marked : List Nat) (text : List Nat) : Prop :=
  ∃ ps : List (List Nat), ps.Pairwise (· < ·) ∧ (∀ p, p ∈ ps ↔ label p ≠ none) ∧
    text = (ps.flatMap fun p => nodeLines (p = marked) ((label p).getD []) p).flatMap fun l => l ++ [10]

/-- A tree: it has a root, and with each node also the node above. -/
def TreeLike {V : Type _} (label : List Nat → Option V) : Prop := label [] ≠ none ∧ ∀ p i, label (p ++ [i]) ≠ none → label p ≠ none

/-- What a parse shows of a word: nothing for the empty run on the empty word, and otherwise the rules with which the word is accepted by visiting components; with the weight. -/
def ShownParse [Monoid W] {N T : Type _} (g : PMCFG N T W) (w : List T) (x : Option (List Nat → Option (PMCFGRule N T W)) × W) : Prop :=
  match x.1 with
  | none => w = [] ∧ x.2 = 1
  | some labels => ∃ S ∈ g.initial, Visited cutTrails g.rules S [0] labels [w] x.2

/-- The drawing of what a parse shows, where the root is marked: the tree is the first child of the root, after each rule there are the number of one of
its components, and the number of variables of this component. -/
def ShownDrawing {N T : Type _} (rule : PMCFGRule N T W → List Nat) (labels : Option (List Nat → Option (PMCFGRule N T W))) (text : List Nat) : Prop :=
  match labels with
  | none => text = [32, 10, 42, 73, 10]
  | some labels => ∃ label : List Nat → Option (List Nat), Drawing label [] text ∧ label [] = some [64] ∧ (∀ i p, label (i :: p) ≠ none → i = 0) ∧
      ∀ p, match labels p with
        | none => label (0 :: p) = none
        | some r => ∃ j c, r.composition[j]? = some c ∧ label (0 :: p) = some ([40] ++ rule r ++ [44, 32] ++ natText j ++ [44, 32] ++ natText (varsOf [c]).length ++ [41])

/-- The text of a parse: no word is left; the weight, and the drawing. -/
def ShownText {N T : Type _} (rule : PMCFGRule N T W → List Nat) (weight : W → List Nat) (x : Option (List Nat → Option (PMCFGRule N T W)) × W) (text : List Nat) : Prop :=
  ∃ drawing, ShownDrawing rule x.1 drawing ∧
    text = ascii "Configuration:\nword:[]\nweight:".toList ++ weight x.2 ++ [10] ++ drawing ++ [10] ++ [10]

/-- The answer to a sentence. -/
def ShownTexts {N T : Type _} (rule : PMCFGRule N T W → List Nat) (weight : W → List Nat) (xs : List (Option (List Nat → Option (PMCFGRule N T W)) × W)) (text : List Nat) : Prop :=
  ∃ ts, List.Forall₂ (ShownText rule weight) xs ts ∧ text = ts.flatten

end Rustomata.Spec
