import Verif.Spec.Cfg
import Verif.Spec.Pmcfg
import Verif.Spec.Recognise
import Mathlib.Data.List.DropRight

/-!
# Specification: the context-free grammar of the components of a PMCFG

If the tree stack of the automaton of a PMCFG is replaced by a pushdown, the components of a nonterminal are derived independently of each other.
-/

namespace Rustomata.Spec
open Rustomata
variable {N T W : Type _}

/-- The symbol of a context-free rule for a symbol of a component: the nonterminals are pairs of a nonterminal and the number of a component. A variable that refers to no
nonterminal of the right-hand side becomes a nonterminal without rules. -/
def componentLetter (tail : List N) : VarT T → LetterT (Option N × Nat) T
  | .var i j => .label (tail[i]?, j)
  | .t a => .value a

/-- The context-free grammar of the components, where `cut` is applied to the compositions. -/
def componentCfgWith (cut : Composition T → Composition T) (g : PMCFG N T W) : CFG (Option N × Nat) T W where
  initial := g.initial.map fun S => (some S, 0)
  rules := g.rules.flatMap fun r => (cut r.composition).zipIdx.map fun p => ⟨(some r.head, p.2), p.1.map (componentLetter r.tail), r.weight⟩

/-- The context-free grammar of the components: one rule for each component of each rule. -/
def componentCfg (g : PMCFG N T W) : CFG (Option N × Nat) T W := componentCfgWith id g

/-- Is the symbol a terminal? -/
def isTerminal : VarT T → Bool
  | .t _ => true
  | .var _ _ => false

/-- What is kept of the terminals at the end of a component: only the last one; an empty component gets those that are kept for the component before. -/
def keptEnd (left c : List (VarT T)) : List (VarT T) :=
  match c.getLast? with
  | none => left
  | some (.t a) => [.t a]
  | some (.var _ _) => []

/-- The composition that the automaton has instead of the given one. -/
def cutTrailsFrom (left : List (VarT T)) : Composition T → Composition T
  | [] => []
  | c :: cs => (c.rdropWhile isTerminal ++ keptEnd left c) :: cutTrailsFrom (keptEnd left c) cs

/-- Of several terminals at the end of a component, only the last one is kept. -/
def cutTrails (cs : Composition T) : Composition T := cutTrailsFrom [] cs

/-- The answer to a word: nothing if there is no accepting run, and otherwise an accepting run with the greatest weight. -/
def FirstRun {S I : Type _} [Monoid W] [LE W] (D : Device S I T W) (w : List T) : Option (Item S I T W) → Prop
  | none => ¬ D.Language w
  | some i => i.conf.word = [] ∧ D.Accepting w i.run.toVec i.conf.storage i.conf.weight ∧ ∀ ts s u, D.Accepting w ts s u → u ≤ i.conf.weight

end Rustomata.Spec
