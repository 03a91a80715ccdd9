import Verif.Spec.CfgCommand
import Verif.Spec.Recognise

/-!
# Specification of relabelled context-free grammars
-/

namespace Rustomata.Spec
variable {N N' T W : Type _}

/-- A letter with the nonterminals renamed. -/
def relabelLetter (f : N → N') : LetterT N T → LetterT N' T
  | .label A => .label (f A)
  | .value x => .value x

/-- A rule with the nonterminals renamed. -/
def relabelRule (f : N → N') (r : CFGRule N T W) : CFGRule N' T W := ⟨f r.head, r.composition.map (relabelLetter f), r.weight⟩

/-- A grammar with the nonterminals renamed. -/
def relabelCfg (f : N → N') (G : CFG N T W) : CFG N' T W := ⟨G.initial.map f, G.rules.map (relabelRule f)⟩

/-- The answer to a word, where the rules of the merged grammar `G'` have the weights of the rules of `G`: nothing if the grammar does not generate the word, and otherwise an item for a
derivation with the greatest weight. The item has read everything, its store consists of the bottom symbol, it has the weight of the derivation, and its run is an accepting
run of the automaton with the transitions `L`. -/
def FirstParse [DecidableEq N] [DecidableEq T] [Monoid W] [AddMonoid W] [LE W] (G G' : CFG N T W) (L : List (Transition (PdInstr (PushState N T)) T W)) (w : List T) :
    Option (Item (PushDown (PushState N T)) (PdInstr (PushState N T)) T W) → Prop
  | none => ¬ Generates G w
  | some i => ∃ d, CfgDerivation G' w d ∧ (∀ e, CfgDerivation G' w e → derivationWeight G e ≤ derivationWeight G d) ∧
      i.conf = ⟨[], [.designated], derivationWeight G d⟩ ∧ Device.Accepting ⟨PdInstr.apply, L, [.designated, .initial], fun p => p.length == 1⟩ w i.run.toVec [.designated] (derivationWeight G d)

end Rustomata.Spec
