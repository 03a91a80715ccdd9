import Verif.Spec.CfgMerge
import Verif.Spec.RuleReads
import Verif.Model.AutomatonCommand

/-!
# Specification of the commands that print automata
-/

namespace Rustomata.Spec
open Rustomata
variable {W : Type _}

/-- Texts in quotes, separated by commas. -/
def quotes : List (List Nat) → List Nat
  | [] => []
  | [s] => ascii "\"".toList ++ s ++ ascii "\"".toList
  | s :: l => ascii "\"".toList ++ s ++ ascii "\", ".toList ++ quotes l

/-- The line for a transition: the word, what is popped, what is pushed, and the weight. -/
def replaceLine (word current new weight : List Nat) : List Nat :=
  ascii "Transition [".toList ++ word ++ ascii "] (Replace ".toList ++ current ++ ascii " // ".toList ++ new ++ ascii ")  # ".toList ++ weight ++ [10]

/-- A symbol in parentheses. -/
def parens (s : List Nat) : List Nat := [40] ++ s ++ [41]

/-- The name of a letter. -/
def letterName : LetterT (List Nat) (List Nat) → List Nat
  | .value x => x
  | .label x => x

/-- The line for a rule: the head is replaced by the right-hand side, which is reversed. -/
def ruleLine (cw : Codec W) (r : CFGRule (List Nat) (List Nat) W) : List Nat :=
  replaceLine [] (quotes [parens r.head]) (quotes (r.composition.reverse.map fun x => parens (letterName x))) (cw.text r.weight)

/-- The line for a terminal that is read. -/
def readLine [One W] (debug : List Nat → List Nat) (cw : Codec W) (t : List Nat) : List Nat := replaceLine (debug t) (quotes [parens t]) (quotes []) (cw.text 1)

/-- The line for an initial nonterminal. -/
def startLine (cw : Codec W) (v : W) (S : List Nat) : List Nat := replaceLine [] (quotes [[73]]) (quotes [parens S]) (cw.text v)

/-- The text of the automaton of a context-free grammar: in any order, a line for each rule with the sum of its weights, for each terminal that occurs in a rule, and for each initial
nonterminal. -/
def CfgAutomatonText [One W] [AddMonoid W] (debug : List Nat → List Nat) (cw : Codec W) (G : CFG (List Nat) (List Nat) W) (text : List Nat) : Prop :=
  ∃ (G' : CFG (List Nat) (List Nat) W) (ts ls : List (List Nat)), MergedCfg G G' ∧ ts.Nodup ∧ (∀ t, t ∈ ts ↔ ∃ r ∈ G.rules, .value t ∈ r.composition) ∧
    ls.Perm (G'.rules.map (ruleLine cw) ++ ts.map (readLine debug cw) ++ G'.initial.map fun S => startLine cw (startTotal G S) S) ∧
    text = ascii "initial: stack: [@ I], empty:@\n\n".toList ++ ls.flatten ++ [10]

end Rustomata.Spec
