import Verif.Spec.Negra
import Verif.Spec.AutomatonText
import Verif.Spec.CsParse
import Verif.Spec.CsFallback
import Verif.Model.CsCommand

/-!
# Specification of the command `csparsing parse`
-/

namespace Rustomata.Spec
variable {N W : Type _}

/-- A line consists of words; with line numbers, it begins with a number. Without line numbers, lines are numbered from 0 on. -/
def LineOf (withLines : Bool) (i : Nat) (line : List Nat) (id : Nat) (ws : List (List Nat)) : Prop :=
  if withLines then ∃ s, NumberText id s ∧ WordsText (s :: ws) line else id = i ∧ WordsText ws line

/-- With part-of-speech tags, each word is `name/tag` where the tag is the text after the last slash. The sentence consists of the tags, and the names are printed;
otherwise both are the words. -/
def TagsOf (withPos : Bool) (ws sentence names : List (List Nat)) : Prop :=
  if withPos then ∃ l : List (List Nat × List Nat), names = l.map Prod.fst ∧ sentence = l.map Prod.snd ∧
    List.Forall₂ (fun s x => s = x.1 ++ 47 :: x.2 ∧ 47 ∉ x.2) ws l
  else sentence = ws ∧ names = ws

/-- The text of a line of the export format: word or node, label, two empty columns, number of the parent. -/
def columns (first label : List Nat) (parent : Nat) : List Nat :=
  first ++ ascii ['\t'] ++ label ++ ascii ['\t', '-', '-', '\t', '-', '-', '\t'] ++ natText parent ++ ascii ['\n']

/-- A sentence of the export format. -/
def sentenceText (id : Nat) (ls : List (List Nat)) : List Nat :=
  ascii ['#', 'B', 'O', 'S', ' '] ++ natText id ++ ascii ['\n'] ++ ls.flatten ++ ascii ['#', 'E', 'O', 'S', ' '] ++ natText id ++ ascii ['\n']

/-- The text is the export of a tree of rules for the sentence: first the words by their names, then the inner nodes without the root that dominate a word, each
once, with the nonterminals as labels and the numbers of the parents. -/
def ExportOf (showN : N → List Nat) (m : List Nat → Option (PMCFGRule N (List Nat) W)) (sentence names : List (List Nat)) (id : Nat) (text : List Nat) : Prop :=
  ∃ (v : List (List Nat × List Nat)) (nodes : List (List Nat)) (ls ns : List (List Nat)),
    Yield m [v] ∧ v.map Prod.fst = sentence ∧ nodes.Nodup ∧ (∀ a, a ∈ nodes ↔ a ≠ [] ∧ ∃ t b, (t, b) ∈ v ∧ Dominates a b) ∧ names.length = v.length ∧
    List.Forall₂ (fun p l => ∃ r, m p.1.2 = some r ∧ l = columns p.2 (showN r.head) (nodeNumber nodes p.1.2.dropLast)) (v.zip names) ls ∧
    List.Forall₂ (fun a l => ∃ r, m a = some r ∧ l = columns (ascii ['#'] ++ natText (nodeNumber nodes a)) (showN r.head) (nodeNumber nodes a.dropLast)) nodes ns ∧
    text = sentenceText id (ls ++ ns)

/-- The text for a sentence without a tree: a node `NOPARSE` with the names and the tags, if there are tags. -/
def noparseText (withPos : Bool) (sentence names : List (List Nat)) (id : Nat) : List Nat :=
  sentenceText id (((names.zip sentence).map fun x => columns x.1 (if withPos then x.2 else ascii ['-', '-']) 500) ++
    [columns (ascii ['#', '5', '0', '0']) (ascii ['N', 'O', 'P', 'A', 'R', 'S', 'E']) 0])

/-- The text that is printed for a sentence if `trees` are the results of the parser and `fb` is the fallback: the first `k` trees (one tree in the debug mode); if
there are none, the fallback if it exists and is demanded (as it is in the debug mode), or a `NOPARSE`. -/
def AnswerText (showN : N → List Nat) (a : ParseArgs) (trees : List (GornTree (PMCFGRule N (List Nat) W))) (fb : Option (GornTree (PMCFGRule N (List Nat) W)))
    (sentence names : List (List Nat)) (id : Nat) (text : List Nat) : Prop :=
  let shown := trees.take (if a.debug then 1 else a.k)
  (shown ≠ [] ∧ ∃ bs, List.Forall₂ (fun t b => ExportOf showN t.get sentence names id b) shown bs ∧ text = bs.flatten) ∨
  (shown = [] ∧ (a.fallback ∨ a.debug) ∧ ∃ t, fb = some t ∧ ExportOf showN t.get sentence names id text) ∨
  (shown = [] ∧ (¬ (a.fallback ∨ a.debug) ∨ fb = none) ∧ text = noparseText a.withPos sentence names id)

end Rustomata.Spec
