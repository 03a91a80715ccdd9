import Verif.Model.McfgCommand

/-!
# Model of the text of tree stacks and configurations, and of the command `mcfg parse` without `--negra`

Source: `/repo/src/automata/tree_stack_automaton/tree_stack.rs`, `/repo/src/automata/tree_stack_automaton/from_pmcfg.rs`, `/repo/src/recognisable/configuration.rs`,
`/repo/src/bin/pmcfg.rs`. The simplifications of `Model/McfgCommand` apply. Stack symbols of the model are rules without weights, but the text of a rule contains its weight;
rules that only differ in their weights are the same stack symbol, and the code prints the one that it met first. Here, the text of the rule is a parameter of the loop
over the parses, and in the command it is the text of the first rule in the grammar.
-/

namespace Rustomata

/-- `PosState::fmt` (from_pmcfg.rs:40-48). -/
def PosState.text {X : Type _} (x : X → List Nat) : PosState X → List Nat
  | .designated => [64]
  | .initial => [73]
  | .position r i j => [40] ++ x r ++ [44, 32] ++ natText i ++ [44, 32] ++ natText j ++ [41]

/-- The body of the loop of `TreeStack::fmt` (tree_stack.rs:150-168): two lines for a node. -/
def TreeStack.nodeText {A : Type _} (a : A → List Nat) (pointer : List Nat) (x : List Nat × A) : List Nat :=
  let line₁ := [32]
  let line₂ := if x.1 = pointer then [42] else [32]
  match x.1.getLast? with
  | some n =>
    let bars := (List.replicate (x.1.length - 1) [124, 32]).flatten
    line₁ ++ bars ++ [124] ++ [10] ++ (line₂ ++ bars ++ ([43, 45] ++ natText n ++ [58, 32] ++ a x.2)) ++ [10]
  | none => line₁ ++ [10] ++ (line₂ ++ a x.2) ++ [10]

/-- `TreeStack::fmt` (tree_stack.rs:146-172). -/
def TreeStack.text {A : Type _} (a : A → List Nat) (t : TreeStack A) : List Nat :=
  t.toTree.1.flatMap (TreeStack.nodeText a t.toTree.2)

/-- The loop over the word in `Configuration::fmt` (configuration.rs:71-79). -/
def spaceSep {T : Type _} (t : T → List Nat) : List T → List Nat
  | [] => []
  | [x] => t x
  | x :: y :: l => t x ++ [32] ++ spaceSep t (y :: l)

/-- `Configuration::fmt` (configuration.rs:69-86). -/
def Configuration.text {S T W : Type _} (s : S → List Nat) (t : T → List Nat) (w : W → List Nat) (c : Configuration S T W) : List Nat :=
  ascii ['C', 'o', 'n', 'f', 'i', 'g', 'u', 'r', 'a', 't', 'i', 'o', 'n', ':', '\n', 'w', 'o', 'r', 'd', ':', '['] ++ spaceSep t c.word ++
    ascii [']', '\n', 'w', 'e', 'i', 'g', 'h', 't', ':'] ++ w c.weight ++ [10] ++ s c.storage ++ [10]

section
variable {W H : Type _} [One W] [Mul W]

/-- The loop over the parses of a sentence without `--negra` (pmcfg.rs:82-106): the first `n` configurations are printed, each by `println!`. The abstract syntax tree is
computed, too (lines 88 and 98). -/
def mcfgPlainSentence (rule : PMCFGRule (List Nat) (List Nat) Unit → List Nat) (cw : Codec W) (a : TSA (TsaSymbol (List Nat) (List Nat)) (List Nat) W)
    (G : Agenda H (Item (TreeStack Nat) (TsInstr Nat) Nat W)) (empty : H) (n m : Nat) (word : List (List Nat)) : Option (Option (List Nat)) :=
  match a.recognise G empty word m with
  | none => none
  | some (out, b) =>
    match (out.take n).mapM fun i => (toAbstractSyntaxTree i.conf.storage.toTree.1).map fun _ =>
        Configuration.text (TreeStack.text (PosState.text rule)) (fun s => s) cw.text i.conf ++ [10] with
    | none => none
    | some texts => if n ≤ out.length ∨ (G.pop b).isNone then some (some texts.flatten) else some none

/-- The loop over the lines (pmcfg.rs:80-109); an empty line is printed after each sentence. -/
def mcfgPlainLines (rule : PMCFGRule (List Nat) (List Nat) Unit → List Nat) (cw : Codec W) (a : TSA (TsaSymbol (List Nat) (List Nat)) (List Nat) W)
    (G : Agenda H (Item (TreeStack Nat) (TsInstr Nat) Nat W)) (empty : H) (n m : Nat) : List (List Nat) → Option (Option (List Nat))
  | [] => some (some [])
  | line :: ls =>
    match mcfgPlainSentence rule cw a G empty n m (splitWhite line) with
    | none => none
    | some none => some none
    | some (some text) => (mcfgPlainLines rule cw a G empty n m ls).map (Option.map fun rest => text ++ [10] ++ rest)

/-- The text of the first rule of the grammar that is equal up to the weight, `PMCFGRule::fmt` (pmcfg/mod.rs:251-273). -/
def shownRule (cw : Codec W) (g : PMCFG (List Nat) (List Nat) W) (k : PMCFGRule (List Nat) (List Nat) Unit) : List Nat :=
  match g.rules.find? fun r => r.key = k with
  | some r => PMCFGRule.text stringCodec stringCodec cw r
  | none => []

/-- `mcfg parse` without `--negra` (pmcfg.rs:64-110): from the text of the grammar and the text of the standard input to the text of the standard output. -/
def mcfgPlainCommand (cw : Codec W) (G : Agenda H (Item (TreeStack Nat) (TsInstr Nat) Nat W)) (empty : H) (n m : Nat) (grammar corpus : List Nat) :
    Option (Option (List Nat)) :=
  match PMCFG.fromStr stringCodec stringCodec cw grammar with
  | some (some g) => (TSA.ofPmcfg g).bind fun a => mcfgPlainLines (shownRule cw g) cw a G empty n m (lines corpus)
  | _ => none

end

end Rustomata
