import Verif.Model.ParseText
import Verif.Model.ApproximationCommand

/-!
# Model of the text of push-down automata, and of the commands that print automata

Source: `/repo/src/automata/push_down_automaton/mod.rs`, `/repo/src/automata/push_down_automaton/from_cfg.rs`, `/repo/src/bin/cfg.rs`, `/repo/src/bin/pmcfg.rs`,
`/repo/src/bin/approximation.rs`. Strings are lists of bytes. The command line and the files are not modelled: the commands get the texts. `Debug` of terminals is a parameter.
The simplifications of `Model/ParseText` apply to the texts of the rules. `none` is a panic.
-/

namespace Rustomata
variable {A T W X Y : Type _}

/-- `PushState::fmt` (from_cfg.rs:41-50): nonterminals and terminals are printed in the same way. -/
def PushState.text (x : X → List Nat) (y : Y → List Nat) : PushState X Y → List Nat
  | .designated => [64]
  | .initial => [73]
  | .nt a => [40] ++ x a ++ [41]
  | .t a => [40] ++ y a ++ [41]

/-- `PushDown::fmt` (push_down_automaton/mod.rs:409-425); `self.empty()` panics if there is no element. -/
def PushDown.text (a : A → List Nat) (p : PushDown A) : Option (List Nat) :=
  p.empty.map fun e => ascii ['s', 't', 'a', 'c', 'k', ':', ' ', '['] ++ spaceSep a p ++ ascii [']', ',', ' ', 'e', 'm', 'p', 't', 'y', ':'] ++ a e

/-- `PushDownInstruction::fmt` (push_down_automaton/mod.rs:427-460). -/
def PdInstr.text (a : A → List Nat) (i : PdInstr A) : List Nat :=
  let buffer₁ := commaSep (fun x => [34] ++ a x ++ [34]) i.current
  let buffer₂ := commaSep (fun x => [34] ++ a x ++ [34]) i.new
  ascii ['(', 'R', 'e', 'p', 'l', 'a', 'c', 'e', ' '] ++ buffer₁ ++ ascii [' ', '/', '/', ' '] ++ buffer₂ ++ [41]

/-- `PushDownAutomaton::fmt` (push_down_automaton/mod.rs:462-481). -/
def PDA.text [DecidableEq A] [DecidableEq T] (a : A → List Nat) (debug : T → List Nat) (cw : Codec W) (P : PDA A T W) : Option (List Nat) :=
  P.listTransitions.bind fun ts => P.initialStore.bind fun s => (PushDown.text a s).map fun i =>
    ascii ['i', 'n', 'i', 't', 'i', 'a', 'l', ':', ' '] ++ i ++ ascii ['\n', '\n'] ++ ts.flatMap fun t => Transition.text debug (PdInstr.text a) cw t ++ [10]

/-- `cfg automaton` (cfg.rs:93-102). -/
def cfgAutomatonCommand [One W] [Zero W] [Add W] (debug : List Nat → List Nat) (cw : Codec W) (grammar : List Nat) : Option (List Nat) :=
  match CFG.fromStr stringCodec stringCodec cw grammar with
  | some (some g) => g.toPda.bind fun a => (a.text (PushState.text (fun s => s) fun s => s) debug cw).map (· ++ [10])
  | _ => none

/-- `mcfg automaton` (pmcfg.rs:112-120). -/
def mcfgAutomatonCommand [One W] (debug : List Nat → List Nat) (cw : Codec W) (grammar : List Nat) : Option (List Nat) :=
  match PMCFG.fromStr stringCodec stringCodec cw grammar with
  | some (some g) => (TSA.ofPmcfg g).bind fun a => (a.text ⟨PosState.text (shownRule cw g), fun _ => none⟩ debug cw).map (· ++ [10])
  | _ => none

/-- `approximation relabel automaton` (approximation.rs:145-166). -/
def relabelAutomatonCommand [DecidableEq W] [One W] [Zero W] [Add W] (debug : List Nat → List Nat) (cw : Codec W) (grammar classes : List Nat) : Option (List Nat) :=
  match CFG.fromStr stringCodec stringCodec cw grammar with
  | some (some g) => g.toPda.bind fun a =>
    match EquivalenceRelation.fromStr stringCodec stringCodec classes with
    | some (some e) => a.listTransitions.bind fun ts => a.initialStore.bind fun s =>
      (approximateAutomaton (relabel (PushState.map e.project)) ts s).bind fun r => (r.1.text (PushState.text (fun s => s) fun s => s) debug cw).map (· ++ [10])
    | _ => none
  | _ => none

/-- `approximation tts automaton` (approximation.rs:195-207). -/
def ttsAutomatonCommand [One W] [Zero W] [Add W] [DecidableEq W] (debug : List Nat → List Nat) (cw : Codec W) (grammar : List Nat) : Option (List Nat) :=
  match PMCFG.fromStr stringCodec stringCodec cw grammar with
  | some (some g) => (TSA.ofPmcfg g).bind fun a => a.listTransitions.bind fun ts => a.initialStack.bind fun s =>
      (approximateAutomaton tts ts s).bind fun r => (r.1.text (PosState.text (shownRule cw g)) debug cw).map (· ++ [10])
  | _ => none

end Rustomata
