import Verif.Model.Approximation
import Verif.Model.ClassText
import Verif.Model.CfgCommand
import Verif.Model.FromPmcfg

/-!
# Model of the commands `approximation relabel parse` and `approximation tts parse`

Source: `/repo/src/bin/approximation.rs`. Nonterminals, terminals and names of classes are strings, that is, lists of bytes. The command line and the files are not modelled:
the commands get the texts. `Debug` of the first parse is a parameter. The search is called for at most `m` steps; `none` is a panic, and `some none` says that the
command has not finished after `m` steps for some line.
-/

namespace Rustomata
variable {A W H : Type _} [DecidableEq A]

/-- The body of the loop over the lines (approximation.rs:137-142, 187-192): the first parse, or `None`, and the line. -/
def firstParse [One W] [Mul W] (b : PDA A (List Nat) W) (dbg : Option (Item (PushDown A) (PdInstr A) (List Nat) W) → List Nat)
    (G : Agenda H (Item (PushDown Nat) (PdInstr Nat) Nat W)) (empty : H) (m : Nat) (line : List Nat) : Option (Option (List Nat)) :=
  match b.recognise G empty (splitWhite line) m with
  | none => none
  | some (out, a) => if 1 ≤ out.length ∨ (G.pop a).isNone then some (some (dbg out.head? ++ [58, 32] ++ line ++ [10])) else some none

/-- The loop over the lines (approximation.rs:136-143, 186-193). -/
def firstParses [One W] [Mul W] (b : PDA A (List Nat) W) (dbg : Option (Item (PushDown A) (PdInstr A) (List Nat) W) → List Nat)
    (G : Agenda H (Item (PushDown Nat) (PdInstr Nat) Nat W)) (empty : H) (m : Nat) : List (List Nat) → Option (Option (List Nat))
  | [] => some (some [])
  | line :: ls =>
    match firstParse b dbg G empty m line with
    | none => none
    | some none => some none
    | some (some text) => (firstParses b dbg G empty m ls).map (Option.map fun rest => text ++ rest)

/-- `approximation relabel parse` (approximation.rs:113-144): from the texts of the grammar, of the classes and of the standard input to the text of the standard output.
The reverse transition map is not used. -/
def relabelCommand [DecidableEq W] [One W] [Mul W] [Zero W] [Add W] (cw : Codec W)
    (dbg : Option (Item (PushDown (PushState (List Nat) (List Nat))) (PdInstr (PushState (List Nat) (List Nat))) (List Nat) W) → List Nat)
    (G : Agenda H (Item (PushDown Nat) (PdInstr Nat) Nat W)) (empty : H) (m : Nat) (grammar classes corpus : List Nat) : Option (Option (List Nat)) :=
  match CFG.fromStr stringCodec stringCodec cw grammar with
  | some (some g) => g.toPda.bind fun a =>
    match EquivalenceRelation.fromStr stringCodec stringCodec classes with
    | some (some e) => a.listTransitions.bind fun ts => a.initialStore.bind fun s =>
      (approximateAutomaton (relabel (PushState.map e.project)) ts s).bind fun r => firstParses r.1 dbg G empty m (lines corpus)
    | _ => none
  | _ => none

/-- `approximation tts parse` (approximation.rs:170-194): from the text of the grammar and the text of the standard input to the text of the standard output. The reverse
transition map is not used. -/
def ttsCommand [One W] [Mul W] [Zero W] [Add W] [DecidableEq W] (cw : Codec W)
    (dbg : Option (Item (PushDown (TsaSymbol (List Nat) (List Nat))) (PdInstr (TsaSymbol (List Nat) (List Nat))) (List Nat) W) → List Nat)
    (G : Agenda H (Item (PushDown Nat) (PdInstr Nat) Nat W)) (empty : H) (m : Nat) (grammar corpus : List Nat) : Option (Option (List Nat)) :=
  match PMCFG.fromStr stringCodec stringCodec cw grammar with
  | some (some g) => (TSA.ofPmcfg g).bind fun a => a.listTransitions.bind fun ts => a.initialStack.bind fun s =>
      (approximateAutomaton tts ts s).bind fun r => firstParses r.1 dbg G empty m (lines corpus)
  | _ => none

end Rustomata
