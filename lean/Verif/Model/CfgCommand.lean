import Verif.Model.Cfg
import Verif.Model.FromStr
import Verif.Model.McfgCommand

/-!
# Model of the command `cfg parse`

Source: `/repo/src/bin/cfg.rs`. Nonterminals and terminals are strings, that is, lists of bytes. The command line and the file with the grammar are not modelled.
`Debug` of configurations is a parameter. The search is called for at most `m` steps; `none` is a panic, and `some none` says that the command has not finished
after `m` steps for some line.
-/

namespace Rustomata
variable {W H : Type _}

/-- The loop over the parses of a sentence (cfg.rs:75-89): the configurations of the first `n` parses are printed, each by `println!("{:?}", …)`. The loop is finished
if `n` parses were found or if the search has ended. With a beam (cfg.rs:76-83), only the agenda is another one. -/
def cfgSentence [One W] [Mul W] (a : PDA (PushState (List Nat) (List Nat)) (List Nat) W) (dbg : Configuration (PushDown (PushState (List Nat) (List Nat))) (List Nat) W → List Nat)
    (G : Agenda H (Item (PushDown Nat) (PdInstr Nat) Nat W)) (empty : H) (n m : Nat) (word : List (List Nat)) : Option (Option (List Nat)) :=
  match a.recognise G empty word m with
  | none => none
  | some (out, b) =>
    if n ≤ out.length ∨ (G.pop b).isNone then some (some ((out.take n).map fun i => dbg i.conf ++ [10]).flatten) else some none

/-- The loop over the lines (cfg.rs:73-91); an empty line is printed after each sentence. -/
def cfgLines [One W] [Mul W] (a : PDA (PushState (List Nat) (List Nat)) (List Nat) W) (dbg : Configuration (PushDown (PushState (List Nat) (List Nat))) (List Nat) W → List Nat)
    (G : Agenda H (Item (PushDown Nat) (PdInstr Nat) Nat W)) (empty : H) (n m : Nat) : List (List Nat) → Option (Option (List Nat))
  | [] => some (some [])
  | line :: ls =>
    match cfgSentence a dbg G empty n m (splitWhite line) with
    | none => none
    | some none => some none
    | some (some text) => (cfgLines a dbg G empty n m ls).map (Option.map fun rest => text ++ [10] ++ rest)

/-- `cfg parse` (cfg.rs:56-92): from the text of the grammar and the text of the standard input to the text of the standard output. -/
def cfgCommand [One W] [Mul W] [Zero W] [Add W] (cw : Codec W)
    (dbg : Configuration (PushDown (PushState (List Nat) (List Nat))) (List Nat) W → List Nat)
    (G : Agenda H (Item (PushDown Nat) (PdInstr Nat) Nat W)) (empty : H) (n m : Nat) (grammar corpus : List Nat) : Option (Option (List Nat)) :=
  match CFG.fromStr stringCodec stringCodec cw grammar with
  | some (some g) => g.toPda.bind fun a => cfgLines a dbg G empty n m (lines corpus)
  | _ => none

end Rustomata
