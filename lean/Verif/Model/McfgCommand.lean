import Verif.Model.FromPmcfg
import Verif.Model.FromStr
import Verif.Model.Negra
import Verif.Model.AutomatonText

/-!
# Model of the command `mcfg parse --negra`

Source: `/repo/src/bin/pmcfg.rs`. Nonterminals and terminals are strings, that is, lists of bytes, and `Display` of a string is the string. The command line and
the file with the grammar are not modelled. The search is called for at most `m` steps. `none` is a panic, and `some none` says that the command has not
finished after `m` steps for some line.
-/

namespace Rustomata

/-- `String` implements `Display` and `FromStr` as the identity. -/
def stringCodec : Codec (List Nat) := ⟨fun s => s, fun s => some s⟩

section
variable {W H : Type _} [One W] [Mul W]

/-- The loop over the parses of a sentence (pmcfg.rs:82-106): the first `n` parses are printed, each by `println!`. The loop is finished if `n` parses were found or
if the search has ended. -/
def mcfgSentence (a : TSA (TsaSymbol (List Nat) (List Nat)) (List Nat) W) (G : Agenda H (Item (TreeStack Nat) (TsInstr Nat) Nat W)) (empty : H) (n m id : Nat)
    (word : List (List Nat)) : Option (Option (List Nat)) :=
  match a.recognise G empty word m with
  | none => none
  | some (out, b) =>
    match (out.take n).mapM fun i => (toAbstractSyntaxTree i.conf.storage.toTree.1).bind fun ast =>
        (toNegra (fun s => s) (fun s => s) ast id none).map fun s => s ++ [10] with
    | none => none
    | some texts => if n ≤ out.length ∨ (G.pop b).isNone then some (some texts.flatten) else some none

/-- The loop over the lines (pmcfg.rs:80-109); an empty line is printed after each sentence. -/
def mcfgLines (a : TSA (TsaSymbol (List Nat) (List Nat)) (List Nat) W) (G : Agenda H (Item (TreeStack Nat) (TsInstr Nat) Nat W)) (empty : H) (n m : Nat) :
    List (List Nat × Nat) → Option (Option (List Nat))
  | [] => some (some [])
  | (line, i) :: ls =>
    match mcfgSentence a G empty n m (i + 1) (splitWhite line) with
    | none => none
    | some none => some none
    | some (some text) => (mcfgLines a G empty n m ls).map (Option.map fun rest => text ++ [10] ++ rest)

/-- `mcfg parse --negra` (pmcfg.rs:64-110): from the text of the grammar and the text of the standard input to the text of the standard output. -/
def mcfgCommand (cw : Codec W) (G : Agenda H (Item (TreeStack Nat) (TsInstr Nat) Nat W)) (empty : H) (n m : Nat) (grammar corpus : List Nat) :
    Option (Option (List Nat)) :=
  match PMCFG.fromStr stringCodec stringCodec cw grammar with
  | some (some g) => (TSA.ofPmcfg g).bind fun a => mcfgLines a G empty n m (lines corpus).zipIdx
  | _ => none

end

end Rustomata
