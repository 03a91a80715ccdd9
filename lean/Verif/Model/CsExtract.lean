import Verif.Model.CsCommand
import Verif.Model.Import
import Verif.Model.FromStr

/-!
# Model of the command `csparsing extract`

Source: `/repo/src/bin/csparsing.rs`. Nonterminals and terminals are strings. The command line, gzip and bincode are not modelled: the result is the value that
is written. A panic is `none`; each `Err` becomes a panic by `expect`.
-/

namespace Rustomata

/-- The files that are given to the command (csparsing.rs:163-200): a grammar as text, rules of disco-dop, or rules and a lexicon of disco-dop. -/
inductive ExtractInput
  | plain (grammar : List Nat)
  | disco (rules : List Nat)
  | lexer (rules lexicon : List Nat)

/-- `Result::expect`. -/
def expectOk {A : Type _} (x : Option (Option A)) : Option A := x.bind id

section
variable {W : Type _} [Zero W] [One W] [Mul W] [Add W] [Div W] [LinearOrder W]

/-- The grammar `gmr` (csparsing.rs:181-204). Texts of grammars are lists of bytes, files of disco-dop lists of characters; `cs` and `cd` read strings from them.
`lexOrder` is the order of the iteration over the hash map in `with_default_lexer`. -/
def extractGrammar (cs cd : Codec (List Nat)) (cw : Codec W) (lexOrder : DiscoLexer (List Nat) (List Nat) W → DiscoLexer (List Nat) (List Nat) W) :
    ExtractInput → Option (Lcfrs (List Nat) (List Nat) W)
  | .plain s => expectOk (Lcfrs.fromStr cs cs cw s)
  | .disco s => (expectOk (DiscoDopGrammar.fromStr cd cw s)).bind fun g =>
    Lcfrs.fromDiscodop cd { g.withDefaultLexer with lexer := g.withDefaultLexer.lexer.map lexOrder }
  | .lexer s t => (expectOk (DiscoDopGrammar.fromStr cd cw s)).bind fun g => (expectOk (DiscoLexer.fromStr cd cd cw t)).bind fun l =>
    Lcfrs.fromDiscodop cd (g.withLexer l)

/-- The command `extract` (csparsing.rs:160-213); `sxlen` is the argument `--sxlen`, or 0. -/
def extract (factorize : W → Nat → List W) (order : Nat → List Nat → List Nat) (cs cd : Codec (List Nat)) (cw : Codec W)
    (lexOrder : DiscoLexer (List Nat) (List Nat) W → DiscoLexer (List Nat) (List Nat) W) (input : ExtractInput) (sxlen : Nat) : Option (CsRep (List Nat) (List Nat) W) :=
  (extractGrammar cs cd cw lexOrder input).bind fun g => CsRep.new factorize order g sxlen

/-- `extract`, followed by `parse` with the written file. -/
def extractParse (factorize : W → Nat → List W) (order : Nat → List Nat → List Nat) (cs cd : Codec (List Nat)) (cw : Codec W)
    (lexOrder : DiscoLexer (List Nat) (List Nat) W → DiscoLexer (List Nat) (List Nat) W) (input : ExtractInput) (sxlen : Nat) (o : CsOptions W) (a : ParseArgs)
    (fuel m : Nat) (text : List Nat) : Option (List Nat) :=
  (extract factorize order cs cd cw lexOrder input sxlen).bind fun R => R.parseCommand o a (fun A => A) fuel m text

end

end Rustomata
