import Verif.Model.Dyck
import Verif.Model.CsAutomaton
import Verif.Model.FromStr

/-!
# Model of the printing of brackets

Sources: `/repo/src/dyck/mod.rs`, `/repo/src/grammars/lcfrs/csparsing/mod.rs`. Texts are lists of bytes (UTF-8).
-/

namespace Rustomata

/-- `Display for Bracket` (dyck/mod.rs:36-46); `⟨` is `E2 9F A8`, `⟩` is `E2 9F A9`. -/
def Bracket.text {A : Type _} (text : A → List Nat) : Bracket A → List Nat
  | .open_ a => [0xE2, 0x9F, 0xA8] ++ text a
  | .close a => [0xE2, 0x9F, 0xA9] ++ text a

/-- `Display for BracketContent` (csparsing/mod.rs:44-53). -/
def BracketContent.text : BracketContent → List Nat
  | .component r c => ascii ['_'] ++ natText r ++ ascii ['^'] ++ natText c
  | .variable r i j => ascii ['_', '{'] ++ natText r ++ ascii [','] ++ natText i ++ ascii ['}', '^'] ++ natText j
  | .terminal => ascii ['_', '{', 'T', 'E', 'R', 'M', '}']
  | .ignore => []

end Rustomata
