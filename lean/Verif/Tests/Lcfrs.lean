import Verif.Tests.Basic
import Verif.Model.Import

/-!
# The unit tests of the imports and of linear context-free rewriting systems

Sources: the modules `test` of `/repo/src/grammars/lcfrs/from_discodop.rs` (357-585), `from_rparse.rs` (139-240) and `mod.rs` (138-310).
-/

namespace Rustomata.Tests.LcfrsTests
open Nom

set_option synthInstance.maxSize 4096

/-- The result of a parser that is done, whatever follows. -/
def result {A : Type} : PResult Nat A → Option A
  | .done _ a => some a
  | _ => none

/-! ### from_discodop.rs -/

/-- `weight` (from_discodop.rs:361-366). -/
example : ["1", "1000", "23/64"].map (fun s => result (parsePseudocount dec (txt s))) = [some 1, some 1000, some (23 / 64)] := by decide +kernel

/-- `lexer` (from_discodop.rs:369-382). -/
example : result (parseDiscodopLexer str str dec (txt "is\tVB\t1/2\nJohn\tNN\t1\nrich\tJJ\t1/4\nstain\tNN\t2/8\tVP\t3")) =
    some [(txt "is", txt "VB", 1 / 2), (txt "John", txt "NN", 1), (txt "rich", txt "JJ", 1 / 4), (txt "stain", txt "NN", 1 / 4), (txt "stain", txt "VP", 3)] := by
  decide +kernel

/-- `yield_binary` (from_discodop.rs:385-395). -/
example : ["000", "10111010", "", "2"].map (fun s => fromBinary (txt s)) = [some (some 0b0), some (some 0b01011101), some (some 0b0), some none] := by decide +kernel

/-- `yield_repr` (from_discodop.rs:398-422). -/
example : ["000,11111", "0101010,10111010", "0", "1,0,1,0,10100,01,0,1"].map (fun s => result (parseYield (txt s))) =
    [some [(3, 0b000), (5, 0b11111)], some [(7, 0b0101010), (8, 0b01011101)], some [(1, 0b0)],
      some [(1, 0b1), (1, 0), (1, 0b1), (1, 0b0), (5, 0b00101), (2, 0b10), (1, 0b0), (1, 0b1)]] := by decide +kernel

/-- `const_rule` (from_discodop.rs:425-477). -/
example : ["S\tNP\tVP\t01,10\t5", "S\tA\t0\t1", "NP_1\tDET_2\tNP_55\t0001,11110,001010,0010100\t5", "NP|<DET>\tNP\t0110\t64"].map
      (fun s => result (parseDiscodopConstituents str dec (txt s))) =
    [some [(.binary (txt "S") (txt "NP") (txt "VP"), [(2, 0b10), (2, 0b01)], 5)],
      some [(.chain (txt "S") (txt "A"), [(1, 0b0)], 1)],
      some [(.binary (txt "NP_1") (txt "DET_2") (txt "NP_55"), [(4, 0b1000), (5, 0b01111), (6, 0b010100), (7, 0b0010100)], 5)],
      some [(.chain (txt "NP|<DET>") (txt "NP"), [(4, 0b0110)], 64)]] := by decide +kernel

/-- `constituents` (from_discodop.rs:480-514). -/
example : result (parseDiscodopConstituents str dec (txt "S\tNP\tVP\t010\t1\nNP_2\tVP\tNP\t0,1\t2\nNP\tNN\t0\t4")) =
    some [(.binary (txt "S") (txt "NP") (txt "VP"), [(3, 0b010)], 1), (.binary (txt "NP_2") (txt "VP") (txt "NP"), [(1, 0b0), (1, 0b1)], 2),
      (.chain (txt "NP") (txt "NN"), [(1, 0b0)], 4)] := by decide +kernel

/-- `conversion` (from_discodop.rs:517-581). The test does not compare the weights, which are normalised. -/
example : Lcfrs.fromDiscodop str
      (⟨[(.binary (txt "S") (txt "NP") (txt "VP"), [(2, 0b10)], 5), (.chain (txt "NP") (txt "NP"), [(2, 0b00)], 5)],
        some [("a", txt "DET", 5), ("word", txt "NP", 6)]⟩ : DiscoDopGrammar (List Nat) String ℚ≥0) =
    some ⟨[⟨txt "S", [txt "NP", txt "VP"], [[.var 0 0, .var 1 0]], 1⟩, ⟨txt "NP", [txt "NP"], [[.var 0 0, .var 0 1]], 5 / 11⟩,
      ⟨txt "DET", [], [[.t "a"]], 1⟩, ⟨txt "NP", [], [[.t "word"]], 6 / 11⟩], txt "ROOT"⟩ := by decide +kernel

/-! ### from_rparse.rs -/

/-- `rparse_yield` (from_rparse.rs:144-160). -/
example : ["[[[false]]]", "[[[false], [true]]]", "[[[false, true, false], [false], [true, false, false]]]"].map (fun s => result (parseRparseYield (txt s))) =
    [some [[false]], some [[false], [true]], some [[false, true, false], [false], [true, false, false]]] := by decide +kernel

/-- The clauses of `rparse_clauses` and `conversion` (from_rparse.rs:167-190, 200-219). -/
def clauses : RparseClauses (List Nat) ℚ≥0 :=
  [(66 / 100, txt "VROOT1", .binary (txt "S1") (txt "$.1"), [[false, true]]),
    (6047046018020197 / 10 ^ 20, txt "VROOT1", .binary (txt "ADV1") (txt "$(1"), [[false, true]]),
    (6557377049180328 / 10 ^ 18, txt "PP2", .chain (txt "@^PP2^VP3-APPRART1X2"), [[false], [false]])]

/-- `rparse_clauses` (from_rparse.rs:163-196). -/
example : ["10925 0.66:VROOT1 --> S1 $.1 [[[false, true]]]", "1 6.047046018020197E-5:VROOT1 --> ADV1 $(1 [[[false, true]]]",
      "2 0.006557377049180328:PP2 --> @^PP2^VP3-APPRART1X2  [[[false], [false]]]"].map (fun s => result (parseRparseClauses str sci (txt s))) =
    clauses.map fun c => some [c] := by decide +kernel

/-- `conversion` (from_rparse.rs:199-244). -/
example : Lcfrs.fromRparse str clauses =
    some ⟨[⟨txt "VROOT1", [txt "S1", txt "$.1"], [[.var 0 0, .var 1 0]], 66 / 100⟩,
      ⟨txt "VROOT1", [txt "ADV1", txt "$(1"], [[.var 0 0, .var 1 0]], 6047046018020197 / 10 ^ 20⟩,
      ⟨txt "PP2", [txt "@^PP2^VP3-APPRART1X2"], [[.var 0 0], [.var 0 1]], 6557377049180328 / 10 ^ 18⟩], txt "VROOT1"⟩ := by decide +kernel

/-! ### lcfrs/mod.rs -/

/-- `mcfg_rules` (lcfrs/mod.rs:213-239). -/
def mcfgRules : List (PMCFGRule Nat Nat Unit) := [⟨2, [2], [[.t 1], [.t 2]], ()⟩, ⟨1, [2], [[.var 0 1, .t 0]], ()⟩, ⟨1, [], [[.t 0]], ()⟩]

/-- `inconsistent_rules` (lcfrs/mod.rs:241-268). -/
def inconsistentRules : List (PMCFGRule Nat Nat Unit) :=
  [⟨2, [2], [[.t 1], [.t 2]], ()⟩, ⟨1, [2], [[.var 0 0], [.var 0 1]], ()⟩, ⟨1, [], [[.t 0]], ()⟩]

/-- `lcfrs_rules` (lcfrs/mod.rs:270-300). -/
def lcfrsRules : List (PMCFGRule Nat Nat Unit) :=
  [⟨2, [], [[.t 1], [.t 2]], ()⟩, ⟨1, [2], [[.var 0 0, .var 0 1]], ()⟩, ⟨1, [1], [[.var 0 0]], ()⟩, ⟨1, [], [[.t 0]], ()⟩]

/-- `fanouts` (lcfrs/mod.rs:146-153). -/
example : (readFanouts lcfrsRules).map (fun m => ([0, 1, 2].map m.get, m.length)) = some ([none, some 1, some 2], 2) ∧
    (readFanouts inconsistentRules).isNone := by decide +kernel

/-- `lcfrs_checks` (lcfrs/mod.rs:156-160). -/
example : (Lcfrs.new lcfrsRules 1).map Option.isSome = some true ∧ (Lcfrs.new inconsistentRules 1).map Option.isSome = some false ∧
    (Lcfrs.new mcfgRules 1).map Option.isSome = some false := by decide +kernel

/-- `conversion` (lcfrs/mod.rs:163-211): the initial nonterminal and the set of the rules. -/
example : ((Lcfrs.ofMcfg ⟨mcfgRules, 1⟩ 10).map fun g => (g.init, decide (g.rules.Perm
      [⟨(1, []), [], [[.t 0]], ()⟩, ⟨(1, []), [(2, [0])], [[.var 0 0, .t 0]], ()⟩, ⟨(2, [0]), [(2, [0, 1])], [[.t 2]], ()⟩,
        ⟨(2, [0, 1]), [(2, [0, 1])], [], ()⟩]))) = some ((1, []), true) := by decide +kernel

end Rustomata.Tests.LcfrsTests
