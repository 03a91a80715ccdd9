import Verif.Tests.Basic
import Verif.Model.AutomatonText
import Verif.Model.ClassText

/-!
# The unit tests of the parsers

Sources: the modules `tests` of `/repo/src/util/parsing.rs` (115-334), `/repo/src/grammars/cfg/from_str.rs` (110-373), `/repo/src/recognisable/from_str.rs` (76-140),
`/repo/src/automata/tree_stack_automaton/from_str.rs`, `/repo/src/automata/finite_state_automaton/from_str.rs`, `/repo/src/approximation/equivalence_classes.rs`
(214-420) and `test_from_str_automaton`, `test_from_str_pmcfg`, `test_from_str_cfg` of `/repo/src/tests/mod.rs`, and the grammars and the automaton of `/repo/tests`.
-/

namespace Rustomata.Tests.TextTests
open Nom

set_option synthInstance.maxSize 4096

/-- Bytes (`u8`). -/
def byte : Codec Nat := ⟨natText, fun s => (num.read s).bind fun n => if n < 256 then some n else none⟩

/-- The outcome of a parser: the rest and the result. -/
def done {A : Type} : PResult Nat A → Option (List Nat × A)
  | .done r a => some (r, a)
  | _ => none

/-- Whether the input is incomplete. -/
def isIncomplete {A : Type} : PResult Nat A → Bool
  | .incomplete => true
  | _ => false

/-- Whether the result is an error. -/
def isError {A : Type} : PResult Nat A → Bool
  | .error => true
  | _ => false

/-! ### util/parsing.rs -/

/-- `test_parse_comment_legal_input`. -/
example : ["% some comment", "%% another comment"].map (fun s => done (parseComment (txt s))) = [some ([], ()), some ([], ())] := by decide +kernel

/-- `test_parse_comment_illegal_input`. -/
example : [" % not a comment", "something else % not a comment"].all (fun s => isError (parseComment (txt s))) = true := by decide +kernel

/-- `test_parse_token_legal_input`. -/
example : ["abcxyz", "abc,xyz", "\"abc\"xyz", "\"a\\\\b\\\"c\"xyz", "\"\"\""].map (fun s => done (parseToken str (txt s))) =
    [("", "abcxyz"), (",xyz", "abc"), ("xyz", "abc"), ("xyz", "a\\\\b\\\"c"), ("\"", "")].map (fun (r, s) => some (txt r, txt s)) := by decide +kernel

/-- `test_parse_token_illegal_input`. -/
example : [" xyz", "-xyz", "→xyz", ",xyz", ";xyz", ")xyz", "]xyz", "\"\\\"", " \"a\""].all (fun s => (isError (parseToken str (txt s)) || isIncomplete (parseToken str (txt s)))) = true := by
  decide +kernel
example : ["a", "\"a\""].all (fun s => (isError (parseToken byte (txt s)) || isIncomplete (parseToken byte (txt s)))) = true := by decide +kernel

/-- `test_parse_token_incomplete_input`. -/
example : isIncomplete (parseToken str (txt "\"a")) = true := by decide +kernel

/-- `test_parse_vec_legal_input`. -/
example : ["[]xyz", "[a, bc, d]xyz", "[  a, b ,c]xyz"].map (fun s => done (parseVec (parseToken str) [91] [93] [44] (txt s))) =
    [[], ["a", "bc", "d"], ["a", "b", "c"]].map (fun l => some (txt "xyz", l.map txt)) := by decide +kernel

/-- `test_parse_vec_illegal_input`. -/
example : ["(0)", "[0]", "[0, 1; 2)", " []", "[a)"].all (fun s => isError (parseVec (parseToken byte) [91] [41] [44] (txt s))) = true := by decide +kernel

/-- `test_parse_vec_incomplete_input`. -/
example : ["[a", "["].all (fun s => isIncomplete (parseVec (parseToken str) [91] [93] [44] (txt s))) = true := by decide +kernel

/-- `test_parse_initial_legal_input`. -/
example : ["initial: xyz % some comment", "initial: \"% xy\"", "initial:  xyz something else"].map (fun s => done (parseInitial str (txt s))) =
    ["xyz", "% xy", "xyz"].map (fun s => some ([], txt s)) := by decide +kernel

/-- `test_parse_initials_legal_input`. -/
example : ["initial: [a]xyz", "initial:  []xyz"].map (fun s => done (parseInitials str (txt s))) = [some (txt "xyz", [txt "a"]), some (txt "xyz", [])] := by decide +kernel

/-- `test_parse_initials_illegal_input`. -/
example : ["initials: []xyz", " initial: []xyz"].all (fun s => isError (parseInitials str (txt s))) = true := by decide +kernel

/-- `test_parse_initials_incomplete_input`. -/
example : ["init", "initial: ["].all (fun s => isIncomplete (parseInitials str (txt s))) = true := by decide +kernel

/-! ### cfg/from_str.rs -/

/-- `test_cfg_from_str_leading_comment`, `…_end_of_line_comment`, `…_trailing_comment`. -/
example : ["% leading comment\ninitial: [S]\n\nS → [T a]", "initial: [S] % end-of-line comment 1\n\nS → [T a] % end-of-line comment 2",
      "initial: [S]\n\nS → [T a]\n% trailing comment"].map (fun s => CFG.fromStr chr chr num (txt s)) =
    List.replicate 3 (some (some ⟨[83], [⟨83, [.value 97], 1⟩]⟩)) := by decide +kernel

/-- `test_parse_letter_t_legal_input`. -/
example : ["Nt S xyz", "Nt  S", "T a xyz"].map (fun s => done (parseLetterT chr chr (txt s))) =
    [some (txt " xyz", .label 83), some ([], .label 83), some (txt " xyz", .value 97)] := by decide +kernel

/-- `test_parse_letter_t_illegal_input`. -/
example : [" Nt 1", "nt 1", "t 1", "Nt:1", "Nt a", "T a"].all (fun s => isError (parseLetterT byte byte (txt s))) = true := by decide +kernel

/-- `test_parse_letter_t_incomplete_input`. -/
example : ["Nt", "T"].all (fun s => isIncomplete (parseLetterT chr chr (txt s))) = true := by decide +kernel

/-- `test_parse_cfg_rule_legal_input`. -/
example : ["S → [T a] # 1 % comment", "S  →    [T a]#1 %comment", "S → [T a] # 1.0", "S → [T a]", "S → [T a] % comment", "S -> [T a] # 1", "S => [T a] # 1"].map
      (fun s => done (parseCfgRule chr chr dec (txt s))) = List.replicate 7 (some ([], ⟨83, [.value 97], 1⟩)) := by decide +kernel

/-- `test_parse_cfg_rule_illegal_input`. -/
example : [" S → [T a] # 1 % comment", "S [T a] # 1 % comment", "S → [T a] # 1 comment", "S ~> [T a] # 1", "AB → [T a] # 1 % comment", "S → [T a] # a % comment",
    "S → [T a] #"].all (fun s => isError (parseCfgRule chr chr dec (txt s))) = true := by decide +kernel

/-- `test_parse_cfg_rule_incomplete_input`. -/
example : ["S →", "S"].all (fun s => isIncomplete (parseCfgRule chr chr dec (txt s))) = true := by decide +kernel

/-- `test_cfg_rule_from_str_legal_input`. -/
example : CFGRule.fromStr chr chr dec (txt "S → [T a]") = some (some ⟨83, [.value 97], 1⟩) := by decide +kernel

/-- `test_cfg_rule_from_str_illegal_input`. -/
example : ["S → [T 1", "S → [T a]"].map (fun s => CFGRule.fromStr byte byte dec (txt s)) = [some none, some none] := by decide +kernel

/-- `test_cfg_from_str_legal_input`; the test expects other weights, which are not compared (cfg/mod.rs, `PartialEq`). -/
example : CFG.fromStr str str dec (txt ("initial: [S]\n\nS → [Nt A           ] # 1\nA → [T a, Nt A, Nt B] # 0.6\nA → [T a            ] # 0.4\ninitial: [A]\n" ++
      "B → [T b, Nt B, Nt A] # 0.3\nB → [T b            ] # 0.7")) =
    some (some ⟨[txt "S", txt "A"], [⟨txt "S", [.label (txt "A")], 1⟩, ⟨txt "A", [.value (txt "a"), .label (txt "A"), .label (txt "B")], 3 / 5⟩,
      ⟨txt "A", [.value (txt "a")], 2 / 5⟩, ⟨txt "B", [.value (txt "b"), .label (txt "B"), .label (txt "A")], 3 / 10⟩, ⟨txt "B", [.value (txt "b")], 7 / 10⟩]⟩) := by
  decide +kernel

/-- `test_cfg_from_str_illegal_input`. -/
example : ["initial: [a]", "initial: [0]\n\nS → [T a]"].map (fun s => CFG.fromStr byte byte byte (txt s)) = [some none, some none] := by decide +kernel

/-! ### recognisable/from_str.rs -/

/-- `test_parse_word`. -/
example : ["[]", "[a, b, c]", "[xyz, ab]", "[\"xyz\", \"ab\", cd] bla"].map (fun s => done (parseVec (parseToken str) [91] [93] [44] (txt s))) =
    [("", []), ("", ["a", "b", "c"]), ("", ["xyz", "ab"]), (" bla", ["xyz", "ab", "cd"])].map (fun (r, l) => some (txt r, l.map txt)) := by decide +kernel

/-- `test_parse_transitions`. -/
example : ["Transition [1, 2, 3] (1) # 2 % blub", "Transition [1, 2, 3] (1) % blub", "Transition [1, 2, 3] (1)"].map
      (fun s => done (parseTransition num num (fun s => some (num.read s)) (txt s))) =
    [some ([], ⟨[1, 2, 3], 2, 1⟩), some ([], ⟨[1, 2, 3], 1, 1⟩), some ([], ⟨[1, 2, 3], 1, 1⟩)] := by decide +kernel

/-! ### tree_stack_automaton/from_str.rs, finite_state_automaton/from_str.rs -/

/-- `test_tree_stack_automaton_from_str_leading_comment`, `…_end_of_line_comment`, `…_trailing_comment`. -/
example : ["% leading comment\ninitial: 18\n\nTransition [] (Push 0 1 2) # 1", "initial: 18 % end-of-line comment 1\n\nTransition [] (Push 0 1 2) # 1 % end-of-line comment 2",
      "initial: 18\n\nTransition [] (Push 0 1 2) # 1\n% trailing comment"].map
        (fun s => (TSA.fromStr num chr num (txt s)).map (Option.map fun M => (M.listTransitions, M.initialStack))) =
    List.replicate 3 (some (some (some [⟨[], 1, .push 0 1 2⟩], some (.new 18)))) := by decide +kernel

/-- `test_finite_state_automaton_from_str_leading_comment`, `…_end_of_line_comment`, `…_trailing_comment`. -/
example : ["% leading comment\ninitial: 18\n\n                                final: [1, 2]\n\nTransition [] (0 → 1) # 1",
      "initial: 18 % end-of-line comment 1\nfinal: [1, 2]\n\nTransition [] (1 -> 2) # 1 % end-of-line comment 2",
      "initial: 18\nfinal: [1, 2]\n\nTransition [] (1 → 3) # 1\n% trailing comment"].map
        (fun s => (FSA.fromStr num chr num (txt s)).map (Option.map fun M => (M.listTransitions, M.initialState))) =
    [some (some (some [⟨[], 1, ⟨0, 1⟩⟩], some 18)), some (some (some [⟨[], 1, ⟨1, 2⟩⟩], some 18)), some (some (some [⟨[], 1, ⟨1, 3⟩⟩], some 18))] := by decide +kernel

/-! ### equivalence_classes.rs -/

/-- The class with its set in ascending order, to compare sets. -/
def sortClass (c : Nat × Option (List Nat)) : Nat × Option (List Nat) := (c.1, c.2.map fun l => l.insertionSort (· ≤ ·))

/-- `test_parse_class_legal_input`. -/
example : ["0 [0, 1]xyz", "0  [1, 0]1 [2, 3]", "0  [0, 1, 1]\nxyz", "0 *xyz"].map (fun s => (done (parseClass byte byte (txt s))).map fun (r, c) => (r, sortClass c)) =
    [some (txt "xyz", 0, some [0, 1]), some (txt "1 [2, 3]", 0, some [0, 1]), some (txt "\nxyz", 0, some [0, 1]), some (txt "xyz", 0, none)] := by decide +kernel

/-- `test_parse_class_incomplete_input`. -/
example : ["0", "0 [0,", "0 [0, 1"].all (fun s => isIncomplete (parseClass byte byte (txt s))) = true := by decide +kernel

/-- `test_parse_class_illegal_input`. -/
example : [" 0 [0, 1]", "[0, 1]", "*"].all (fun s => isError (parseClass byte byte (txt s))) = true := by decide +kernel

/-- A relation given as text. -/
def relation (s : String) : Option (Option (EquivalenceRelation Nat Nat)) := EquivalenceRelation.fromStr byte byte (txt s)

/-- `test_equivalence_relation_project`. -/
example : (relation "0 [0, 1]\n1 [2, 4]\n2 *").map (Option.map fun r => [1, 2, 3, 4].map r.project) = some (some [0, 1, 2, 1]) := by decide +kernel

/-- The message of an error. -/
def message {A : Type} : Except String A → Option String
  | .error e => some e
  | .ok _ => none

/-- `test_equivalence_relation_new_colliding_default`. -/
example : message (EquivalenceRelation.newSafe [(0, [0, 1]), (1, [2, 3])] 1) = some "There can only be one default class in the equivalence relation!" := by decide +kernel

/-- `test_equivalence_relation_new_intersecting_classes`. -/
example : message (EquivalenceRelation.newSafe [(0, [0, 1]), (1, [1, 2])] 2) = some "All classes of the equivalence relation must be disjoint!" := by decide +kernel

/-- `test_equivalence_relation_from_str_legal_input`. -/
example : ["0 [0, 1]\n1 [2, 3]\n2 *", " 0 [0, 1]\n 1 [2, 3]  \n2 *  "].map (fun s => (relation s).map (Option.map fun r => (r.map, r.default))) =
    List.replicate 2 (some ((EquivalenceRelation.fromClasses [(0, some [0, 1]), (1, some [2, 3]), (2, none)]).map fun r => (r.map, r.default))) := by decide +kernel

/-- `test_equivalence_relation_from_str_illegal_input`. -/
example : ["0 [0, 1]1 [2, 3]2 *", "0 [0, 1]\n1 [1, 2]\n2 *", "0 [0, 1]\n1 [0, 1]\n2 *", "0 [0, 1]\n1 [2, 3]\n2 [*]", "0 [0, 1]\n1 [a, 3]\n2 *",
    "0 [0, 1]\na [2, 3]\n2 *"].map (fun s => (relation s).map Option.isNone) = List.replicate 6 (some true) := by decide +kernel

/-- `test_parse_set_legal_input`. -/
example : ["[]xyz", "[0, 1, 2]xyz"].map (fun s => done (parseSet byte (txt s))) = [some (txt "xyz", []), some (txt "xyz", [0, 1, 2])] := by decide +kernel

/-! ### src/tests/mod.rs (not part of the crate, `lib.rs` does not mention it) -/

/-- Instructions of `test_from_str_automaton`. -/
def instr1 : TsInstr (List Nat) := .up 1 (txt "zwei") (txt "drei") (txt "vier")
def instr2 : TsInstr (List Nat) := .push 1 (txt "zwei") (txt "vier")
def instr3 : TsInstr (List Nat) := .down (txt "zwei") (txt "drei") (txt "vier")

example : ["Up 1 zwei drei vier", "   Up 1  zwei  drei   vier  ", "Push 1 zwei vier", "Down zwei drei vier"].map (fun s => TsInstr.fromStr str (txt s)) =
    [some (some instr1), some (some instr1), some (some instr2), some (some instr3)] := by decide +kernel

/-- `test_from_str_pmcfg`. -/
example : ["\"S\" → [[Var 0 0, Var 1 0, Var 0 1, Var 1 1]] (\"A\", B)  # 1.0", "A → [[],[]] ()  # 0.6", "A → [[T a, Var 0 0],[T c, Var 0 1]] (A)  # 0.4"].map
      (fun s => PMCFGRule.fromStr str str dec (txt s)) =
    [some (some ⟨txt "S", [txt "A", txt "B"], [[.var 0 0, .var 1 0, .var 0 1, .var 1 1]], 1⟩), some (some ⟨txt "A", [], [[], []], 3 / 5⟩),
      some (some ⟨txt "A", [txt "A"], [[.t (txt "a"), .var 0 0], [.t (txt "c"), .var 0 1]], 2 / 5⟩)] := by decide +kernel

/-- `test_from_str_cfg`. -/
example : ["S → [Nt A] # 1", "A → [T a, Nt A, Nt B] # 0.6"].map (fun s => CFGRule.fromStr str str dec (txt s)) =
    [some (some ⟨txt "S", [.label (txt "A")], 1⟩), some (some ⟨txt "A", [.value (txt "a"), .label (txt "A"), .label (txt "B")], 3 / 5⟩)] := by decide +kernel

end Rustomata.Tests.TextTests
