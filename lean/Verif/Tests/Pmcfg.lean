import Verif.Tests.Basic
import Verif.Model.Negra

/-!
# The unit tests of derivation trees and of the NEGRA export

Sources: the modules `tests` of `/repo/src/grammars/pmcfg/mod.rs` (554-833), `negra.rs` (258-444) and `from_str.rs` (137-165).
-/

namespace Rustomata.Tests.PmcfgTests
open Nom

set_option synthInstance.maxSize 4096

/-- A rule given as text. -/
def rule (s : String) : PMCFGRule (List Nat) (List Nat) Nat := (PMCFGRule.fromStr str str num (txt s)).join.getD ⟨[], [], [], 0⟩

/-- A tree given as a list of insertions. -/
def tree {V : Type} (l : List (List Nat × V)) : GornTree V := l.foldl (fun m p => m.insert p.1 p.2) []

example : rule "A -> [[Var 1 0, Var 0 0], [T a, Var 0 1]] (A, a) # 1" =
    ⟨txt "A", [txt "A", txt "a"], [[.var 1 0, .var 0 0], [.t (txt "a"), .var 0 1]], 1⟩ := by decide +kernel

/-- `example_tree_map` (pmcfg/mod.rs:560-614). -/
def exampleTree : GornTree (PMCFGRule (List Nat) (List Nat) Nat) := tree [
  ([], rule "S -> [[Var 0 0, Var 1 0, Var 0 1, Var 1 1]] (A, B) # 1"),
  ([0], rule "A -> [[Var 1 0, Var 0 0], [Var 2 0, Var 0 1]] (A, a, c) # 1"),
  ([0, 0], rule "A -> [[Var 1 0, Var 0 0], [Var 2 0, Var 0 1]] (A, a, c) # 1"),
  ([0, 0, 0], rule "A -> [[], []] () # 1"),
  ([0, 0, 1], rule "a -> [[T a]] () # 1"),
  ([0, 0, 2], rule "c -> [[T c]] () # 1"),
  ([0, 1], rule "a -> [[T a]] () # 1"),
  ([0, 2], rule "c -> [[T c]] () # 1"),
  ([1], rule "B -> [[Var 1 0, Var 0 0], [Var 2 0, Var 0 1]] (B, b, d) # 1"),
  ([1, 0], rule "B -> [[], []] () # 1"),
  ([1, 1], rule "b -> [[T b]] () # 1"),
  ([1, 2], rule "d -> [[T d]] () # 1")]

/-! ### pmcfg/mod.rs -/

/-- `test_evaluate` (pmcfg/mod.rs:616-646). -/
example : evaluate (tree (exampleTree.map fun p => (p.1, p.2.composition))) = some [["a", "a", "b", "c", "c", "d"].map fun s => .t (txt s)] := by decide +kernel

/-- `test_evaluate_invalid_composition` (pmcfg/mod.rs:648-658): a panic. -/
example : evaluate (tree [([], [[.var 0 0, .var 0 1]]), ([0], [[.t 'a']])]) = none := by decide +kernel

/-- `test_to_term` (pmcfg/mod.rs:660-694). -/
example : toTerm (tree [([], rule "A -> [[Var 0 0, T a, Var 0 1, T b]] (B) # 1"), ([0], rule "B -> [[Var 1 0], [T c]] (C) # 1"), ([0, 1], rule "C -> [[], []] () # 1")]) =
    (tree [([], [[.var 0 0, .t (txt "a"), .var 0 1, .t (txt "b")]]), ([0], [[.var 1 0], [.t (txt "c")]]), ([0, 1], [[], []])],
      tree [([], txt "A"), ([0], txt "B"), ([0, 1], txt "C")]) := by decide +kernel

/-- `test_to_term_inverse` (pmcfg/mod.rs:696-731). -/
example : exampleTree.all (fun p => (toTerm exampleTree).1.get p.1 = some p.2.composition ∧ (toTerm exampleTree).2.get p.1 = some p.2.head) = true := by decide +kernel

/-- The tree of `test_separate_terminal_rules`. -/
def sepTree : GornTree (PMCFGRule (List Nat) (List Nat) Nat) := tree [
  ([], rule "S -> [[Var 0 0, T b, Var 1 0, T d]] (A, B) # 1"),
  ([0], rule "A -> [[Var 0 0], [T x]] (C) # 1"),
  ([0, 0], rule "C -> [[T a]] () # 1"),
  ([1], rule "B -> [[T c]] () # 1")]

/-- `test_separate_terminal_rules` (pmcfg/mod.rs:733-781). -/
example : separateTerminalRules (· ++ ·) sepTree = some (tree [
  ([], rule "S -> [[Var 0 0, Var 2 0, Var 1 0, Var 3 0]] (A, B, b, d) # 1"),
  ([0], rule "A -> [[Var 0 0], [Var 1 0]] (C, x) # 1"),
  ([0, 0], rule "C -> [[T a]] () # 1"),
  ([0, 1], rule "x -> [[T x]] () # 1"),
  ([1], rule "B -> [[T c]] () # 1"),
  ([2], rule "b -> [[T b]] () # 1"),
  ([3], rule "d -> [[T d]] () # 1")]) := by decide +kernel

/-- `test_separate_terminal_rules_idempotence` (pmcfg/mod.rs:783-791). -/
example : separateTerminalRules (· ++ ·) exampleTree = some exampleTree := by decide +kernel

/-- The tree of `test_separate_terminal_rules_conflicting_names`. -/
def conflictTree : GornTree (PMCFGRule (List Nat) (List Nat) Nat) := tree [
  ([], rule "S -> [[Var 0 0, T a, Var 1 0, T b]] (a, b) # 1"),
  ([0], rule "a -> [[T b]] () # 1"),
  ([1], rule "b -> [[Var 0 0]] (bb) # 1"),
  ([1, 0], rule "bb -> [[T c]] () # 1")]

/-- `test_separate_terminal_rules_conflicting_names` (pmcfg/mod.rs:793-833). -/
example : separateTerminalRules (· ++ ·) conflictTree = some (tree [
  ([], rule "S -> [[Var 0 0, Var 2 0, Var 1 0, Var 3 0]] (a, b, aa, bbb) # 1"),
  ([0], rule "a -> [[T b]] () # 1"),
  ([1], rule "b -> [[Var 0 0]] (bb) # 1"),
  ([1, 0], rule "bb -> [[T c]] () # 1"),
  ([2], rule "aa -> [[T a]] () # 1"),
  ([3], rule "bbb -> [[T b]] () # 1")]) := by decide +kernel

/-- The tree in the documentation of `separate_terminal_rules` (pmcfg/mod.rs:390-434). -/
def docTree : GornTree (PMCFGRule (List Nat) (List Nat) Nat) := tree [
  ([], rule "S → [[Var 0 0, Var 0 1]] (A)"),
  ([0], rule "A → [[T a, Var 0 0, T b], [T c, Var 0 1]] (A) # 4"),
  ([0, 0], rule "A → [[], []] () # 6")]

/-- Its normal form. -/
def docNormalForm : GornTree (PMCFGRule (List Nat) (List Nat) Nat) := tree [
  ([], rule "S → [[Var 0 0, Var 0 1]] (A)"),
  ([0], rule "A → [[Var 1 0, Var 0 0, Var 2 0], [Var 3 0, Var 0 1]] (A, a, b, c) # 4"),
  ([0, 0], rule "A → [[], []] () # 6"),
  ([0, 1], rule "a → [[T a]] () # 4"),
  ([0, 2], rule "b → [[T b]] () # 4"),
  ([0, 3], rule "c → [[T c]] () # 4")]

example : separateTerminalRules (· ++ ·) docTree = some docNormalForm ∧ evaluate (toTerm docNormalForm).1 = evaluate (toTerm docTree).1 := by decide +kernel

/-! ### negra.rs -/

/-- `test_identify_terminals` (negra.rs:264-305). -/
example : identifyTerminals (tree [([], [[.var 0 0, .t "a", .var 0 1, .t "b"]]), ([0], [[.var 1 0], [.t "c"]]), ([0, 1], [[.t "d"]])]) =
    (tree [([], [[.var 0 0, .t ([], 1), .var 0 1, .t ([], 3)]]), ([0], [[.var 1 0], [.t ([0], 1)]]), ([0, 1], [[.t ([0, 1], 0)]])],
      [(([], 1), "a"), (([], 3), "b"), (([0], 1), "c"), (([0, 1], 0), "d")]) := by decide +kernel

/-- `test_identify_terminals_inverse` (negra.rs:307-339). -/
example : (identifyTerminals (toTerm exampleTree).1).1.map (fun p => (p.1, p.2.map fun c => c.map fun
      | .var i j => some (.var i j)
      | .t i => ((identifyTerminals (toTerm exampleTree).1).2.get i).map VarT.t)) =
    (toTerm exampleTree).1.map (fun p => (p.1, p.2.map fun c => c.map some)) := by decide +kernel

/-- The lines of the export of `example_tree_map` with the given words. -/
def exampleLines (ws : List String) : List (NegraLine (List Nat) (List Nat)) :=
  (ws.zip [("a", 500), ("a", 501), ("b", 502), ("c", 500), ("c", 501), ("d", 502)]).map (fun (w, l, n) => (.word (txt w), txt l, n)) ++
    [(.node 500, txt "A", 0), (.node 501, txt "A", 500), (.node 502, txt "B", 0)]

/-- `test_to_negra_vector` (negra.rs:341-358). -/
example : toNegraVector exampleTree none = some (exampleLines ["a", "a", "b", "c", "c", "d"]) := by decide +kernel

/-- `test_to_negra_vector_with_pos` (negra.rs:360-391). -/
example : toNegraVector exampleTree (some (["Ah", "Ah", "Beh", "Zeh", "Zeh", "Deh"].map txt)) = some (exampleLines ["Ah", "Ah", "Beh", "Zeh", "Zeh", "Deh"]) := by
  decide +kernel

/-- `test_meets_negra_criteria` (negra.rs:393-423). The third tree is overwritten by the fourth. -/
example : (["S -> [[T a, T b]] () #1", "S -> [[Var 0 0, T a]] (A) #1", "A -> [[T a]] () #1"].map fun s => meetsNegraCriteria (tree [([], rule s)])) = [false, false, true] := by
  decide +kernel

/-- `test_to_negra_violated_criteria` (negra.rs:425-439): a panic. -/
example : toNegra id id (tree [([], rule "S -> [[T a, T b]] () #1")]) 0 none = none := by decide +kernel

/-! ### from_str.rs -/

/-- `test_pmcfg_from_str_leading_comment`, `…_end_of_line_comment` and `…_trailing_comment` (pmcfg/from_str.rs:141-164). -/
example : ["% leading comment\ninitial: [S]\n\nS → [[T a]] ()", "initial: [S] % end-of-line comment 1\n\nS → [[T a]] () % end-of-line comment 2",
      "initial: [S]\n\nS → [[T a]] ()\n% trailing comment"].map (fun s => PMCFG.fromStr chr chr num (txt s)) =
    List.replicate 3 (some (some ⟨[83], [⟨83, [], [[.t 97]], 1⟩]⟩)) := by decide +kernel

end Rustomata.Tests.PmcfgTests
