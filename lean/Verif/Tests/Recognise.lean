import Verif.Tests.Text
import Verif.Tests.Pmcfg
import Verif.Model.AutomatonText
import Verif.Model.ApproximationCommand

/-!
# The tests of the recognisers

Sources: `/repo/tests/cfg.rs`, `/repo/tests/pmcfg.rs` and, from `/repo/src/tests/mod.rs`, `test_relabel_pushdown`, `test_tts` and `test_relabel_check`. The search is bounded by 2000 steps;
a word is rejected if there are no items left.
-/

namespace Rustomata.Tests.RecogniseTests

set_option synthInstance.maxSize 4096

/-- A grammar given as text. -/
def cfg (s : String) : CFG (List Nat) (List Nat) ℚ≥0 := (CFG.fromStr str str dec (txt s)).join.getD ⟨[], []⟩

/-- A grammar given as text. -/
def pmcfg (s : String) : PMCFG (List Nat) (List Nat) ℚ≥0 := (PMCFG.fromStr str str dec (txt s)).join.getD ⟨[], []⟩

/-- A word: one terminal for each character. -/
def word (s : String) : List (List Nat) := s.toList.map utf8

/-- What a bounded search has decided. -/
def decision {X Y : Type} : Option (List X × List Y) → Option Bool
  | none => none
  | some (out, rest) => if out.isEmpty then (if rest.isEmpty then some false else none) else some true

/-- Whether a push-down automaton accepts a word. -/
def pdAccepts {A : Type} [DecidableEq A] (P : PDA A (List Nat) ℚ≥0) (s : String) : Option Bool :=
  decision (P.recognise (listHeap (fun i => i.conf.weight)) [] (word s) 2000)

/-- Whether a tree stack automaton accepts a word. -/
def tsAccepts {A : Type} [DecidableEq A] (P : TSA A (List Nat) ℚ≥0) (s : String) : Option Bool :=
  decision (P.recognise (listHeap (fun i => i.conf.weight)) [] (word s) 2000)

/-! ### tests/cfg.rs -/

/-- `examples/example.cfg`. -/
def example1 : CFG (List Nat) (List Nat) ℚ≥0 :=
  cfg "% This grammar generates the language { aⁿbⁿ ∣ n ∈ ℕ }.\ninitial: [S]\n\nS → [T a, Nt S, T b]  # 0.4\nS → []                # 0.6\n"

/-- `test_cfg_from_str_correctness`. -/
example : example1 = ⟨[txt "S"], [⟨txt "S", [.value (txt "a"), .label (txt "S"), .value (txt "b")], 2 / 5⟩, ⟨txt "S", [], 3 / 5⟩]⟩ := by decide +kernel

/-- `test_cfg_recognise_legal_terminal_symbols` and `test_cfg_recognise_illegal_terminal_symbols`. -/
example : (example1.toPda).map (fun P => ["", "aabb", "aab", "a", "abb", "aacc"].map (pdAccepts P)) =
    some [some true, some true, some false, some false, some false, some false] := by decide +kernel

/-- `examples/example2.cfg`. -/
def example2 : CFG (List Nat) (List Nat) ℚ≥0 :=
  cfg "initial: [S, B]\n\nS → [Nt A           ] # 1\nA → [T a, Nt A, Nt B] # 0.6\nA → [T a            ] # 0.4\nB → [T b, Nt B, Nt A] # 0.3\nB → [T b            ] # 0.7\n"

/-- The automaton for `examples/example2.cfg` relabelled by the given classes. -/
def relabelled (classes : String) : Option (PDA (PushState (List Nat) (List Nat)) (List Nat) ℚ≥0) :=
  example2.toPda.bind fun a => (EquivalenceRelation.fromStr str str (txt classes)).join.bind fun e => a.listTransitions.bind fun ts => a.initialStore.bind fun s =>
    (approximateAutomaton (relabel (PushState.map e.project)) ts s).map Prod.fst

/-- `test_relabel_pushdown_correctness`: `examples/example.classes`. -/
def relabelWords : List String := ["aab", "bba", "aaabb", "aabba", "", "aa", "aaab", "bbbbbb", "aaa", "bbb", "aabaa", "abaaa"]

#guard (example2.toPda.map fun P => relabelWords.map (pdAccepts P)) =
  some ([true, true, true, true, false, false, false, false, false, false, false, false].map some)
#guard ((relabelled "S [S    ]\nN [A, B ]\nR *\n").map fun P => relabelWords.map (pdAccepts P)) =
  some ([true, true, true, true, false, false, false, false, true, true, true, true].map some)

/-- `test_relabel_pushdown` and `test_relabel_check` (src/tests/mod.rs). -/
def relabelWords2 : List String := ["a", "aaab", "aaabbba", "aaabb", "aaaaa"]

#guard ((relabelled "S [S]\nN [A, B]\nR *\n").map fun P => relabelWords2.map (pdAccepts P)) = some ([true, false, true, true, true].map some)

/-! ### tests/pmcfg.rs -/

/-- `examples/example.pmcfg`. -/
def example3 : PMCFG (List Nat) (List Nat) ℚ≥0 :=
  pmcfg ("% This grammar generates the language { aⁱbᵏcⁱdᵏ ∣ i, k ∈ ℕ }.\ninitial: [S]\n\nS → [[Var 0 0, Var 1 0, Var 0 1, Var 1 1]] (A, B)\n" ++
    "A → [[T a, Var 0 0],  [T c, Var 0 1]     ] (A   )   # 0.5\nA → [[],  []                             ] (    )   # 0.5\n" ++
    "B → [[T b, Var 0 0],  [T d, Var 0 1]     ] (B   )   # 0.5\nB → [[],  []                             ] (    )   # 0.5\n")

/-- `test_pmcfg_from_str_correctness`. -/
example : example3 = ⟨[txt "S"], [⟨txt "S", [txt "A", txt "B"], [[.var 0 0, .var 1 0, .var 0 1, .var 1 1]], 1⟩,
    ⟨txt "A", [txt "A"], [[.t (txt "a"), .var 0 0], [.t (txt "c"), .var 0 1]], 1 / 2⟩, ⟨txt "A", [], [[], []], 1 / 2⟩,
    ⟨txt "B", [txt "B"], [[.t (txt "b"), .var 0 0], [.t (txt "d"), .var 0 1]], 1 / 2⟩, ⟨txt "B", [], [[], []], 1 / 2⟩]⟩ := by decide +kernel

/-- The automaton for a grammar. -/
def tsa (g : PMCFG (List Nat) (List Nat) ℚ≥0) := TSA.ofPmcfg g

-- `test_pmcfg_recognise_legal_terminal_symbols` and `test_pmcfg_recognise_illegal_terminal_symbols`
#guard ((tsa example3).map fun P => ["", "aabccd", "aabccdd", "abc", "aabbcd", "abce"].map (tsAccepts P)) =
  some [some true, some true, some false, some false, some false, some false]

/-- `test_example_pmcfg_to_negra`: the first parse of `aabccd`, as NEGRA export. -/
def firstNegra : Option (List Nat) :=
  (tsa example3).bind fun P => (P.recognise (listHeap (fun i => i.conf.weight)) [] (word "aabccd") 2000).bind fun r => r.1.head?.bind fun i =>
    (toAbstractSyntaxTree i.conf.storage.toTree.1).bind fun m => (separateTerminalRules (· ++ ·) m).bind fun m => toNegra id id m 0 none

#guard firstNegra = some (txt ("#BOS 0\na\ta\t--\t--\t500\na\ta\t--\t--\t501\nb\tb\t--\t--\t502\nc\tc\t--\t--\t500\nc\tc\t--\t--\t501\nd\td\t--\t--\t502\n" ++
  "#500\tA\t--\t--\t0\n#501\tA\t--\t--\t500\n#502\tB\t--\t--\t0\n#EOS 0"))

/-- The approximation of the automaton for a grammar by tts, with the map back. -/
def ttsOf (g : PMCFG (List Nat) (List Nat) ℚ≥0) :=
  (tsa g).bind fun a => a.listTransitions.bind fun ts => a.initialStack.bind fun s => approximateAutomaton tts ts s

-- `test_tts_correctness`
#guard ((tsa example3).map fun P => ["", "abcd", "aabccd", "aaabcccd", "aabcd", "aabbcd", "abbcccdddd", "abbbccdddd"].map (tsAccepts P)) =
  some ([true, true, true, true, false, false, false, false].map some)
#guard ((ttsOf example3).map fun P => ["", "abcd", "aabccd", "aaabcccd", "aabcd", "aabbcd", "abbcccdddd", "abbbccdddd"].map (pdAccepts P.1)) =
  some ([true, true, true, true, true, true, true, true].map some)

/-- The grammar of `test_tts` (src/tests/mod.rs). -/
def example4 : PMCFG (List Nat) (List Nat) ℚ≥0 :=
  pmcfg ("initial: [S]\n\nS → [[Var 0 0, Var 1 0, Var 0 1, Var 1 1]] (A, B)   # 1\n" ++
    "A → [[T a, Var 0 0, T e],  [T c, Var 0 1]] (A   )   # 0.5\nA → [[],  []                             ] (    )   # 0.5\n" ++
    "B → [[T b, Var 0 0],  [T d, Var 0 1]     ] (B   )   # 0.5\nB → [[],  []                             ] (    )   # 0.5")

-- `test_tts`
#guard ((tsa example4).map fun P => ["aebcd", "aebccd"].map (tsAccepts P)) = some [some true, some false]
#guard ((ttsOf example4).map fun P => ["aebcd", "aebccd", "aaeebcd", "aeebccd"].map (pdAccepts P.1)) = some [some true, some true, some true, some false]

/-- `map_nonterminals` and `PosState::map`. -/
def mapSymbol (f : List Nat → List Nat) : TsaSymbol (List Nat) (List Nat) → TsaSymbol (List Nat) (List Nat)
  | .designated => .designated
  | .initial => .initial
  | .position r i j => .position ⟨f r.head, r.tail.map f, r.composition, r.weight⟩ i j

/-- A heap that has the priorities of the parses. -/
abbrev heap (S I : Type) : Agenda (List (Item S I (List Nat) ℚ≥0)) (Item S I (List Nat) ℚ≥0) := listHeap fun i => i.conf.weight

/-- `test_coarse_to_fine_recogniser_correctness`: the weight and the run of the first parse by the recogniser with two approximations. -/
def ctf (s : String) : Option (Option (ℚ≥0 × List (Transition (TsInstr (TsaSymbol (List Nat) (List Nat))) (List Nat) ℚ≥0))) :=
  (tsa example3).bind fun a => a.listTransitions.bind fun ts => a.initialStack.bind fun st =>
  (approximateAutomaton tts ts st).bind fun (b, m₁) => b.listTransitions.bind fun ts' => b.initialStore.bind fun st' =>
  (EquivalenceRelation.fromStr str str (txt "0 [A, B]\n1 *")).join.bind fun e =>
  (approximateAutomaton (relabel (mapSymbol e.project)) ts' st').bind fun (c, m₂) =>
  (c.recognise (listHeap fun i => i.conf.weight) [] (word s) 3000).bind fun r =>
    let middle := ctfRecognise (heap _ _) [] id PdInstr.apply st' m₂ r.1 200
    let fine := ctfRecognise (heap _ _) [] id TsInstr.apply st m₁ middle 1
    some (fine.head?.map fun i => (i.conf.weight, i.run.toVec))

/-- The same for the automaton itself. -/
def direct (s : String) : Option (Option (ℚ≥0 × List (Transition (TsInstr (TsaSymbol (List Nat) (List Nat))) (List Nat) ℚ≥0))) :=
  (tsa example3).bind fun a => (a.recognise (listHeap fun i => i.conf.weight) [] (word s) 2000).map fun r =>
    r.1.head?.map fun i => (i.conf.weight, i.run.toVec)

#guard ["aabccd", "aaabcccd", "abccd", "abbcd"].map ctf = ["aabccd", "aaabcccd", "abccd", "abbcd"].map direct
#guard (["aabccd", "aaabcccd", "abccd", "abbcd"].map fun s => (direct s).map Option.isSome) = [some true, some true, some false, some false]

/-- `examples/example.tsa`: the transitions as words, instructions and weights. -/
def tsaText : String := "% This automaton recognises the language { aⁿbⁿcⁿdⁿ ∣ n ∈ ℕ }.\ninitial: 18\n\nTransition []    (Push 0 1 2)    # 1\nTransition []    (Push 0 1 3)    # 1\n" ++
  "Transition []    (Down 4 18 19)  # 1\nTransition []    (Down 5 6 5)    # 1\nTransition []    (Down 5 7 8)    # 1\nTransition [\"d\"] (Up 0 9 10 11)  # 1\n" ++
  "Transition [\"d\"] (Up 0 9 5 9)    # 1\nTransition []    (Up 0 12 2 13)  # 1\nTransition []    (Up 0 12 14 15) # 1\nTransition [\"c\"] (Up 0 6 13 10)  # 1\n" ++
  "Transition [\"c\"] (Up 0 6 16 6)   # 1\nTransition []    (Down 11 9 17)  # 1\nTransition []    (Down 11 8 4)   # 1\nTransition [\"b\"] (Up 0 15 2 13)  # 1\n" ++
  "Transition [\"b\"] (Up 0 15 14 15) # 1\nTransition []    (Push 0 18 1)   # 1\nTransition []    (Down 17 9 17)  # 1\nTransition []    (Down 17 8 4)   # 1\n" ++
  "Transition []    (Down 2 3 14)   # 1\nTransition []    (Down 2 1 12)   # 1\nTransition []    (Up 0 8 10 11)  # 1\nTransition []    (Up 0 8 5 9)    # 1\n" ++
  "Transition [\"a\"] (Push 0 3 2)    # 1\nTransition [\"a\"] (Push 0 3 3)    # 1\nTransition []    (Down 13 15 16) # 1\nTransition []    (Down 13 12 7)  # 1\n" ++
  "Transition []    (Down 10 6 5)   # 1\nTransition []    (Down 10 7 8)   # 1\nTransition []    (Up 0 7 13 10)  # 1\nTransition []    (Up 0 7 16 6)   # 1\n" ++
  "Transition []    (Down 14 3 14)  # 1\nTransition []    (Down 14 1 12)  # 1\nTransition []    (Down 16 15 16) # 1\nTransition []    (Down 16 12 7)  # 1\n"

/-- `test_tree_stack_automaton_from_str`: the expected transitions in the order of the test. -/
def tsaExpected : List (String × TsInstr Nat) :=
  [("", .push 0 1 2), ("", .push 0 1 3), ("", .down 4 18 19), ("", .down 5 6 5), ("", .down 5 7 8), ("d", .up 0 9 10 11), ("d", .up 0 9 5 9), ("", .up 0 12 2 13),
    ("", .up 0 12 14 15), ("c", .up 0 6 13 10), ("c", .up 0 6 16 6), ("", .down 11 9 17), ("", .down 11 8 4), ("b", .up 0 15 2 13), ("b", .up 0 15 14 15), ("", .push 0 18 1),
    ("", .down 17 9 17), ("", .down 17 8 4), ("", .down 2 3 14), ("", .down 2 1 12), ("", .up 0 8 10 11), ("", .up 0 8 5 9), ("a", .push 0 3 2), ("a", .push 0 3 3),
    ("", .down 13 15 16), ("", .down 13 12 7), ("", .down 10 6 5), ("", .down 10 7 8), ("", .up 0 7 13 10), ("", .up 0 7 16 6), ("", .down 14 3 14), ("", .down 14 1 12),
    ("", .down 16 15 16), ("", .down 16 12 7)]

#guard (TSA.fromStr num str dec (txt tsaText)).map (Option.map fun M => M.initialStack) = some (some (some (.new 18)))
#guard (TSA.fromStr num str dec (txt tsaText)).map (Option.map fun M => M.listTransitions.map fun ts =>
    (ts.all fun t => t ∈ tsaExpected.map fun (w, i) => ⟨word w, 1, i⟩) && ((tsaExpected.map fun (w, i) => (⟨word w, 1, i⟩ : Transition (TsInstr Nat) (List Nat) ℚ≥0)).all fun t => t ∈ ts)) =
  some (some (some true))
#guard (TSA.fromStr num str dec (txt tsaText)).map (Option.map fun M => ["", "abcd", "aabbccdd", "abc", "aabbccd"].map (tsAccepts M)) =
  some (some [some true, some true, some true, some false, some false])

end Rustomata.Tests.RecogniseTests
