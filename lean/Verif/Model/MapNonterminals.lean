import Verif.Model.FromPmcfg

/-!
# Model of the functions that rename the nonterminals of rules

Sources: `/repo/src/grammars/pmcfg/mod.rs`, `/repo/src/automata/tree_stack_automaton/from_pmcfg.rs`, `/repo/src/automata/tree_stack_automaton/tree_stack_instruction.rs`.
The functions are combined in this way in `/repo/src/bin/coarse_to_fine.rs` (337, 447), which is not part of the program.
-/

namespace Rustomata
variable {N M T W A B : Type _}

/-- `map_nonterminals` (pmcfg/mod.rs:146-156). -/
def PMCFGRule.mapNonterminals (f : N → M) (r : PMCFGRule N T W) : PMCFGRule M T W := ⟨f r.head, r.tail.map f, r.composition, r.weight⟩

/-- `PosState::map` (from_pmcfg.rs:27-36). -/
def PosState.map (f : A → B) : PosState A → PosState B
  | .designated => .designated
  | .initial => .initial
  | .position x i j => .position (f x) i j

/-- `map` of an instruction (tree_stack_instruction.rs:32-68) with a function without state. -/
def TsInstr.map (f : A → B) : TsInstr A → TsInstr B
  | .up n c o w => .up n (f c) (f o) (f w)
  | .push n c w => .push n (f c) (f w)
  | .down c o w => .down (f c) (f o) (f w)

/-- The transition of the automaton of a grammar with renamed nonterminals: stack symbols `ps` are replaced by `ps.map(|r| r.map_nonterminals(f))`. -/
def TsaTransition.mapNonterminals (f : N → M) (t : TsaTransition N T W) : TsaTransition M T W :=
  ⟨t.word, t.weight, t.instruction.map (PosState.map (PMCFGRule.mapNonterminals f))⟩

/-- All rules and initial nonterminals of a grammar are renamed. -/
def PMCFG.mapNonterminals (f : N → M) (g : PMCFG N T W) : PMCFG M T W := ⟨g.initial.map f, g.rules.map (PMCFGRule.mapNonterminals f)⟩

end Rustomata
