import Verif.Proofs.Panics

/-!
# Property C85: on which texts the readers of grammars and automata panic
-/

namespace Rustomata.Props
open Nom Spec

section
variable {N T W : Type _} [One W] {cn : Codec N} {ct : Codec T} {cw : Codec W} {s : List Nat}

/-- **C85** Reading a PMCFG rule panics iff the text can be read up to a variable with a number of at least 2^64, or up to a malformed weight. -/
theorem C85_pmcfg_rule : PMCFGRule.fromStr cn ct cw s = none ↔ PmcfgRulePanics cn ct cw s := by
  rw [PMCFGRule.fromStr, toResult_none_iff]
  exact parsePmcfgRule_panic s

/-- **C85** Reading a PMCFG panics iff the lines before a line that is read as a rule can be read, and reading this rule panics. -/
theorem C85_pmcfg : PMCFG.fromStr cn ct cw s = none ↔ GrammarPanics cn (PmcfgRuleReads cn ct cw) (PmcfgRulePanics cn ct cw) s := by
  rw [PMCFG.fromStr, Option.map_eq_none_iff]
  exact grammarLoop_none_iff (fun _ _ => C65_pmcfg_rule) fun _ => C85_pmcfg_rule

/-- **C85** The same for LCFRS. -/
theorem C85_lcfrs : Lcfrs.fromStr cn ct cw s = none ↔ GrammarPanics cn (PmcfgRuleReads cn ct cw) (PmcfgRulePanics cn ct cw) s := by
  rw [Lcfrs.fromStr, Option.map_eq_none_iff]
  exact grammarLoop_none_iff (fun _ _ => C65_pmcfg_rule) fun _ => C85_pmcfg_rule

/-- **C85** There is an error iff the text is no grammar and there is no panic. -/
theorem C85_pmcfg_error : PMCFG.fromStr cn ct cw s = some none ↔
    (∀ ns rs, ¬ GrammarFile cn (PmcfgRuleReads cn ct cw) ns rs s) ∧ ¬ GrammarPanics cn (PmcfgRuleReads cn ct cw) (PmcfgRulePanics cn ct cw) s := by
  rw [← C85_pmcfg]
  have h : (∀ ns rs, ¬ GrammarFile cn (PmcfgRuleReads cn ct cw) ns rs s) ↔ ∀ G, PMCFG.fromStr cn ct cw s ≠ some (some G) :=
    ⟨fun h G hG => h _ _ (C65_pmcfg.mp hG), fun h ns rs hG => h ⟨ns, rs⟩ (C65_pmcfg.mpr hG)⟩
  rw [h]
  rcases PMCFG.fromStr cn ct cw s with _ | _ | G <;> simp

end

section
variable {A Q T W : Type _} [One W] {cq : Codec Q} {ca : Codec A} {ct : Codec T} {cw : Codec W} {s : List Nat}

/-- **C85** Reading an instruction of a finite state automaton does not panic. -/
theorem C85_fs_instruction : FsInstr.fromStr cq s ≠ none := by
  rw [FsInstr.fromStr]
  split
  · split
    · split <;> simp
    · simp
  · simp

/-- **C85** Reading an instruction of a tree stack automaton panics iff the text consists of white space. -/
theorem C85_ts_instruction : TsInstr.fromStr ca s = none ↔ Whites s := by
  have h : Whites s ↔ splitWhite s = [] := by
    rw [splitWhite_iff]
    exact ⟨.nil, fun h => by cases h; assumption⟩
  rw [h, TsInstr.fromStr]
  split
  · rename_i e
    simp [e]
  · rename_i e
    rw [e]
    simp only [reduceCtorEq, iff_false]
    split
    · split <;> simp
    · split
      · split <;> simp
      · simp
  · rename_i e
    rw [e]
    simp only [reduceCtorEq, iff_false]
    split
    · split <;> simp
    · simp
  · rename_i e _ _
    simpa using e

/-- **C85** Reading a transition panics iff the text can be read up to a malformed weight, or can be read but for a malformed instruction. -/
theorem C85_fs_transition : Transition.fromStr (W := W) ct cw (FsInstr.fromStr cq) s = none ↔ TransitionPanics ct cw (FsInstrText cq) s :=
  transition_panic_iff fun _ _ => C60_fs_instruction

/-- **C85** The same for tree stack automata. -/
theorem C85_ts_transition : Transition.fromStr (W := W) ct cw (TsInstr.fromStr ca) s = none ↔ TransitionPanics ct cw (TsInstrText ca) s :=
  transition_panic_iff fun _ _ => C60_ts_instruction

/-- **C85** Reading a finite state automaton panics iff all lines before some line can be read and this line is a transition on which reading panics. -/
theorem C85_fsa [DecidableEq Q] [DecidableEq T] : FSA.fromStr cq ct cw s = none ↔
    AutomatonPanics True cq (TransitionReads ct cw (FsInstrText cq)) (TransitionPanics ct cw (FsInstrText cq)) s := by
  rw [← fsaLoop_none_iff (fun _ _ => C65_fs_transition) (fun _ _ => transitionReads_first) (fun _ => C85_fs_transition) fun _ => transitionPanics_first, FSA.fromStr]
  rcases fsaLoop cq (Transition.fromStr ct cw (FsInstr.fromStr cq)) (lines s) none [] [] with _ | _ | ⟨_ | q, fin, ts⟩
  · simp
  · simp
  · simp
  · simp only [reduceCtorEq, iff_false]
    split <;> simp

/-- **C85** The same for tree stack automata. -/
theorem C85_tsa [DecidableEq A] [DecidableEq T] : TSA.fromStr ca ct cw s = none ↔
    AutomatonPanics False ca (TransitionReads ct cw (TsInstrText ca)) (TransitionPanics ct cw (TsInstrText ca)) s := by
  rw [← tsaLoop_none_iff (fun _ _ => C65_ts_transition) (fun _ _ => transitionReads_first) (fun _ => C85_ts_transition) fun _ => transitionPanics_first, TSA.fromStr]
  rcases tsaLoop ca (Transition.fromStr ct cw (TsInstr.fromStr ca)) (lines s) none [] with _ | _ | ⟨_ | q, ts⟩ <;> simp

end

namespace C85Example
open C48Example C65Example

/-- A variable with a large number in the second component. -/
example : PmcfgRulePanics str str num (bytes "S -> [[T a], [Var 0 0, Var 18446744073709551616 1] x") := C85_pmcfg_rule.mp (by decide +kernel)

/-- A weight that is no number. -/
example : PmcfgRulePanics str str num (bytes "S -> [[Var 0 0]] (A) # x") := C85_pmcfg_rule.mp (by decide +kernel)

/-- A malformed successor is an error. -/
example : ¬ PmcfgRulePanics str str num (bytes "S -> [[Var 0 0]] A # x") := fun h => by
  have := C85_pmcfg_rule.mpr h
  revert this
  decide +kernel

/-- The first line that cannot be read decides: here the third line causes the panic, and the fourth line is not considered. -/
example : GrammarPanics str (PmcfgRuleReads str str num) (PmcfgRulePanics str str num) (bytes "initial: [S]\n% x\nS -> [[]] () # x\nS") :=
  C85_pmcfg.mp (by decide +kernel)

/-- Here the second line causes an error before the third line can cause a panic. -/
example : ¬ GrammarPanics str (PmcfgRuleReads str str num) (PmcfgRulePanics str str num) (bytes "initial: [S]\nS\nS -> [[]] () # x") := fun h => by
  have := C85_pmcfg.mpr h
  revert this
  decide +kernel

/-- An instruction that consists of white space. -/
example : TransitionPanics str num (TsInstrText num) (bytes "Transition [a] ( )") := C85_ts_transition.mp (by decide +kernel)

/-- A transition without an instruction is an error. -/
example : ¬ TransitionPanics str num (TsInstrText num) (bytes "Transition [a]") := fun h => by
  have := C85_ts_transition.mpr h
  revert this
  decide +kernel

example : AutomatonPanics True num (TransitionReads str num (FsInstrText num)) (TransitionPanics str num (FsInstrText num))
    (bytes "initial: 1\n\n Transition [a] (1 -> x)\nx") := C85_fsa.mp (by decide +kernel)

end C85Example

end Rustomata.Props
