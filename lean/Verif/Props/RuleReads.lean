import Verif.Proofs.FileReads

/-!
# Property C65: the texts that are accepted as rules, grammars, transitions and automata
-/

namespace Rustomata.Props
open Nom Spec

section
variable {N T W : Type _} [One W] {cn : Codec N} {ct : Codec T} {cw : Codec W} {s : List Nat}

/-- **C65** A text is read as a context-free rule iff it is the text of this rule. -/
theorem C65_cfg_rule {r : CFGRule N T W} : CFGRule.fromStr cn ct cw s = some (some r) ↔ CfgRuleReads cn ct cw r s := by
  rw [CFGRule.fromStr, toResult_iff]
  simp only [parseCfgRule_iff]
  exact ⟨fun ⟨_, _, h⟩ => h, fun h => ⟨_, rfl, h⟩⟩

/-- **C65** A text is read as a PMCFG rule iff it is the text of this rule, up to text after the rule. -/
theorem C65_pmcfg_rule {r : PMCFGRule N T W} : PMCFGRule.fromStr cn ct cw s = some (some r) ↔ PmcfgRuleReads cn ct cw r s := by
  rw [PMCFGRule.fromStr, toResult_iff]
  simp only [parsePmcfgRule_iff]
  exact ⟨fun ⟨_, _, h⟩ => h, fun h => ⟨_, rfl, h⟩⟩

/-- **C65** A text is read as a context-free grammar iff its lines declare the initial nonterminals and the rules, in this order. -/
theorem C65_cfg {G : CFG N T W} : CFG.fromStr cn ct cw s = some (some G) ↔ GrammarFile cn (CfgRuleReads cn ct cw) G.initial G.rules s := by
  rw [← grammarFromStr_iff fun _ _ => C65_cfg_rule, CFG.fromStr]
  cases grammarFromStr cn (CFGRule.fromStr cn ct cw) s with
  | none => simp
  | some o => cases o <;> cases G <;> simp [Prod.ext_iff]

/-- **C65** The same for PMCFG. -/
theorem C65_pmcfg {G : PMCFG N T W} : PMCFG.fromStr cn ct cw s = some (some G) ↔ GrammarFile cn (PmcfgRuleReads cn ct cw) G.initial G.rules s := by
  rw [← grammarFromStr_iff fun _ _ => C65_pmcfg_rule, PMCFG.fromStr]
  cases grammarFromStr cn (PMCFGRule.fromStr cn ct cw) s with
  | none => simp
  | some o => cases o <;> cases G <;> simp [Prod.ext_iff]

/-- **C65** The same for LCFRS, with one initial nonterminal. -/
theorem C65_lcfrs {G : Lcfrs N T W} : Lcfrs.fromStr cn ct cw s = some (some G) ↔ GrammarFile cn (PmcfgRuleReads cn ct cw) [G.init] G.rules s := by
  rw [← grammarFromStr_iff fun _ _ => C65_pmcfg_rule, Lcfrs.fromStr]
  cases grammarFromStr cn (PMCFGRule.fromStr cn ct cw) s with
  | none => simp
  | some o =>
    rcases o with _ | ⟨_ | ⟨n, _ | ⟨n', ns⟩⟩, rs⟩
    · simp
    · simp
    · cases G
      simp [and_comm]
    · simp

end

section
variable {A Q T W : Type _} [One W] {cq : Codec Q} {ca : Codec A} {ct : Codec T} {cw : Codec W} {s : List Nat}

/-- **C65** A text is read as a transition of a finite state automaton iff it is the text of this transition, up to text after it. -/
theorem C65_fs_transition {t : Transition (FsInstr Q) T W} :
    Transition.fromStr ct cw (FsInstr.fromStr cq) s = some (some t) ↔ TransitionReads ct cw (FsInstrText cq) t s := transition_iff fun _ _ => C60_fs_instruction

/-- **C65** The same for tree stack automata. -/
theorem C65_ts_transition {t : Transition (TsInstr A) T W} :
    Transition.fromStr ct cw (TsInstr.fromStr ca) s = some (some t) ↔ TransitionReads ct cw (TsInstrText ca) t s := transition_iff fun _ _ => C60_ts_instruction

omit [One W] in
theorem _root_.Rustomata.transitionReads_first [One W] {I : Type _} {instr : I → List Nat → Prop} {t : Transition I T W} {s : List Nat}
    (h : TransitionReads ct cw instr t s) : ∃ r, s = 84 :: r := by
  cases h <;> exact ⟨_, rfl⟩

/-- **C65** A text is read as a finite state automaton iff its lines declare an initial state and final states; the last declaration counts. -/
theorem C65_fsa [DecidableEq Q] [DecidableEq T] {P : FSA Q T W} : FSA.fromStr cq ct cw s = some (some P) ↔
    ∃ ls ds q qs, LinesOf ls s ∧ List.Forall₂ (DeclReads True cq (TransitionReads ct cw (FsInstrText cq))) ds ls ∧ Decl.lastInitial ds = some q ∧
      Decl.lastFinals ds = some qs ∧ qs ≠ [] ∧ P = FSA.new (Decl.transitions ds) q qs := by
  have hloop := fsaLoop_iff (c := cq) (read := Transition.fromStr ct cw (FsInstr.fromStr cq)) (fun _ _ => C65_fs_transition) (fun t s h => transitionReads_first h)
    (lines s) none [] []
  rw [FSA.fromStr]
  constructor
  · intro h
    split at h
    · cases h
    · cases h
    · cases h
    · rename_i q fin ts e
      obtain ⟨ds, h1, h2⟩ := (hloop _).mp e
      simp only [declResult, Option.or_none, List.nil_append, Prod.mk.injEq] at h2
      obtain ⟨e1, rfl, rfl⟩ := h2
      split at h
      · cases h
      · rename_i hne
        rw [Option.some.injEq, Option.some.injEq] at h
        cases hf : Decl.lastFinals ds with
        | none => exact absurd (by rw [hf]; rfl) hne
        | some qs =>
          rw [hf, Option.getD_some] at h hne
          exact ⟨lines s, ds, q, qs, lines_iff.mp rfl, h1, e1.symm, hf, hne, h.symm⟩
  · rintro ⟨ls, ds, q, qs, h1, h2, h3, h4, h5, rfl⟩
    rw [← lines_iff.mpr h1] at h2
    rw [(hloop _).mpr ⟨ds, h2, rfl⟩]
    simp [declResult, h3, h4, h5]

/-- **C65** A text is read as a tree stack automaton iff its lines declare an initial symbol; the last declaration counts. -/
theorem C65_tsa [DecidableEq A] [DecidableEq T] {P : TSA A T W} : TSA.fromStr ca ct cw s = some (some P) ↔
    ∃ ls ds a, LinesOf ls s ∧ List.Forall₂ (DeclReads False ca (TransitionReads ct cw (TsInstrText ca))) ds ls ∧ Decl.lastInitial ds = some a ∧
      P = TSA.new (Decl.transitions ds) (.new a) := by
  have hloop := tsaLoop_iff (c := ca) (read := Transition.fromStr ct cw (TsInstr.fromStr ca)) (fun _ _ => C65_ts_transition) (fun t s h => transitionReads_first h)
    (lines s) none []
  rw [TSA.fromStr]
  constructor
  · intro h
    split at h
    · cases h
    · cases h
    · cases h
    · rename_i a ts e
      obtain ⟨ds, h1, h2⟩ := (hloop _).mp e
      simp only [tsaResult, Option.or_none, List.nil_append, Prod.mk.injEq] at h2
      obtain ⟨e1, rfl⟩ := h2
      rw [Option.some.injEq, Option.some.injEq] at h
      exact ⟨lines s, ds, a, lines_iff.mp rfl, h1, e1.symm, h.symm⟩
  · rintro ⟨ls, ds, a, h1, h2, h3, rfl⟩
    rw [← lines_iff.mpr h1] at h2
    rw [(hloop _).mpr ⟨ds, h2, rfl⟩]
    simp [tsaResult, h3]

end

namespace C65Example
open C48Example

/-- The bytes of a text of ASCII characters. -/
def bytes (s : String) : List Nat := s.toList.map Char.toNat

/-- A rule with an unusual layout: a list without commas, and a comma before its first element. -/
example : CfgRuleReads str str num ⟨bytes "S", [.label (bytes "A"), .value (bytes "b c"), .label (bytes "]")], 7⟩ (bytes "S =>[,NtA T\"b c\" Nt\t\"]\"]# 7 % x") :=
  C65_cfg_rule.mp (by decide +kernel)

example : ¬ ∃ r, CfgRuleReads str str num r (bytes "S -> [Nt A] x") := by
  rintro ⟨r, h⟩
  have := C65_cfg_rule.mpr h
  revert this
  rw [show CFGRule.fromStr str str num (bytes "S -> [Nt A] x") = some none from by decide +kernel]
  simp

example : PmcfgRuleReads str str num ⟨bytes "S", [bytes "A"], [[.var 0 12, .t (bytes "a")], []], 1⟩ (bytes "S -> [[Var 0 12, T a], []] (A) and so on") :=
  C65_pmcfg_rule.mp (by decide +kernel)

/-- A text with two rules and two declarations of initial nonterminals. -/
example : GrammarFile str (CfgRuleReads str str num) [bytes "S", bytes "T"] [⟨bytes "S", [], 2⟩, ⟨bytes "T", [.value (bytes "a")], 1⟩]
    (bytes "initial: [S] ignored\n\nS -> [] # 2\r\n % comment\ninitial:[T]\n\tT -> [T a]") := (grammarFromStr_iff fun _ _ => C65_cfg_rule).mp (by decide +kernel)

example : TransitionReads str num (FsInstrText num) ⟨[bytes "a"], 3, ⟨1, 2⟩⟩ (bytes "Transition [a] (1 -> 2) # 3 ignored") :=
  C65_fs_transition.mp (by decide +kernel)

end C65Example

open C48Example C65Example

/-- The full claim **C65** for PMCFG: the text of a rule without weight and comment ends with the list of the successors. -/
def C65_claim : Prop := ∀ (s : List Nat) (r : PMCFGRule (List Nat) (List Nat) Nat), PMCFGRule.fromStr str str num s = some (some r) → 35 ∉ s → 37 ∉ s →
  s.getLast? = some 41

/-- **C65 is violated**: text after the rule is ignored, although it is no comment. (Context-free rules are not affected, see `C65_cfg_rule`.) -/
theorem C65_violated : ¬ C65_claim := fun h =>
  absurd (h (bytes "S -> [] () x") ⟨bytes "S", [], [], 1⟩ (by decide +kernel) (by decide) (by decide)) (by decide)

end Rustomata.Props
