import Verif.Proofs.AutomatonCommand
import Verif.Props.ParseText
import Verif.Props.Relabel
import Verif.Props.Components

/-!
# Property C80: the commands that print automata

Only property theorems, the lemmas that combine them, and the examples that show their hypotheses to be satisfiable.
-/

namespace Rustomata.Props
open Rustomata Rustomata.Spec
variable {A T W H : Type _}

/-- **C80** The text of a pushdown contains all elements, beginning with the lowest one, which is repeated at the end; there is no text without elements. -/
theorem C80_stack {A : Type _} (a : A → List Nat) (e : A) (s : List A) :
    PushDown.text a (e :: s) = some (ascii "stack: [".toList ++ List.intercalate [32] ((e :: s).map a) ++ ascii "], empty:".toList ++ a e) ∧ PushDown.text a [] = none := by
  have h : ∀ (s : List A) e, spaceSep a (e :: s) = List.intercalate [32] ((e :: s).map a) := by
    intro s
    induction s with
    | nil => simp [spaceSep]
    | cons y s ih =>
      intro e
      rw [spaceSep, ih y]
      simp [List.intercalate]
  refine ⟨?_, rfl⟩
  simp only [PushDown.text, PushDown.empty, List.getElem?_cons_zero, Option.map_some, h]
  rfl

section
variable [Monoid W] [AddMonoid W] {debug : List Nat → List Nat} {cw : Codec W} {grammar classes : List Nat}

/-- The text of an automaton with the transitions of a context-free grammar. -/
theorem cfgAutomaton_text {G : CFG (List Nat) (List Nat) W} {P : PDA (PushState (List Nat) (List Nat)) (List Nat) W}
    {L : List (Transition (PdInstr (PushState (List Nat) (List Nat))) (List Nat) W)} (hB : PDA.Built P G.pdaTransitions cfgStart L) (hL : P.listTransitions = some L) :
    ∃ text, P.text (PushState.text (fun s => s) fun s => s) debug cw = some text ∧ CfgAutomatonText debug cw G (text ++ [10]) := by
  obtain ⟨G', hM⟩ := exists_mergedCfg G
  refine ⟨_, hB.text hL _ _ _, G', G'.terminals, L.map fun t => Transition.text debug (PdInstr.text (PushState.text (fun s => s) fun s => s)) cw t ++ [10], hM,
    CFG.nodup_terminals G', fun t => ?_, ?_, ?_⟩
  · rw [CFG.merged_terminals hM, CFG.mem_terminals]
  · have hperm : L.Perm (G'.rules.map CFG.ruleTransition ++ G'.terminals.map CFG.readTransition ++ G'.initial.map fun S => CFG.startTransition G S) := by
      refine (List.perm_ext_iff_of_nodup (List.Nodup.of_map _ hB.nodup) ?_).2 fun t => ?_
      · rw [List.nodup_append, List.nodup_append]
        refine ⟨⟨(List.Nodup.of_map _ hM.nodup).map CFG.ruleTransition_injective, (CFG.nodup_terminals G').map fun x y h => ?_, ?_⟩, hM.initial_nodup.map fun x y h => ?_, ?_⟩
        · simpa [CFG.readTransition] using h
        · rintro t ht t' ht' rfl
          obtain ⟨r, _, rfl⟩ := List.mem_map.1 ht
          obtain ⟨x, _, h⟩ := List.mem_map.1 ht'
          simp [CFG.readTransition, CFG.ruleTransition] at h
        · simp only [CFG.startTransition, Transition.mk.injEq, PdInstr.mk.injEq, List.cons.injEq, PushState.nt.injEq, and_true, true_and] at h
          exact h.2
        · rintro t ht t' ht' rfl
          obtain ⟨S, _, h⟩ := List.mem_map.1 ht'
          rcases List.mem_append.1 ht with ht | ht
          · obtain ⟨r, _, rfl⟩ := List.mem_map.1 ht
            simp [CFG.startTransition, CFG.ruleTransition] at h
          · obtain ⟨r, _, rfl⟩ := List.mem_map.1 ht
            simp [CFG.startTransition, CFG.readTransition] at h
      · rw [CFG.transitions_merged hM hB.transitions t]
        simp only [List.mem_append, List.mem_map, or_assoc, eq_comm]
    refine (hperm.map _).trans (List.Perm.of_eq ?_)
    simp only [List.map_append, List.map_map]
    congr 1
    · congr 1
      · refine List.map_congr_left fun r _ => ?_
        simp only [Function.comp, replaceLine_eq]
        simp only [CFG.ruleTransition, pushString_map, ruleLine, commaSep, List.map_cons, List.map_nil]
        rfl
      · refine List.map_congr_left fun r _ => ?_
        simp only [Function.comp, replaceLine_eq]
        rfl
    · refine List.map_congr_left fun r _ => ?_
      simp only [Function.comp, replaceLine_eq]
      rfl
  · rw [List.flatMap_def]
    simp [cfgStart, spaceSep, PushState.text, ascii]

/-- **C80** `cfg automaton` prints the text of the automaton of the grammar. -/
theorem C80_cfg {G : CFG (List Nat) (List Nat) W} (hgr : GrammarFile stringCodec (CfgRuleReads stringCodec stringCodec cw) G.initial G.rules grammar) :
    ∃ text, cfgAutomatonCommand debug cw grammar = some text ∧ CfgAutomatonText debug cw G text := by
  obtain ⟨P, hP⟩ := CFG.toPda_some (W := W) G
  obtain ⟨L, hL, hB⟩ := PDA.new_built hP
  obtain ⟨text, h1, h2⟩ := cfgAutomaton_text (debug := debug) (cw := cw) hB hL
  refine ⟨_, ?_, h2⟩
  unfold cfgAutomatonCommand
  rw [C65_cfg.2 hgr]
  simp only
  rw [hP, Option.bind_some, h1, Option.map_some]

/-- **C80** `cfg automaton` panics if and only if the file is not a grammar. -/
theorem C80_cfg_panic : cfgAutomatonCommand debug cw grammar = none ↔
    ¬ ∃ G : CFG (List Nat) (List Nat) W, GrammarFile stringCodec (CfgRuleReads stringCodec stringCodec cw) G.initial G.rules grammar := by
  constructor
  · rintro h ⟨G, hgr⟩
    obtain ⟨text, h1, _⟩ := C80_cfg (debug := debug) hgr
    rw [h] at h1
    cases h1
  · intro h
    unfold cfgAutomatonCommand
    split
    · rename_i G hG
      exact absurd ⟨G, C65_cfg.1 hG⟩ h
    · rfl

end

section
variable [Monoid W] [AddCommMonoid W] [DecidableEq W] {debug : List Nat → List Nat} {cw : Codec W} {grammar classes : List Nat}

/-- **C80** `approximation relabel automaton` prints the text of the automaton of the relabelled grammar. -/
theorem C80_relabel {G : CFG (List Nat) (List Nat) W} (hgr : GrammarFile stringCodec (CfgRuleReads stringCodec stringCodec cw) G.initial G.rules grammar)
    {e : EquivalenceRelation (List Nat) (List Nat)} (he : EquivalenceRelation.fromStr stringCodec stringCodec classes = some (some e)) :
    ∃ text, relabelAutomatonCommand debug cw grammar classes = some text ∧ CfgAutomatonText debug cw (relabelCfg e.project G) text := by
  obtain ⟨P, hP⟩ := CFG.toPda_some (W := W) G
  obtain ⟨L, b, mp, L2, h1, h2, h3, h4, h5⟩ := relabel_built e.project hP
  obtain ⟨text, h6, h7⟩ := cfgAutomaton_text (debug := debug) (cw := cw) h5 h4
  refine ⟨_, ?_, h7⟩
  unfold relabelAutomatonCommand
  rw [C65_cfg.2 hgr]
  simp only
  rw [hP, Option.bind_some, he]
  simp only
  rw [h1, Option.bind_some, h2, Option.bind_some, h3, Option.bind_some, h6, Option.map_some]

/-- **C80** `approximation relabel automaton` panics if and only if the files are not a grammar and classes. -/
theorem C80_relabel_panic : relabelAutomatonCommand debug cw grammar classes = none ↔
    (¬ ∃ G : CFG (List Nat) (List Nat) W, GrammarFile stringCodec (CfgRuleReads stringCodec stringCodec cw) G.initial G.rules grammar) ∨
      ¬ ∃ e, EquivalenceRelation.fromStr stringCodec stringCodec classes = some (some e) := by
  constructor
  · intro h
    by_contra hc
    rw [not_or, not_not, not_not] at hc
    obtain ⟨⟨G, hgr⟩, e, he⟩ := hc
    obtain ⟨text, h1, _⟩ := C80_relabel (debug := debug) hgr he
    rw [h] at h1
    cases h1
  · intro h
    unfold relabelAutomatonCommand
    split
    · rename_i G hG
      obtain ⟨P, hP⟩ := CFG.toPda_some (W := W) G
      rw [hP, Option.bind_some]
      split
      · rename_i e he
        rcases h with h | h
        · exact absurd ⟨G, C65_cfg.1 hG⟩ h
        · exact absurd ⟨e, he⟩ h
      · rfl
    · rfl

end

section
variable [Monoid W] {debug : List Nat → List Nat} {cw : Codec W} {grammar : List Nat} {g : PMCFG (List Nat) (List Nat) W}

/-- **C80** `mcfg automaton` prints the transitions of the automaton of the grammar, in any order. -/
theorem C80_mcfg (hgr : GrammarFile stringCodec (PmcfgRuleReads stringCodec stringCodec cw) g.initial g.rules grammar) {ts : List (TsaTransition (List Nat) (List Nat) W)}
    (hts : tsaTransitions g = some ts) :
    ∃ L : List (TsaTransition (List Nat) (List Nat) W), L.Perm ts ∧ mcfgAutomatonCommand debug cw grammar = some (ascii "initial: 0\n\n".toList ++
      (L.flatMap fun t => Transition.text debug (TsInstr.text ⟨PosState.text (shownRule cw g), fun _ => none⟩) cw t ++ [10]) ++ [10]) := by
  obtain ⟨⟨L, h1, h2⟩, _⟩ := C15_tsa_new ts (TreeStack.new .initial)
  refine ⟨L, h2, ?_⟩
  unfold mcfgAutomatonCommand
  rw [C65_pmcfg.2 hgr]
  simp only
  rw [show TSA.ofPmcfg g = some (TSA.new ts (TreeStack.new .initial)) by simp [TSA.ofPmcfg, hts], Option.bind_some]
  unfold TSA.text
  rw [h1, Option.map_some, Option.map_some]
  rfl

/-- **C80** `mcfg automaton` panics if and only if the file is not a grammar with an automaton (C28). -/
theorem C80_mcfg_panic : mcfgAutomatonCommand debug cw grammar = none ↔
    ¬ ∃ g : PMCFG (List Nat) (List Nat) W, GrammarFile stringCodec (PmcfgRuleReads stringCodec stringCodec cw) g.initial g.rules grammar ∧ TSA.ofPmcfg g ≠ none := by
  constructor
  · rintro h ⟨g, hgr, hg⟩
    cases hts : tsaTransitions g with
    | none => simp [TSA.ofPmcfg, hts] at hg
    | some ts =>
      obtain ⟨L, _, h1⟩ := C80_mcfg (debug := debug) hgr hts
      rw [h] at h1
      cases h1
  · intro h
    unfold mcfgAutomatonCommand
    split
    · rename_i g hg
      have : TSA.ofPmcfg g = none := by
        by_contra hc
        exact h ⟨g, C65_pmcfg.1 hg, hc⟩
      rw [this]
      rfl
    · rfl

theorem lines_end (X : List Nat) (f : A → List Nat) (L : List A) : ∃ u, X ++ [10] ++ (L.flatMap fun t => f t ++ [10]) = u ++ [10] := by
  rcases List.eq_nil_or_concat L with rfl | ⟨L, t, rfl⟩
  · exact ⟨X, by simp⟩
  · exact ⟨X ++ [10] ++ (L.flatMap fun t => f t ++ [10]) ++ f t, by simp⟩

theorem shownRule_start {r : PMCFGRule (List Nat) (List Nat) W} (hr : r ∈ g.rules) :
    ∃ s, shownRule cw g r.key = [34] ++ r.head ++ [34] ++ [32] ++ arrow ++ [32] ++ [91] ++ s := by
  unfold shownRule
  cases hf : g.rules.find? (fun r' => r'.key = r.key) with
  | none =>
    have := List.find?_eq_none.1 hf r hr
    simp at this
  | some r' =>
    have h1 : r'.key = r.key := by simpa using List.find?_some hf
    have h2 : r'.head = r.head := congrArg (fun k : PMCFGRule (List Nat) (List Nat) Unit => k.head) h1
    refine ⟨commaSep (fun proj => [91] ++ commaSep (VarT.text stringCodec) proj ++ [93]) r'.composition ++ [93] ++ [32] ++
      ([40] ++ commaSep (quoted stringCodec) r'.tail ++ [41]) ++ ascii [' ', ' ', '#', ' '] ++ cw.text r'.weight, ?_⟩
    simp [PMCFGRule.text, quoted, Composition.text, stringCodec, h2]

/-- **C80** What `mcfg automaton` prints cannot be read by `tsa recognise`, if there is a rule for an initial nonterminal, whose name contains no closing parenthesis
and no line break. -/
theorem C80_not_read (hgr : GrammarFile stringCodec (PmcfgRuleReads stringCodec stringCodec cw) g.initial g.rules grammar)
    {r : PMCFGRule (List Nat) (List Nat) W} (hr : r ∈ g.rules) (hi : r.head ∈ g.initial) (h41 : 41 ∉ r.head) (h10 : 10 ∉ r.head)
    {text : List Nat} (h : mcfgAutomatonCommand debug cw grammar = some text) :
    ¬ ∃ s ts, TsaFile cw s ts text := by
  rintro ⟨x, ts', ls, ds, hls, hds, _, _⟩
  have hg : TSA.ofPmcfg g ≠ none := by
    intro hg
    unfold mcfgAutomatonCommand at h
    rw [C65_pmcfg.2 hgr] at h
    simp only [hg] at h
    cases h
  cases hts : tsaTransitions g with
  | none => simp [TSA.ofPmcfg, hts] at hg
  | some ts =>
    obtain ⟨L, h1, h2⟩ := C80_mcfg (debug := debug) hgr hts
    rw [h] at h2
    have h3 : (⟨[], r.weight, .push 0 .initial (.position r.key 0 0)⟩ : TsaTransition (List Nat) (List Nat) W) ∈ L := h1.mem_iff.2 ((tsaTransitions_step hts _).2 (.init hr hi))
    obtain ⟨L₁, L₂, rfl⟩ := List.append_of_mem h3
    obtain ⟨u, hu⟩ := lines_end (ascii "initial: 0\n".toList) (Transition.text debug (TsInstr.text ⟨PosState.text (shownRule cw g), fun _ => none⟩) cw) L₁
    obtain ⟨s, hs⟩ := shownRule_start (cw := cw) hr
    rw [Option.some_inj] at h2
    have h4 : ∃ s', text = u ++ 10 :: ((ascii "Transition [] (".toList ++ pushStart r.head) ++ s') := by
      have e : ∀ Y : List Nat, u ++ 10 :: Y = ascii "initial: 0\n".toList ++ ([10] ++ ((L₁.flatMap fun t =>
          Transition.text debug (TsInstr.text ⟨PosState.text (shownRule cw g), fun _ => none⟩) cw t ++ [10]) ++ Y)) := by
        intro Y
        rw [show u ++ 10 :: Y = (u ++ [10]) ++ Y by simp, ← hu]
        simp only [List.append_assoc]
      have e' : ∃ s₁, Transition.text debug (TsInstr.text ⟨PosState.text (shownRule cw g), fun _ => none⟩) cw
          (⟨[], r.weight, .push 0 .initial (.position r.key 0 0)⟩ : TsaTransition (List Nat) (List Nat) W) = (ascii "Transition [] (".toList ++ pushStart r.head) ++ s₁ := by
        refine ⟨s ++ ([44, 32] ++ natText 0 ++ [44, 32] ++ natText 0 ++ [41] ++ [41]) ++ ascii [' ', ' ', '#', ' '] ++ cw.text r.weight, ?_⟩
        have h0 : natText 0 = [48] := by decide
        simp [Transition.text, TsInstr.text, PosState.text, hs, pushStart, commaSep, ascii, h0]
      obtain ⟨s₁, e'⟩ := e'
      refine ⟨s₁ ++ ([10] ++ ((L₂.flatMap fun t => Transition.text debug (TsInstr.text ⟨PosState.text (shownRule cw g), fun _ => none⟩) cw t ++ [10]) ++ [10])), ?_⟩
      rw [h2, e, List.flatMap_append, List.flatMap_cons, e']
      simp only [List.append_assoc]
      rfl
    obtain ⟨s', h5⟩ := h4
    obtain ⟨l, h6, v, rfl⟩ := linesOf_after (p := ascii "Transition [] (".toList ++ pushStart r.head) hls (by simp [ascii]) (by simp [ascii, pushStart, arrow, h10]) (by
      rw [pushStart, ← List.append_assoc, List.getLast?_concat]
      decide) h5
    obtain ⟨d, _, h7⟩ := forall₂_exists_left hds h6
    exact declReads_pushStart h41 h7

end

section
variable [Monoid W] [AddMonoid W] [DecidableEq W] {debug : List Nat → List Nat} {cw : Codec W} {grammar : List Nat} {g : PMCFG (List Nat) (List Nat) W}

/-- **C80** `approximation tts automaton` prints the approximated automaton (C75): each transition once, with the sum of the weights of the transitions that become equal. -/
theorem C80_tts (hgr : GrammarFile stringCodec (PmcfgRuleReads stringCodec stringCodec cw) g.initial g.rules grammar) {ts : List (TsaTransition (List Nat) (List Nat) W)}
    (hts : tsaTransitions g = some ts) :
    ∃ L L2 : List (Transition (PdInstr (TsaSymbol (List Nat) (List Nat))) (List Nat) W), L.Perm (ts.map tts.transition) ∧ (L2.map PDA.keyOf).Nodup ∧
      (∀ x, x ∈ L2.map PDA.keyOf ↔ x ∈ ts.map fun t => PDA.keyOf (tts.transition t)) ∧ (∀ t ∈ L2, t.weight = PDA.total L (PDA.keyOf t)) ∧
      (∀ w, (PDA.device L2 [.initial]).Language w ↔ w = [] ∨ Generates (componentCfgWith cutTrails g) w) ∧
      ttsAutomatonCommand debug cw grammar = some (ascii "initial: stack: [I], empty:I\n\n".toList ++
        (L2.flatMap fun t => Transition.text debug (PdInstr.text (PosState.text (shownRule cw g))) cw t ++ [10]) ++ [10]) := by
  obtain ⟨a, ha, ⟨L', h1, h2⟩, _⟩ := C28_automaton g ts hts
  obtain ⟨L, b, m, L2, h3, h4, h5, h6, h7⟩ := tts_exists ha
  obtain rfl : L' = L := Option.some.inj (h1.symm.trans h3)
  refine ⟨L'.map tts.transition, L2, h2.map _, h7.built.nodup, fun x => ?_, h7.built.weight, h7.language, ?_⟩
  · rw [h7.built.mem, List.map_map]
    exact (h2.map _).mem_iff
  · unfold ttsAutomatonCommand
    rw [C65_pmcfg.2 hgr]
    simp only
    rw [ha, Option.bind_some, h3, Option.bind_some, h4, Option.bind_some, h5, Option.bind_some, h7.built.text h6, Option.map_some]
    rfl

/-- **C80** `approximation tts automaton` panics if and only if the file is not a grammar with an automaton (C28). -/
theorem C80_tts_panic : ttsAutomatonCommand debug cw grammar = none ↔
    ¬ ∃ g : PMCFG (List Nat) (List Nat) W, GrammarFile stringCodec (PmcfgRuleReads stringCodec stringCodec cw) g.initial g.rules grammar ∧ TSA.ofPmcfg g ≠ none := by
  constructor
  · rintro h ⟨g, hgr, hg⟩
    cases hts : tsaTransitions g with
    | none => simp [TSA.ofPmcfg, hts] at hg
    | some ts =>
      obtain ⟨L, L2, _, _, _, _, _, h1⟩ := C80_tts (debug := debug) hgr hts
      rw [h] at h1
      cases h1
  · intro h
    unfold ttsAutomatonCommand
    split
    · rename_i g hg
      have : TSA.ofPmcfg g = none := by
        by_contra hc
        exact h ⟨g, C65_pmcfg.1 hg, hc⟩
      rw [this]
      rfl
    · rfl

end

/-! ### Examples -/

namespace C80Example
open C48Example C65Example

def S := bytes "S"
def a := bytes "a"
def c := bytes "c"

/-- `S → a` with the terminal `a`, and a nonterminal `a`. -/
def g₁ : CFG (List Nat) (List Nat) Nat := ⟨[S], [⟨S, [.value a], 1⟩, ⟨a, [.value c], 1⟩, ⟨c, [.label a], 1⟩]⟩

/-- `S → a` with the nonterminal `a`, and a terminal `a`. -/
def g₂ : CFG (List Nat) (List Nat) Nat := ⟨[S], [⟨S, [.label a], 1⟩, ⟨a, [.value c], 1⟩, ⟨c, [.value a], 1⟩]⟩

/-- `Debug` without escapes. -/
def dbg (s : List Nat) : List Nat := [34] ++ s ++ [34]

def text : List Nat := bytes ("initial: stack: [@ I], empty:@\n\nTransition [] (Replace \"(S)\" // \"(a)\")  # 1\nTransition [] (Replace \"(a)\" // \"(c)\")  # 1\n" ++
  "Transition [] (Replace \"(c)\" // \"(a)\")  # 1\nTransition [\"c\"] (Replace \"(c)\" // )  # 1\nTransition [\"a\"] (Replace \"(a)\" // )  # 1\n" ++
  "Transition [] (Replace \"I\" // \"(S)\")  # 1\n\n")

end C80Example

open C80Example in
/-- **C80** The text of the automaton of a context-free grammar does not determine the language: nonterminals and terminals look alike. -/
theorem C80_ambiguous_violated : ¬ ∀ (G₁ G₂ : CFG (List Nat) (List Nat) Nat) text, CfgAutomatonText dbg C48Example.num G₁ text → CfgAutomatonText dbg C48Example.num G₂ text →
    ∀ w, Generates G₁ w ↔ Generates G₂ w := by
  intro h
  have h1 : CfgAutomatonText dbg C48Example.num g₁ text := by
    refine ⟨g₁, [c, a], _, mergedCfg_self (by decide) (by decide), by decide, fun t => ?_, .refl _, by decide +kernel⟩
    simp [g₁, a, c, or_comm]
  have h2 : CfgAutomatonText dbg C48Example.num g₂ text := by
    refine ⟨g₂, [c, a], _, mergedCfg_self (by decide) (by decide), by decide, fun t => ?_, .refl _, by decide +kernel⟩
    simp [g₂, a, c, or_comm]
  have h3 : Generates g₁ [a] := generates_iff.2 ⟨S, by simp [g₁], [⟨S, [.value a], 1⟩], .expand (r := ⟨S, [.value a], 1⟩) (γ := []) (by simp [g₁]) (.read .nil)⟩
  obtain ⟨S', hS, rs, h4⟩ := generates_iff.1 ((h _ _ _ h1 h2 _).1 h3)
  simp only [g₂, List.mem_singleton] at hS
  subst hS
  have key : ∀ γ : List (LetterT (List Nat) (List Nat)), γ ∈ [[.label S], [.label a], [.value c]] → ∀ rs, ¬ Leftmost g₂ γ rs [a] := by
    intro γ hγ rs h
    generalize hw : [a] = w at h
    induction h with
    | nil => cases hw
    | @read t γ rs w _ _ =>
      simp only [List.cons.injEq] at hw
      rw [← hw.1] at hγ
      revert hγ
      simp [a, c, S, C65Example.bytes]
    | @expand γ rs w r hr _ ih =>
      refine ih ?_ hw
      simp only [g₂, List.mem_cons, List.not_mem_nil, or_false] at hr
      simp only [List.mem_cons, List.not_mem_nil, or_false, List.cons.injEq, LetterT.label.injEq, reduceCtorEq, false_and] at hγ
      rcases hr with rfl | rfl | rfl
      · rcases hγ with ⟨h, rfl⟩ | ⟨h, rfl⟩
        · simp
        · exact absurd h (by decide)
      · rcases hγ with ⟨h, rfl⟩ | ⟨h, rfl⟩
        · exact absurd h (by decide)
        · simp
      · rcases hγ with ⟨h, rfl⟩ | ⟨h, rfl⟩
        · exact absurd h (by decide)
        · exact absurd h (by decide)
  exact key _ (by simp) _ h4

open C80Example C65Example in
/-- The text of the automaton of a context-free grammar. -/
example : cfgAutomatonCommand dbg C48Example.num (bytes "initial: [S]\nS -> [T a] # 1\na -> [T c] # 1\nc -> [Nt a] # 1\n") = some text := by decide +kernel

open C80Example C65Example in
/-- The weights of rules that become equal are added. -/
example : relabelAutomatonCommand dbg C48Example.num C74Example.grammar C74Example.classes = some (bytes ("initial: stack: [@ I], empty:@\n\n" ++
    "Transition [] (Replace \"(D)\" // \"(X)\", \"(a)\")  # 1\nTransition [] (Replace \"(D)\" // \"(X)\", \"(b)\")  # 1\nTransition [] (Replace \"(X)\" // \"(a)\")  # 1\n" ++
    "Transition [] (Replace \"(X)\" // \"(b)\")  # 1\nTransition [\"b\"] (Replace \"(b)\" // )  # 1\nTransition [\"a\"] (Replace \"(a)\" // )  # 1\n" ++
    "Transition [] (Replace \"I\" // \"(D)\")  # 1\n\n")) := by decide +kernel

open C80Example C65Example in
/-- The texts of the automata of `S → a`. -/
example : mcfgAutomatonCommand dbg C48Example.num (bytes "initial: [S]\nS -> [[T a]] ()\n") = some (C79Example.utf ("initial: 0\n\n" ++
    "Transition [] (Push 0 I (\"S\" → [[T \"a\"]] ()  # 1, 0, 0))  # 1\nTransition [\"a\"] (Down (\"S\" → [[T \"a\"]] ()  # 1, 0, 0) I @)  # 1\n\n")) := by decide +kernel

open C80Example C65Example in
example : ttsAutomatonCommand dbg C48Example.num (bytes "initial: [S]\nS -> [[T a]] ()\n") = some (C79Example.utf ("initial: stack: [I], empty:I\n\n" ++
    "Transition [] (Replace \"I\" // \"I\", \"(\"S\" → [[T \"a\"]] ()  # 1, 0, 0)\")  # 1\n" ++
    "Transition [\"a\"] (Replace \"(\"S\" → [[T \"a\"]] ()  # 1, 0, 0)\", \"I\" // \"@\")  # 1\n\n")) := by decide +kernel

open C80Example C65Example in
/-- The commands do not panic for these files, and `tsa recognise` cannot read the output. -/
example : (∃ text, cfgAutomatonCommand dbg C48Example.num C74Example.grammar = some text ∧ CfgAutomatonText dbg C48Example.num C74Example.g text) ∧
    (∃ text, relabelAutomatonCommand dbg C48Example.num C74Example.grammar C74Example.classes = some text ∧
      CfgAutomatonText dbg C48Example.num (relabelCfg C74Example.e.project C74Example.g) text) ∧
    ∃ text, mcfgAutomatonCommand dbg C48Example.num C75Example.grammar = some text ∧ ¬ ∃ s ts, TsaFile C48Example.num s ts text := by
  refine ⟨C80_cfg C74Example.reads, C80_relabel C74Example.reads C74Example.relation, ?_⟩
  obtain ⟨a, ha⟩ := C75Example.hasAutomaton
  obtain ⟨text, h⟩ := Option.ne_none_iff_exists'.1 fun h : mcfgAutomatonCommand dbg C48Example.num C75Example.grammar = none =>
    C80_mcfg_panic.1 h ⟨_, C75Example.reads, by simp [ha]⟩
  exact ⟨text, h, C80_not_read C75Example.reads (r := ⟨C75Example.S, [C75Example.A], [[.var 0 0, .var 0 1]], 1⟩) (by simp [C75Example.g]) (by simp [C75Example.g])
    (by decide) (by decide) h⟩

end Rustomata.Props
