import Verif.Props.CfgEnds
import Verif.Props.RuleReads

/-!
# Property C73: the command `cfg parse`

Only property theorems, the lemmas that combine them, and the examples that show their hypotheses to be satisfiable.
-/

namespace Rustomata.Props
open Rustomata Rustomata.Spec
variable {D N T W H : Type _}

section
variable [Monoid W] [AddMonoid W] {G G' : CFG (List Nat) (List Nat) W} {P : PDA (PushState (List Nat) (List Nat)) (List Nat) W}
  {ag : Agenda H (Item (PushDown Nat) (PdInstr Nat) Nat W)} {content : H → Multiset (Item (PushDown Nat) (PdInstr Nat) Nat W)} {empty : H}
  {dbg : Configuration (PushDown (PushState (List Nat) (List Nat))) (List Nat) W → List Nat}

theorem cfgSentence_some {n m : Nat} {w : List (List Nat)} {text : List Nat} (h : cfgSentence P dbg ag empty n m w = some (some text)) :
    ∃ out a, P.recognise ag empty w m = some (out, a) ∧ (n ≤ out.length ∨ ag.pop a = none) ∧ text = ((out.take n).map fun i => dbg i.conf ++ [10]).flatten := by
  unfold cfgSentence at h
  cases hrun : P.recognise ag empty w m with
  | none => rw [hrun] at h; cases h
  | some x =>
    obtain ⟨out, a⟩ := x
    rw [hrun] at h
    simp only at h
    split at h
    · rename_i hc
      cases h
      exact ⟨out, a, rfl, by simpa using hc, rfl⟩
    · cases h

theorem weightLines_eq {out : List (Item (PushDown (PushState (List Nat) (List Nat))) (PdInstr (PushState (List Nat) (List Nat))) (List Nat) W)}
    {ds : List (List Nat × List (CFGRule (List Nat) (List Nat) W))}
    (hds : List.Forall₂ (fun i d => i.conf = ⟨[], [.designated], derivationWeight G d⟩) out ds) :
    (out.map fun i => dbg i.conf ++ [10]).flatten = weightLines dbg G ds := by
  unfold weightLines
  congr 1
  induction hds with
  | nil => rfl
  | cons h _ ih => rw [List.map_cons, List.map_cons, ih, h]

/-- **C73** No panic in the loop over the parses, whatever the agenda is. -/
theorem C73_no_panic (hP : G.toPda = some P) (hG : ag.Sound content) (hempty : content empty = 0) (n m : Nat) (w : List (List Nat)) :
    ∃ r, cfgSentence P dbg ag empty n m w = some r := by
  obtain ⟨⟨out, a⟩, hrun⟩ := C22_no_panic G hP hG hempty w m
  unfold cfgSentence
  rw [hrun]
  simp only
  split
  · exact ⟨_, rfl⟩
  · exact ⟨_, rfl⟩

/-- **C73** Soundness, whatever the agenda is (e.g. with a beam): what is printed for a sentence are the weights of at most `n` leftmost derivations, none of them twice. -/
theorem C73_sentence_sound (hP : G.toPda = some P) (hM : MergedCfg G G') (hG : ag.Sound content) (hempty : content empty = 0) {n m : Nat} {w : List (List Nat)}
    {text : List Nat} (h : cfgSentence P dbg ag empty n m w = some (some text)) : ∃ ds, SomeOf (CfgDerivation G' w) n ds ∧ text = weightLines dbg G ds := by
  obtain ⟨out, a, hrun, _, rfl⟩ := cfgSentence_some h
  obtain ⟨L, _, hB⟩ := PDA.new_built hP
  obtain ⟨ds, hnd, hds⟩ := cfg_derivations hB hM hG hempty hrun
  refine ⟨ds.take n, ⟨hnd.sublist (List.take_sublist n ds), by simp, fun d hd => ?_⟩, weightLines_eq ((forall₂_take hds n).imp fun _ _ h => h.2.1)⟩
  obtain ⟨i, _, hi⟩ := forall₂_exists_left hds (List.mem_of_mem_take hd)
  exact hi.1

/-- **C73** Without a beam: the weights of the `n` best leftmost derivations are printed, the best one first, each derivation once. -/
theorem C73_sentence_best [LinearOrder W] (hP : G.toPda = some P) (hM : MergedCfg G G') (hle : ∀ r ∈ G'.rules, ∀ u : W, u * r.weight ≤ u)
    (hin : ∀ S ∈ G'.initial, ∀ u : W, u * startTotal G S ≤ u) (hG : HeapLaws ag content fun i => i.conf.weight) (hempty : content empty = 0) {n m : Nat}
    {w : List (List Nat)} {text : List Nat} (h : cfgSentence P dbg ag empty n m w = some (some text)) :
    ∃ ds, BestOf (CfgDerivation G' w) (derivationWeight G) n ds ∧ text = weightLines dbg G ds := by
  obtain ⟨out, a, hrun, hfin, rfl⟩ := cfgSentence_some h
  obtain ⟨L, _, hB⟩ := PDA.new_built hP
  obtain ⟨ds, h1, h2⟩ := cfg_best hB hM hle hin hG hempty hrun hfin
  exact ⟨ds, h1, weightLines_eq (h2.imp fun _ _ h => h.1)⟩

/-- **C73** More steps do not change what is printed. -/
theorem C73_steps (hP : G.toPda = some P) (hG : ag.Sound content) (hempty : content empty = 0) {n m m' : Nat} {w : List (List Nat)} {text : List Nat} (hm : m ≤ m')
    (h : cfgSentence P dbg ag empty n m w = some (some text)) : cfgSentence P dbg ag empty n m' w = some (some text) := by
  obtain ⟨⟨out', a'⟩, h'⟩ := C22_no_panic G hP hG hempty w m'
  obtain ⟨out, a, hrun, hfin, rfl⟩ := cfgSentence_some h
  obtain ⟨out₁, a₁, h1, h2, h3⟩ := Automaton.recogniseOuter_mono h' hm
  have := h1.symm.trans hrun
  simp only [Option.some.injEq, Prod.mk.injEq] at this
  obtain ⟨rfl, rfl⟩ := this
  unfold cfgSentence
  rw [h']
  simp only
  rcases hfin with hn | hp
  · obtain ⟨l, rfl⟩ := h2
    rw [if_pos (.inl (by simp; omega)), List.take_append_of_le_length hn]
  · obtain ⟨rfl, rfl⟩ := h3 hp
    rw [if_pos (.inr (by rw [hp]; rfl))]

/-- **C73** The loop over the parses finishes if no left recursive nonterminal is exposed, for each number of parses. -/
theorem C73_sentence_ends (hP : G.toPda = some P) (hG : ag.Sound content) (hempty : content empty = 0) (n : Nat) {w : List (List Nat)}
    (hl : ∀ v A, v <+: w → Exposed G v A → ¬ CfgLeftRecursive G A) : ∃ text m₀, ∀ m ≥ m₀, cfgSentence P dbg ag empty n m w = some (some text) := by
  obtain ⟨m₀, hm⟩ := C72_ends G hP hG hempty hl
  obtain ⟨out, a, hrun, hend⟩ := hm m₀ (le_refl _)
  refine ⟨((out.take n).map fun i => dbg i.conf ++ [10]).flatten, m₀, fun m hm' => C73_steps hP hG hempty hm' ?_⟩
  unfold cfgSentence
  rw [hrun]
  simp only
  rw [if_pos (.inr (by rw [hend]; rfl))]

end

theorem exists_minimal_weight [LinearOrder W] (weight : D → W) {ds : List D} (h : ds ≠ []) : ∃ d ∈ ds, ∀ e ∈ ds, weight d ≤ weight e := by
  induction ds with
  | nil => exact absurd rfl h
  | cons d ds ih =>
    by_cases hd : ds = []
    · subst hd
      exact ⟨d, by simp, by simp⟩
    · obtain ⟨e, he, hm⟩ := ih hd
      by_cases hle : weight d ≤ weight e
      · refine ⟨d, by simp, fun x hx => ?_⟩
        rcases List.mem_cons.1 hx with rfl | hx
        · exact le_refl _
        · exact le_trans hle (hm x hx)
      · refine ⟨e, by simp [he], fun x hx => ?_⟩
        rcases List.mem_cons.1 hx with rfl | hx
        · exact le_of_lt (not_le.1 hle)
        · exact hm x hx

/-- **C73** With left recursion, the loop finishes if there are `n` derivations below whose weights the products of rule weights fall. -/
theorem C73_sentence_fair [CommMonoid W] [AddMonoid W] [LinearOrder W] {G G' : CFG (List Nat) (List Nat) W} {P : PDA (PushState (List Nat) (List Nat)) (List Nat) W}
    {ag : Agenda H (Item (PushDown Nat) (PdInstr Nat) Nat W)} {content : H → Multiset (Item (PushDown Nat) (PdInstr Nat) Nat W)} {empty : H}
    {dbg : Configuration (PushDown (PushState (List Nat) (List Nat))) (List Nat) W → List Nat} (hP : G.toPda = some P) (hM : MergedCfg G G')
    (hle : ∀ r ∈ G'.rules, ∀ u : W, u * r.weight ≤ u) (hin : ∀ S ∈ G'.initial, ∀ u : W, u * startTotal G S ≤ u)
    (hG : HeapLaws ag content fun i => i.conf.weight) (hempty : content empty = 0) {w : List (List Nat)} {ds : List (List Nat × List (CFGRule (List Nat) (List Nat) W))}
    (hds : SomeOf (CfgDerivation G' w) ds.length ds) (hf : ∀ d ∈ ds, Fades (G'.rules.map CFGRule.weight) (derivationWeight G d)) :
    ∃ text m₀, ∀ m ≥ m₀, cfgSentence P dbg ag empty ds.length m w = some (some text) := by
  have hex : ∃ m₀, ∀ m ≥ m₀, ∃ out a, P.recognise ag empty w m = some (out, a) ∧ ds.length ≤ out.length := by
    have hmin : ∃ m₀, ∀ m ≥ m₀, ∃ out a es, P.recognise ag empty w m = some (out, a) ∧
        List.Forall₂ (fun i d => CfgDerivation G' w d ∧ i.conf = ⟨[], [.designated], derivationWeight G d⟩) out es ∧ ds ⊆ es := by
      by_cases hne : ds = []
      · subst hne
        refine ⟨0, fun m _ => ?_⟩
        obtain ⟨⟨out, a⟩, hrun⟩ := C22_no_panic G hP hG.lossless.sound hempty w m
        obtain ⟨_, _, hB⟩ := PDA.new_built hP
        obtain ⟨es, _, hes⟩ := cfg_derivations hB hM hG.lossless.sound hempty hrun
        exact ⟨out, a, es, hrun, hes.imp fun _ _ h => ⟨h.1, h.2.1⟩, by simp⟩
      · obtain ⟨d₀, hd₀, hmin⟩ := exists_minimal_weight (derivationWeight G) hne
        obtain ⟨m₀, hm⟩ := C72_fair G G' hP hM hle hin (hf d₀ hd₀) hG hempty w
        refine ⟨m₀, fun m hm' => ?_⟩
        obtain ⟨out, a, es, hrun, _, hes, h1⟩ := hm m hm'
        exact ⟨out, a, es, hrun, hes, fun d hd => h1 d (hds.all d hd) (hmin d hd)⟩
    obtain ⟨m₀, hm⟩ := hmin
    refine ⟨m₀, fun m hm' => ?_⟩
    obtain ⟨out, a, es, hrun, hes, hsub⟩ := hm m hm'
    refine ⟨out, a, hrun, ?_⟩
    rw [hes.length_eq]
    exact (hds.nodup.subperm hsub).length_le
  obtain ⟨m₀, hm⟩ := hex
  obtain ⟨out, a, hrun, hend⟩ := hm m₀ (le_refl _)
  refine ⟨((out.take ds.length).map fun i => dbg i.conf ++ [10]).flatten, m₀, fun m hm' => C73_steps hP hG.lossless.sound hempty hm' ?_⟩
  unfold cfgSentence
  rw [hrun]
  simp only
  rw [if_pos (.inl hend)]

/-! ### The command -/

section
variable [Monoid W] [AddMonoid W] {P : PDA (PushState (List Nat) (List Nat)) (List Nat) W} {ag : Agenda H (Item (PushDown Nat) (PdInstr Nat) Nat W)} {empty : H}
  {dbg : Configuration (PushDown (PushState (List Nat) (List Nat))) (List Nat) W → List Nat} {n m : Nat}

theorem cfgLines_some {ls : List (List Nat)} {text : List Nat} (h : cfgLines P dbg ag empty n m ls = some (some text)) :
    ∃ answers, List.Forall₂ (fun x answer => cfgSentence P dbg ag empty n m (splitWhite x) = some (some answer)) ls answers ∧
      text = (answers.map fun t => t ++ [10]).flatten := by
  induction ls generalizing text with
  | nil => cases h; exact ⟨[], .nil, rfl⟩
  | cons line ls ih =>
    unfold cfgLines at h
    split at h
    · cases h
    · cases h
    · rename_i t ht
      obtain ⟨o, h1, h2⟩ := Option.map_eq_some_iff.1 h
      obtain ⟨rest, rfl, rfl⟩ := Option.map_eq_some_iff.1 h2
      obtain ⟨answers, h3, rfl⟩ := ih h1
      exact ⟨t :: answers, .cons ht h3, by simp⟩

theorem cfgLines_no_panic {ls : List (List Nat)} (h : ∀ x ∈ ls, ∃ r, cfgSentence P dbg ag empty n m (splitWhite x) = some r) :
    ∃ r, cfgLines P dbg ag empty n m ls = some r := by
  induction ls with
  | nil => exact ⟨_, rfl⟩
  | cons x ls ih =>
    obtain ⟨r, hr⟩ := h x (by simp)
    obtain ⟨r', hr'⟩ := ih fun x hx => h x (by simp [hx])
    unfold cfgLines
    rw [hr]
    cases r with
    | none => exact ⟨_, rfl⟩
    | some t => simp only [hr', Option.map_some]; exact ⟨_, rfl⟩

theorem cfgLines_finishes {ls : List (List Nat)} (h : ∀ x ∈ ls, ∃ text m₀, ∀ m ≥ m₀, cfgSentence P dbg ag empty n m (splitWhite x) = some (some text)) :
    ∃ text m₀, ∀ m ≥ m₀, cfgLines P dbg ag empty n m ls = some (some text) := by
  induction ls with
  | nil => exact ⟨[], 0, fun _ _ => rfl⟩
  | cons x ls ih =>
    obtain ⟨t, m₁, h1⟩ := h x (by simp)
    obtain ⟨ts, m₂, h2⟩ := ih fun x hx => h x (by simp [hx])
    refine ⟨t ++ [10] ++ ts, max m₁ m₂, fun m hm => ?_⟩
    unfold cfgLines
    rw [h1 m (le_trans (le_max_left _ _) hm)]
    simp only
    rw [h2 m (le_trans (le_max_right _ _) hm)]
    rfl

theorem cfgCommand_lines {cw : Codec W} {G : CFG (List Nat) (List Nat) W} {grammar corpus : List Nat}
    (hgr : GrammarFile stringCodec (CfgRuleReads stringCodec stringCodec cw) G.initial G.rules grammar) (hP : G.toPda = some P) :
    cfgCommand cw dbg ag empty n m grammar corpus = cfgLines P dbg ag empty n m (lines corpus) := by
  unfold cfgCommand
  rw [C65_cfg.2 hgr]
  simp only
  rw [hP, Option.bind_some]

/-- What holds for the output of each sentence holds for the output of the command. -/
theorem cfgCommand_answers {cw : Codec W} {G : CFG (List Nat) (List Nat) W} {grammar corpus : List Nat}
    (hgr : GrammarFile stringCodec (CfgRuleReads stringCodec stringCodec cw) G.initial G.rules grammar) (hP : G.toPda = some P) {ls : List (List Nat)}
    (hls : LinesOf ls corpus) {R : List (List Nat) → List Nat → Prop}
    (hR : ∀ line ∈ ls, ∀ w, WordsText w line → (∃ r, cfgSentence P dbg ag empty n m w = some r) ∧
      ∀ text, cfgSentence P dbg ag empty n m w = some (some text) → R w text) :
    ∃ r, cfgCommand cw dbg ag empty n m grammar corpus = some r ∧ ∀ text, r = some text → ∃ answers : List (List Nat),
      List.Forall₂ (fun line answer => ∃ w, WordsText w line ∧ R w answer) ls answers ∧ text = (answers.map fun t => t ++ [10]).flatten := by
  rw [cfgCommand_lines hgr hP, lines_iff.2 hls]
  obtain ⟨r, hr⟩ := cfgLines_no_panic (P := P) (dbg := dbg) (ag := ag) (empty := empty) (n := n) (m := m) (ls := ls) (fun x hx => (hR x hx _ (splitWhite_iff.1 rfl)).1)
  refine ⟨r, hr, ?_⟩
  rintro text rfl
  obtain ⟨answers, h1, rfl⟩ := cfgLines_some hr
  refine ⟨answers, ?_, rfl⟩
  clear hr hls
  induction h1 with
  | nil => exact .nil
  | @cons line answer ls answers h1 h2 ih =>
    have hw := splitWhite_iff.1 (rfl : splitWhite line = splitWhite line)
    exact .cons ⟨_, hw, (hR line (by simp) _ hw).2 _ h1⟩ (ih fun x hx => hR x (by simp [hx]))

variable {G G' : CFG (List Nat) (List Nat) W} {content : H → Multiset (Item (PushDown Nat) (PdInstr Nat) Nat W)}

/-- **C73** The command with a beam, or with any other agenda: the lines are answered one after the other, each answer followed by an empty line, and the answers are the
weights of at most `n` derivations. There is no panic. -/
theorem C73_command_sound {cw : Codec W} {grammar corpus : List Nat}
    (hgr : GrammarFile stringCodec (CfgRuleReads stringCodec stringCodec cw) G.initial G.rules grammar) (hM : MergedCfg G G') (hG : ag.Sound content)
    (hempty : content empty = 0) {ls : List (List Nat)} (hls : LinesOf ls corpus) :
    ∃ r, cfgCommand cw dbg ag empty n m grammar corpus = some r ∧ ∀ text, r = some text → ∃ answers : List (List Nat),
      List.Forall₂ (fun line answer => ∃ w, WordsText w line ∧ ∃ ds, SomeOf (CfgDerivation G' w) n ds ∧ answer = weightLines dbg G ds) ls answers ∧
      text = (answers.map fun t => t ++ [10]).flatten := by
  obtain ⟨P, hP⟩ := CFG.toPda_some (W := W) G
  exact cfgCommand_answers (R := fun w answer => ∃ ds, SomeOf (CfgDerivation G' w) n ds ∧ answer = weightLines dbg G ds) hgr hP hls fun line _ w _ =>
    ⟨C73_no_panic hP hG hempty n m w, fun text h => C73_sentence_sound hP hM hG hempty h⟩

/-- **C73** The command without a beam: the answer to each line are the weights of the `n` best derivations. -/
theorem C73_command_best [LinearOrder W] {cw : Codec W} {grammar corpus : List Nat}
    (hgr : GrammarFile stringCodec (CfgRuleReads stringCodec stringCodec cw) G.initial G.rules grammar) (hM : MergedCfg G G')
    (hle : ∀ r ∈ G'.rules, ∀ u : W, u * r.weight ≤ u) (hin : ∀ S ∈ G'.initial, ∀ u : W, u * startTotal G S ≤ u)
    (hG : HeapLaws ag content fun i => i.conf.weight) (hempty : content empty = 0) {ls : List (List Nat)} (hls : LinesOf ls corpus) :
    ∃ r, cfgCommand cw dbg ag empty n m grammar corpus = some r ∧ ∀ text, r = some text → ∃ answers : List (List Nat),
      List.Forall₂ (fun line answer => ∃ w, WordsText w line ∧ ∃ ds, BestOf (CfgDerivation G' w) (derivationWeight G) n ds ∧ answer = weightLines dbg G ds) ls answers ∧
      text = (answers.map fun t => t ++ [10]).flatten := by
  obtain ⟨P, hP⟩ := CFG.toPda_some (W := W) G
  exact cfgCommand_answers (R := fun w answer => ∃ ds, BestOf (CfgDerivation G' w) (derivationWeight G) n ds ∧ answer = weightLines dbg G ds) hgr hP hls fun line _ w _ =>
    ⟨C73_no_panic hP hG.lossless.sound hempty n m w, fun text h => C73_sentence_best hP hM hle hin hG hempty h⟩

/-- **C73** Total correctness: if no left recursive nonterminal is exposed by the lines of the input, the command finishes and prints the weights of the `n` best
derivations of each line. -/
theorem C73_command_total [LinearOrder W] {cw : Codec W} {grammar corpus : List Nat}
    (hgr : GrammarFile stringCodec (CfgRuleReads stringCodec stringCodec cw) G.initial G.rules grammar) (hM : MergedCfg G G')
    (hle : ∀ r ∈ G'.rules, ∀ u : W, u * r.weight ≤ u) (hin : ∀ S ∈ G'.initial, ∀ u : W, u * startTotal G S ≤ u)
    (hG : HeapLaws ag content fun i => i.conf.weight) (hempty : content empty = 0) {ls : List (List Nat)} (hls : LinesOf ls corpus)
    (hl : ∀ line ∈ ls, ∀ w, WordsText w line → ∀ v A, v <+: w → Exposed G v A → ¬ CfgLeftRecursive G A) (n : Nat) :
    ∃ answers : List (List Nat),
      List.Forall₂ (fun line answer => ∃ w, WordsText w line ∧ ∃ ds, BestOf (CfgDerivation G' w) (derivationWeight G) n ds ∧ answer = weightLines dbg G ds) ls answers ∧
      ∃ m₀, ∀ m ≥ m₀, cfgCommand cw dbg ag empty n m grammar corpus = some (some (answers.map fun t => t ++ [10]).flatten) := by
  obtain ⟨P, hP⟩ := CFG.toPda_some (W := W) G
  obtain ⟨text, m₀, hm⟩ := cfgLines_finishes (P := P) (dbg := dbg) (ag := ag) (empty := empty) (n := n) (ls := ls) fun x hx =>
    C73_sentence_ends hP hG.lossless.sound hempty n (hl x hx _ (splitWhite_iff.1 rfl))
  have hm' : ∀ m ≥ m₀, cfgCommand cw dbg ag empty n m grammar corpus = some (some text) := by
    intro m hm'
    rw [cfgCommand_lines hgr hP, lines_iff.2 hls]
    exact hm m hm'
  obtain ⟨r, hr, hcor⟩ := C73_command_best (dbg := dbg) (n := n) (m := m₀) hgr hM hle hin hG hempty hls
  rw [hm' m₀ (le_refl _)] at hr
  obtain ⟨answers, h1, rfl⟩ := hcor text (Option.some.inj hr).symm
  exact ⟨answers, h1, m₀, hm'⟩

/-- **C73** The command panics if and only if the file is not a grammar. -/
theorem C73_grammar {cw : Codec W} {grammar corpus : List Nat} (hG : ag.Sound content) (hempty : content empty = 0) :
    cfgCommand cw dbg ag empty n m grammar corpus = none ↔
      ¬ ∃ G : CFG (List Nat) (List Nat) W, GrammarFile stringCodec (CfgRuleReads stringCodec stringCodec cw) G.initial G.rules grammar := by
  constructor
  · rintro h ⟨G, hgr⟩
    obtain ⟨G', hM⟩ := exists_mergedCfg G
    obtain ⟨r, hr, _⟩ := C73_command_sound (dbg := dbg) (n := n) (m := m) hgr hM hG hempty (lines_iff.1 (rfl : lines corpus = lines corpus))
    rw [h] at hr
    cases hr
  · intro h
    unfold cfgCommand
    split
    · rename_i G hg
      exact absurd ⟨G, C65_cfg.1 hg⟩ h
    · rfl

end

namespace C73Example
open C48Example C65Example

/-- `S → a S b`, `S → ε`, where the second rule occurs twice. -/
def grammar : List Nat := bytes "initial: [S]\nS -> [T a, Nt S, T b] # 1\nS -> []\nS -> [] # 0\n"

def S := bytes "S"
def a := bytes "a"
def b := bytes "b"

def g : CFG (List Nat) (List Nat) Nat := ⟨[S], [⟨S, [.value a, .label S, .value b], 1⟩, ⟨S, [], 1⟩, ⟨S, [], 0⟩]⟩

def g' : CFG (List Nat) (List Nat) Nat := ⟨[S], [⟨S, [.value a, .label S, .value b], 1⟩, ⟨S, [], 1⟩]⟩

theorem reads : GrammarFile stringCodec (CfgRuleReads stringCodec stringCodec num) g.initial g.rules grammar := (grammarFromStr_iff fun _ _ => C65_cfg_rule).1 (by decide +kernel)

theorem merged : MergedCfg g g' where
  initial_nodup := by decide +kernel
  initial_mem _ := Iff.rfl
  nodup := by decide +kernel
  mem r := by
    obtain ⟨A, γ, v⟩ := r
    simp only [g, g', List.mem_cons, List.not_mem_nil, or_false, CFGRule.mk.injEq, exists_eq_or_imp, exists_eq_left]
    constructor
    · rintro (⟨rfl, rfl, rfl⟩ | ⟨rfl, rfl, rfl⟩)
      · exact ⟨by simp, by decide +kernel⟩
      · exact ⟨by simp, by decide +kernel⟩
    · rintro ⟨⟨rfl, rfl⟩ | ⟨rfl, rfl⟩ | ⟨rfl, rfl⟩, rfl⟩
      · exact .inl ⟨rfl, rfl, by decide +kernel⟩
      · exact .inr ⟨rfl, rfl, by decide +kernel⟩
      · exact .inr ⟨rfl, rfl, by decide +kernel⟩

theorem notLeft (A : List Nat) : ¬ CfgLeftRecursive g A := by
  intro h
  obtain ⟨B, ⟨r, hr, _, α, β, hc, hv⟩, _⟩ := Relation.TransGen.head'_iff.1 h
  simp only [g, List.mem_cons, List.not_mem_nil, or_false] at hr
  obtain ⟨rs, hl⟩ := yields_iff.1 hv
  rcases hr with rfl | rfl | rfl
  · cases α with
    | nil => simp at hc
    | cons x α =>
      simp only [List.cons_append, List.cons.injEq] at hc
      obtain ⟨rfl, _⟩ := hc
      cases hl
  · simp at hc
  · simp at hc

/-- The command finishes for each input, and prints the weights of the `n` best derivations. -/
example (dbg : Configuration (PushDown (PushState (List Nat) (List Nat))) (List Nat) Nat → List Nat) (n : Nat) {ls : List (List Nat)} {corpus : List Nat}
    (hls : LinesOf ls corpus) : ∃ answers : List (List Nat),
      List.Forall₂ (fun line answer => ∃ w, WordsText w line ∧ ∃ ds, BestOf (CfgDerivation g' w) (derivationWeight g) n ds ∧ answer = weightLines dbg g ds) ls answers ∧
      ∃ m₀, ∀ m ≥ m₀, cfgCommand num dbg (listHeap fun i => i.conf.weight) [] n m grammar corpus = some (some (answers.map fun t => t ++ [10]).flatten) :=
  C73_command_total reads merged (fun r hr u => by rw [(by decide +kernel : ∀ r ∈ g'.rules, r.weight = 1) r hr, Nat.mul_one])
    (fun S hS u => by rw [startTotal_of_nodup (G := g) (by decide +kernel) hS, Nat.mul_one]) (listHeap_laws _) rfl hls (fun _ _ _ _ _ A _ _ => notLeft A) n

/-- Test: the output for `a b`, a blank line, and `b`. -/
example : cfgCommand num (fun c => natText c.weight) (listHeap fun i => i.conf.weight) [] 2 20 grammar (bytes "a b\n\nb\n") = some (some (bytes "1\n\n1\n\n\n")) := by
  decide +kernel

end C73Example

end Rustomata.Props
