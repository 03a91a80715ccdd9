import Verif.Proofs.CsMainStream
import Verif.Props.CsAny

/-!
# Property C91: the Chomsky-Schützenberger parser for grammars with cycles and arbitrary terminal rules
-/

namespace Rustomata.Props
open Spec

section
variable {N T W : Type _} [DecidableEq N] [DecidableEq T] [LinearOrderedCommMonoidWithZero W] {factorize : W → Nat → List W}
  {rules : List (Nat × PMCFGRule N T W)} {init : N} {A : CsAutomaton T W}

/-- **C91** For charts whose weights are those of one of the ways to reach the item, and if each cycle of chain rules lowers the weights: each call of the iterator ends, and
returns a derivation in the chart or nothing; after nothing it returns nothing. -/
theorem C91_enumerates (h : CsAutomaton.fromGrammar factorize rules init = some A) (hi : A.initial < A.states) {filter : List Bool}
    (hf : filter.length = A.brackets.length) {chart : DenseChart W} {n : Nat}
    (hget : ∀ i j q, i < j → j ≤ n → q < A.states → ∃ o, chart.getWeight i j q = some o)
    (hreach : ChartReached (buGrammar A filter) (chartWeight chart) n A.states) (hcyc : CyclesLower (buGrammar A filter)) (hn0 : 0 < n) (hn : n ≤ 255) :
    ∃ ts, EnumeratesStream A chart filter n ts := by
  obtain ⟨st, ps, h1, h2, _⟩ := CsAutomaton.fromGrammar_rep h
  obtain ⟨ts, h3, _⟩ := enumeratesStream h1 h2 hi hf hget hreach hcyc hn0 hn
  exact ⟨ts, h3⟩

/-- **C91** for the charts that `fill_chart` computes, for all weights, beams and sentences. -/
theorem C91_filled (h : CsAutomaton.fromGrammar factorize rules init = some A) (hi : A.initial < A.states) {word : List T} {beam : Nat} {delta : W}
    {outs : SxOutside W} {filter : List Bool} (hf : filter.length = A.brackets.length) {chart : DenseChart W}
    (hc : fillChart A word beam delta outs filter = some chart) (hcyc : CyclesLower (buGrammar A filter)) (hn0 : 0 < word.length) (hn : word.length ≤ 255) :
    ∃ ts, EnumeratesStream A chart filter word.length ts := by
  obtain ⟨st, ps, h1, h2, _⟩ := CsAutomaton.fromGrammar_rep h
  obtain ⟨hget, hreach⟩ := fillChart_reached h2.buWF hn hc
  exact C91_enumerates h hi hf hget hreach hcyc hn0 hn

/-- **C91** If the weights are at most one and not zero and the repetitions of cycles vanish, then each derivation in the chart is returned after finitely many calls of the
iterator, whatever the weights of the chart are among those that can be reached. -/
theorem C91_complete [NoZeroDivisors W] (h : CsAutomaton.fromGrammar factorize rules init = some A) (hi : A.initial < A.states) {filter : List Bool}
    (hf : filter.length = A.brackets.length) {chart : DenseChart W} {n : Nat}
    (hget : ∀ i j q, i < j → j ≤ n → q < A.states → ∃ o, chart.getWeight i j q = some o)
    (hreach : ChartReached (buGrammar A filter) (chartWeight chart) n A.states) (hle : RulesLeOne (buGrammar A filter)) (hnz : RulesNeZero (buGrammar A filter))
    (hcyc : CyclesVanish (buGrammar A filter)) (hone : ∀ i j q w, i < j → j ≤ n → q < A.states → chart.getWeight i j q = some (some w) → w ≤ 1)
    (hn0 : 0 < n) (hn : n ≤ 255) :
    ∃ ts, EnumeratesStream A chart filter n ts ∧
      ∀ t w, ChartDerives (buGrammar A filter) (fun i j q => ∃ w, chart.getWeight i j q = some (some w)) 0 n A.initial t w → ∃ k, ts k = some t := by
  obtain ⟨st, ps, h1, h2, _⟩ := CsAutomaton.fromGrammar_rep h
  obtain ⟨ts, h3, h4⟩ := enumeratesStream h1 h2 hi hf hget hreach (cyclesLower_of_vanish hle.2.1 hcyc) hn0 hn
  exact ⟨ts, h3, h4 inferInstance hle hnz hcyc hone⟩

end

section
variable {N T W : Type _} [DecidableEq N] [DecidableEq T] [LinearOrderedCommMonoidWithZero W] {factorize : W → Nat → List W}
  {order : Nat → List Nat → List Nat} {g : Lcfrs N T W} {width : Nat} {R : CsRep N T W}

/-- **C91** The condition on cycles holds for grammars without cycles. -/
theorem C91_no_cycle (h : NoVariableCycle g.rules) : VariableCyclesLower factorize g.rules ∧ VariableCyclesVanish factorize g.rules := by
  obtain ⟨rank, hr⟩ := h
  have key : ∀ {A c B j v}, VariablePath factorize g.rules A c B j v → rank B j < rank A c := by
    intro A c B j v h
    induction h with
    | one h1 h2 h3 _ => exact hr _ h1 _ _ _ _ h2 h3
    | cons h1 h2 h3 _ _ ih => exact lt_trans ih (hr _ h1 _ _ _ _ h2 h3)
  exact ⟨fun A c v x h => absurd (key h) (lt_irrefl _), fun A c v x y h => absurd (key h) (lt_irrefl _)⟩

/-- **C91** for all beams and all `delta`: if cycles lower the weights, then the first `m` calls end for each `m`, and their results are derivations of sentences with the same
number of words. -/
theorem C91_pruned (hR : CsRep.new factorize order g width = some R) (ho : HashOrder order) (hfac : Factorizes factorize)
    (hg : ParserGrammar g.rules g.init) (hw : FactorsLeOne factorize (indexed g.rules)) (hcyc : VariableCyclesLower factorize g.rules) {word : List T}
    (hn0 : 0 < word.length) (hn : word.length ≤ 255) {o : CsOptions W} (hb0 : 0 < o.beam.getD R.generator.states)
    (hb : o.beam.getD R.generator.states ≤ 65535) (m : Nat) :
    ∃ ds out, ParsedLength g.rules g.init word ds out ∧ ∃ fuel₀, ∀ fuel ≥ fuel₀, R.parses o word fuel m = some out := by
  obtain ⟨ds, out, h1, _⟩ := parses_stream hR ho hfac hg hw hcyc hn0 hn hb0 hb
  exact ⟨ds m, out m, (h1 m).1, (h1 m).2⟩

/-- **C91** If the repetitions of cycles vanish, then the parser without pruning returns each derivation of the sentence after finitely many calls. -/
theorem C91_fair [NoZeroDivisors W] (hR : CsRep.new factorize order g width = some R) (ho : HashOrder order) (hfac : Factorizes factorize)
    (hg : ParserGrammar g.rules g.init) (hw : FactorsLeOne factorize (indexed g.rules)) (h0 : FactorsNeZero factorize g.rules)
    (hcyc : VariableCyclesLower factorize g.rules) (hvan : VariableCyclesVanish factorize g.rules) (hs : R.generator.states ≤ 65535) {word : List T}
    (hn0 : 0 < word.length) (hn : word.length ≤ 255) {o : CsOptions W} (hb : o.beam = none) (hd : o.delta = 0) (hc : o.candidates = none)
    {e : DTree Nat} {d : DTree (PMCFGRule N T W)} (hnum : Numbers g.rules e d) (hder : Derives g.rules g.init d [word]) :
    ∃ M, ∀ m ≥ M, ∃ ds out, ParsedLength g.rules g.init word ds out ∧ (e, d) ∈ ds ∧ ∃ fuel₀, ∀ fuel ≥ fuel₀, R.parses o word fuel m = some out := by
  have hpos := states_pos hR hfac hg
  obtain ⟨ds, out, h1, h2⟩ := parses_stream hR ho hfac hg hw hcyc hn0 hn (o := o) (by rw [hb]; exact hpos) (by rw [hb]; exact hs)
  obtain ⟨M, hM⟩ := h2 inferInstance h0 (by rw [hb]; exact le_refl _) hd hc hvan e d hnum hder
  exact ⟨M, fun m hm => ⟨ds m, out m, (h1 m).1, hM m hm, (h1 m).2⟩⟩

/-- **C91** If the sentence has a derivation, then the parser without pruning returns it. -/
theorem C91_answers [NoZeroDivisors W] (hR : CsRep.new factorize order g width = some R) (ho : HashOrder order) (hfac : Factorizes factorize)
    (hg : ParserGrammar g.rules g.init) (hw : FactorsLeOne factorize (indexed g.rules)) (h0 : FactorsNeZero factorize g.rules)
    (hcyc : VariableCyclesLower factorize g.rules) (hvan : VariableCyclesVanish factorize g.rules) (hs : R.generator.states ≤ 65535) {word : List T}
    (hn0 : 0 < word.length) (hn : word.length ≤ 255) {d : DTree (PMCFGRule N T W)} (hder : Derives g.rules g.init d [word]) :
    ∃ M, ∀ m ≥ M, ∃ out, (∃ t ∈ out, t.Sorted ∧ ∀ p, t.get p = d.at? p) ∧ ∃ fuel₀, ∀ fuel ≥ fuel₀, R.parses .default word fuel m = some out := by
  obtain ⟨e, he⟩ := exists_numbers hder
  obtain ⟨M, hM⟩ := C91_fair hR ho hfac hg hw h0 hcyc hvan hs hn0 hn (o := .default) rfl rfl rfl he hder
  refine ⟨M, fun m hm => ?_⟩
  obtain ⟨ds, out, h1, h2, h3⟩ := hM m hm
  obtain ⟨i, hi⟩ := List.getElem?_of_mem h2
  obtain ⟨hlt, hi⟩ := List.getElem?_eq_some_iff.1 hi
  have hlt' : i < out.length := by rw [← h1.2.length_eq]; exact hlt
  have h5 := (List.forall₂_iff_get.1 h1.2).2 i hlt hlt'
  simp only [List.get_eq_getElem, hi] at h5
  exact ⟨out, ⟨out[i], List.getElem_mem _, h5⟩, h3⟩

end

section
variable {N T : Type _} [DecidableEq N] [DecidableEq T] {order : Nat → List Nat → List Nat} {width : Nat} {g : Lcfrs N T NNReal} {R : CsRep N T NNReal}

/-- **C91** For grammars with probabilities in which no cycle has the weight one: the calls of the parser without pruning end, return derivations of sentences with the same
number of words, and return each derivation of the sentence. -/
theorem C91_probabilities (hR : CsRep.new logFactorize order g width = some R) (ho : HashOrder order) (hg : ParserGrammar g.rules g.init)
    (hp : Probabilities g.rules) (hcyc : ∀ A c, ¬ VariablePath logFactorize g.rules A c A c 1) (hs : R.generator.states ≤ 65535) {word : List T}
    (hn0 : 0 < word.length) (hn : word.length ≤ 255) {o : CsOptions NNReal} (hb : o.beam = none) (hd : o.delta = 0) :
    (∀ m, ∃ ds out, ParsedLength g.rules g.init word ds out ∧ ∃ fuel₀, ∀ fuel ≥ fuel₀, R.parses o word fuel m = some out) ∧
    (o.candidates = none → ∀ e d, Numbers g.rules e d → Derives g.rules g.init d [word] →
      ∃ M, ∀ m ≥ M, ∃ ds out, ParsedLength g.rules g.init word ds out ∧ (e, d) ∈ ds ∧ ∃ fuel₀, ∀ fuel ≥ fuel₀, R.parses o word fuel m = some out) := by
  obtain ⟨h1, h2⟩ := C81_probability_cycles hp hcyc
  obtain ⟨h3, h4⟩ := probabilities_factors hp
  have hpos := states_pos hR C67_factorize hg
  exact ⟨C91_pruned hR ho C67_factorize hg h3 h1 hn0 hn (by rw [hb]; exact hpos) (by rw [hb]; exact hs),
    fun hc e d => C91_fair hR ho C67_factorize hg h3 h4 h1 h2 hs hn0 hn hb hd hc⟩

end

namespace C91Example
open C81Example (Z half factorize)

/-- `S → X Y`, `S → S` with weight 1/2, `X → Y Y`, `Y → a` with weight 1/2, `Y → b`. -/
def rulesFor {W : Type} (w v u x y : W) : List (PMCFGRule Nat Nat W) :=
  [⟨0, [1, 2], [[.var 0 0, .var 1 0]], w⟩, ⟨0, [0], [[.var 0 0]], v⟩, ⟨1, [2, 2], [[.var 0 0, .var 1 0]], u⟩, ⟨2, [], [[.t 7]], x⟩, ⟨2, [], [[.t 8]], y⟩]

theorem grammar {W : Type} {w v u x y : W} : ParserGrammar (rulesFor w v u x y) 0 where
  lcfrs := ⟨fun A => if A = 0 ∨ A = 1 ∨ A = 2 then some 1 else none, by
    refine ⟨fun A f => ?_, rfl, fun r hr => ?_⟩
    · match A with
      | 0 => simp [rulesFor, eq_comm]
      | 1 => simp [rulesFor, eq_comm]
      | 2 => simp [rulesFor, eq_comm]
      | A + 3 => simp [rulesFor]
    · simp only [rulesFor, List.mem_cons, List.not_mem_nil, or_false] at hr
      rcases hr with rfl | rfl | rfl | rfl | rfl
      · refine ⟨by simp [varsOf], fun i j => ?_⟩
        match i with
        | 0 => simp [varsOf]
        | 1 => simp [varsOf]
        | i + 2 => simp [varsOf]
      · refine ⟨by simp [varsOf], fun i j => ?_⟩
        match i with
        | 0 => simp [varsOf]
        | i + 1 => simp [varsOf]
      · refine ⟨by simp [varsOf], fun i j => ?_⟩
        match i with
        | 0 => simp [varsOf]
        | 1 => simp [varsOf]
        | i + 2 => simp [varsOf]
      · exact ⟨by simp [varsOf], fun i j => by simp [varsOf]⟩
      · exact ⟨by simp [varsOf], fun i j => by simp [varsOf]⟩⟩
  normal := by simp [NormalForm, rulesFor]
  closed := by simp [rulesFor]

def g : Lcfrs Nat Nat Z := ⟨rulesFor 1 half 1 half 1, 0⟩

noncomputable def gp : Lcfrs Nat Nat NNReal := ⟨rulesFor (1 / 2) (1 / 2) 1 (1 / 2) (1 / 2), 0⟩

theorem half_le : (1 / 2 : NNReal) ≤ 1 := by rw [← NNReal.coe_le_coe]; norm_num

theorem probabilities : Probabilities gp.rules := by
  intro r hr
  simp only [gp, rulesFor, List.mem_cons, List.not_mem_nil, or_false] at hr
  rcases hr with rfl | rfl | rfl | rfl | rfl
  · exact ⟨by simp, half_le⟩
  · exact ⟨by simp, half_le⟩
  · exact ⟨by simp, by simp⟩
  · exact ⟨by simp, half_le⟩
  · exact ⟨by simp, half_le⟩

theorem path_lt {A B : Nat} {c j : Nat} {v : NNReal} (h : VariablePath logFactorize gp.rules A c B j v) : v < 1 := by
  have key : ∀ r ∈ gp.rules, ∀ (c i j : Nat) f, r.composition[c]? = some [.var i j] → (logFactorize r.weight r.composition.length)[c]? = some f → f < 1 := by
    intro r hr c i j f hc hf
    simp only [gp, rulesFor, List.mem_cons, List.not_mem_nil, or_false] at hr
    rcases hr with rfl | rfl | rfl | rfl | rfl
    · cases c <;> simp at hc
    · have := List.mem_of_getElem? hf
      rw [logFactorize, List.mem_replicate] at this
      rw [this.2]
      simp only [List.length_singleton, Nat.cast_one, div_one, NNReal.rpow_one]
      rw [← NNReal.coe_lt_coe]
      norm_num
    · cases c <;> simp at hc
    · cases c <;> simp at hc
    · cases c <;> simp at hc
  cases h with
  | one hr h1 _ hf => exact key _ hr _ _ _ _ h1 hf
  | cons hr h1 _ hf h => exact lt_of_le_of_lt (mul_le_of_le_one_right zero_le (variablePath_le_one probabilities h)) (key _ hr _ _ _ _ h1 hf)

/-- The hypotheses of the theorems can be fulfilled by a grammar that is covered neither by **C81** nor by **C83**. -/
example : ParserGrammar gp.rules gp.init ∧ Probabilities gp.rules ∧ ¬ Preterminals gp.rules ∧ ¬ NoVariableCycle gp.rules ∧
    (∀ A c, ¬ VariablePath logFactorize gp.rules A c A c 1) ∧ (∃ R, CsRep.new logFactorize (fun _ l => l.dedup) gp 5 = some R) ∧
    ∃ d, Derives gp.rules gp.init d [[7, 7, 8]] := by
  refine ⟨grammar, probabilities, by simp [Preterminals, gp, rulesFor], ?_, fun A c h => lt_irrefl _ (path_lt h), C67_new grammar probabilities (by decide), ?_⟩
  · rintro ⟨rank, h⟩
    exact lt_irrefl _ (h ⟨0, [0], [[.var 0 0]], 1 / 2⟩ (by simp [gp, rulesFor]) 0 0 0 0 rfl rfl)
  · have hY : Derives gp.rules 2 (.node ⟨2, [], [[.t 7]], 1 / 2⟩ []) [[7]] := .node (r := ⟨2, [], [[.t 7]], 1 / 2⟩) (by simp [gp, rulesFor]) .nil rfl
    have hY' : Derives gp.rules 2 (.node ⟨2, [], [[.t 8]], 1 / 2⟩ []) [[8]] := .node (r := ⟨2, [], [[.t 8]], 1 / 2⟩) (by simp [gp, rulesFor]) .nil rfl
    have hX : Derives gp.rules 1 _ [[7, 7]] := .node (r := ⟨1, [2, 2], [[.var 0 0, .var 1 0]], 1⟩) (by simp [gp, rulesFor]) (.cons hY (.cons hY .nil)) rfl
    exact ⟨_, .node (r := ⟨0, [1, 2], [[.var 0 0, .var 1 0]], 1 / 2⟩) (by simp [gp, rulesFor]) (.cons hX (.cons hY' .nil)) rfl⟩

end C91Example

end Rustomata.Props
