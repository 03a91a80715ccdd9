import Verif.Proofs.CsMainAny
import Verif.Props.CsCycles

/-!
# Property C83: the Chomsky-Schützenberger parser for grammars with arbitrary terminal rules
-/

namespace Rustomata.Props
open Spec

section
variable {N T W : Type _} [DecidableEq N] [DecidableEq T] [RoundedWeight W] {factorize : W → Nat → List W}

/-- **C83** For charts with arbitrary weights in which each state of a cell has a backtrace, and if there are no cycles of chain rules: the iterator returns all derivations
in the chart, each at least once, and nothing else, and then it ends. -/
theorem C83_enumerates {rules : List (Nat × PMCFGRule N T W)} {init : N} {A : CsAutomaton T W} (h : CsAutomaton.fromGrammar factorize rules init = some A)
    (hi : A.initial < A.states) {filter : List Bool} (hf : filter.length = A.brackets.length) {chart : DenseChart W} {n : Nat}
    (hget : ∀ i j q, i < j → j ≤ n → q < A.states → ∃ o, chart.getWeight i j q = some o) (hsup : ChartSupported (buGrammar A filter) (chartWeight chart) n A.states)
    (hcyc : NoChainCycle (buGrammar A filter)) (hn0 : 0 < n) (hn : n ≤ 255) : EnumeratesEach A chart filter n := by
  obtain ⟨st, ps, h1, h2, _⟩ := CsAutomaton.fromGrammar_rep h
  exact enumeratesEach h1 h2 hi hf hget hsup hcyc hn0 hn

/-- **C83** for the charts that `fill_chart` computes, for all weights, beams and sentences. -/
theorem C83_filled {rules : List (Nat × PMCFGRule N T W)} {init : N} {A : CsAutomaton T W} (h : CsAutomaton.fromGrammar factorize rules init = some A)
    (hi : A.initial < A.states) {word : List T} {beam : Nat} {delta : W} {outs : SxOutside W} {filter : List Bool} (hf : filter.length = A.brackets.length)
    {chart : DenseChart W} (hc : fillChart A word beam delta outs filter = some chart) (hcyc : NoChainCycle (buGrammar A filter)) (hn0 : 0 < word.length)
    (hn : word.length ≤ 255) : EnumeratesEach A chart filter word.length := by
  obtain ⟨st, ps, h1, h2, _⟩ := CsAutomaton.fromGrammar_rep h
  obtain ⟨hget, hsup⟩ := fillChart_supported h2.buWF hn hc
  exact enumeratesEach h1 h2 hi hf hget hsup hcyc hn0 hn

variable {order : Nat → List Nat → List Nat} {g : Lcfrs N T W} {width : Nat} {R : CsRep N T W}

/-- **C83** For all grammars in normal form without cycles of components that consist of one variable: without pruning, the parser returns all derivations of the sentence,
each at least once, and otherwise only derivations of sentences with the same number of words, and then it ends. -/
theorem C83_parses [NoZeroDivisors W] (hR : CsRep.new factorize order g width = some R) (ho : HashOrder order) (hlen : ∀ w n, (factorize w n).length = n)
    (hg : ParserGrammar g.rules g.init) (hw : FactorsLeOne factorize (indexed g.rules)) (h0 : FactorsNeZero factorize g.rules)
    (hcyc : NoVariableCycle g.rules) (hs : R.generator.states ≤ 65535) {word : List T} (hn0 : 0 < word.length) (hn : word.length ≤ 255) {o : CsOptions W}
    (hb : o.beam = none) (hd : o.delta = 0) :
    ∃ out, ParsesEach g.rules g.init word out ∧ ∃ m₀ fuel₀, ∀ m, ∀ fuel ≥ fuel₀,
      (∃ k, R.parses o word fuel m = some (out.take k)) ∧ (o.candidates = none → m₀ ≤ m → R.parses o word fuel m = some out) := by
  have hpos : 0 < R.generator.states := by
    unfold CsRep.new at hR
    split at hR
    swap
    · cases hR
    split at hR
    swap
    · cases hR
    split at hR
    swap
    · cases hR
    rename_i A masks hA hmk
    rw [Option.map_eq_some_iff] at hR
    obtain ⟨outs, houts, rfl⟩ := hR
    exact Nat.zero_lt_of_lt (initial_lt hA hg hlen)
  obtain ⟨ds, out, h1, h2, h3⟩ := parses_each hR ho hlen hg hw hcyc hn0 hn (o := o) (by rw [hb]; exact hpos) (by rw [hb]; exact hs)
  exact ⟨out, ⟨ds, h1, h2 inferInstance h0 (by rw [hb]; exact le_refl _) hd⟩, h3⟩

/-- **C83** with pruning: for all beams and all `delta`, the parser returns derivations of sentences with the same number of words, and then it ends. -/
theorem C83_pruned (hR : CsRep.new factorize order g width = some R) (ho : HashOrder order) (hlen : ∀ w n, (factorize w n).length = n)
    (hg : ParserGrammar g.rules g.init) (hw : FactorsLeOne factorize (indexed g.rules)) (hcyc : NoVariableCycle g.rules) {word : List T} (hn0 : 0 < word.length)
    (hn : word.length ≤ 255) {o : CsOptions W} (hb0 : 0 < o.beam.getD R.generator.states) (hb : o.beam.getD R.generator.states ≤ 65535) :
    ∃ ds out, ParsedLength g.rules g.init word ds out ∧ ∃ m₀ fuel₀, ∀ m, ∀ fuel ≥ fuel₀,
      (∃ k, R.parses o word fuel m = some (out.take k)) ∧ (o.candidates = none → m₀ ≤ m → R.parses o word fuel m = some out) := by
  obtain ⟨ds, out, h1, _, h3⟩ := parses_each hR ho hlen hg hw hcyc hn0 hn hb0 hb
  exact ⟨ds, out, h1, h3⟩

/-- **C83** If the sentence has a derivation, then the parser without pruning returns a result. -/
theorem C83_answers [NoZeroDivisors W] (hR : CsRep.new factorize order g width = some R) (ho : HashOrder order) (hlen : ∀ w n, (factorize w n).length = n)
    (hg : ParserGrammar g.rules g.init) (hw : FactorsLeOne factorize (indexed g.rules)) (h0 : FactorsNeZero factorize g.rules)
    (hcyc : NoVariableCycle g.rules) (hs : R.generator.states ≤ 65535) {word : List T} (hn0 : 0 < word.length) (hn : word.length ≤ 255)
    {d : DTree (PMCFGRule N T W)} (hder : Derives g.rules g.init d [word]) :
    ∃ m₀ fuel₀, ∀ m ≥ m₀, ∀ fuel ≥ fuel₀, ∃ out, R.parses .default word fuel m = some out ∧ ∃ t ∈ out, t.Sorted ∧ ∀ p, t.get p = d.at? p := by
  obtain ⟨out, ⟨ds, h1, h2⟩, m₀, fuel₀, h3⟩ := C83_parses hR ho hlen hg hw h0 hcyc hs hn0 hn (o := .default) rfl rfl
  obtain ⟨e, he⟩ := exists_numbers hder
  obtain ⟨i, hi⟩ := List.getElem?_of_mem (h2 e d ⟨he, hder⟩)
  obtain ⟨hlt, hi⟩ := List.getElem?_eq_some_iff.1 hi
  have hlt' : i < out.length := by rw [← h1.2.length_eq]; exact hlt
  have h5 := (List.forall₂_iff_get.1 h1.2).2 i hlt hlt'
  simp only [List.get_eq_getElem, hi] at h5
  exact ⟨m₀, fuel₀, fun m hm fuel hf => ⟨out, (h3 m fuel hf).2 rfl hm, out[i], List.getElem_mem _, h5⟩⟩

end

/-- **C83** for grammars with probabilities. -/
theorem C83_probabilities {N T : Type _} [DecidableEq N] [DecidableEq T] {order : Nat → List Nat → List Nat} {width : Nat} {g : Lcfrs N T NNReal}
    {R : CsRep N T NNReal} (hR : CsRep.new logFactorize order g width = some R) (ho : HashOrder order) (hg : ParserGrammar g.rules g.init)
    (hp : Probabilities g.rules) (hcyc : NoVariableCycle g.rules) (hs : R.generator.states ≤ 65535) {word : List T} (hn0 : 0 < word.length)
    (hn : word.length ≤ 255) {o : CsOptions NNReal} (hb : o.beam = none) (hd : o.delta = 0) :
    ∃ out, ParsesEach g.rules g.init word out ∧ ∃ m₀ fuel₀, ∀ m, ∀ fuel ≥ fuel₀,
      (∃ k, R.parses o word fuel m = some (out.take k)) ∧ (o.candidates = none → m₀ ≤ m → R.parses o word fuel m = some out) :=
  C83_parses hR ho (fun w n => (C67_factorize w n).1) hg (probabilities_factors hp).1 (probabilities_factors hp).2 hcyc hs hn0 hn hb hd

/-- A claim about the results of the parser, for all grammars without equal rules. -/
def C83_claim_for (good : ∀ {N T W : Type} [LinearOrderedCommMonoidWithZero W], List (GornTree (PMCFGRule N T W)) → Prop) : Prop :=
  ∀ (N T W : Type) [DecidableEq N] [DecidableEq T] [LinearOrderedCommMonoidWithZero W] [NoZeroDivisors W] (factorize : W → Nat → List W)
    (order : Nat → List Nat → List Nat) (g : Lcfrs N T W) (width : Nat) (R : CsRep N T W) (word : List T),
    CsRep.new factorize order g width = some R → HashOrder order → Factorizes factorize → ParserGrammar g.rules g.init → g.rules.Nodup →
    FactorsLeOne factorize (indexed g.rules) → FactorsNeZero factorize g.rules → NoVariableCycle g.rules → R.generator.states ≤ 65535 →
    0 < word.length → word.length ≤ 255 → ∀ m fuel out, R.parses .default word fuel m = some out → good out

/-- The results are different. -/
def C83_once_claim : Prop := C83_claim_for fun out => out.Nodup

/-- The results are in the order of their weights. -/
def C83_order_claim : Prop := C83_claim_for fun out => out.Pairwise fun t t' => (t'.map fun x => x.2.weight).prod ≤ (t.map fun x => x.2.weight).prod

namespace C83Example
open C81Example (Z half factorize)

/-- `S → X Y`, `X → Y Y`, `Y → a` with weight 1/2, `Y → b`. -/
def g : Lcfrs Nat Nat Z := ⟨[⟨0, [1, 2], [[.var 0 0, .var 1 0]], 1⟩, ⟨1, [2, 2], [[.var 0 0, .var 1 0]], 1⟩, ⟨2, [], [[.t 7]], half⟩, ⟨2, [], [[.t 8]], 1⟩], 0⟩

theorem factorizes : Factorizes factorize := by
  intro w n
  cases n with
  | zero => exact ⟨by simp [factorize], fun h => absurd rfl h⟩
  | succ n => exact ⟨by simp [factorize], fun _ => by simp [factorize]⟩

theorem half_le : half ≤ 1 := by decide
theorem half_ne : half ≠ 0 := by decide

theorem grammar : ParserGrammar g.rules g.init where
  lcfrs := ⟨fun A => if A = 0 ∨ A = 1 ∨ A = 2 then some 1 else none, by
    refine ⟨fun A f => ?_, rfl, fun r hr => ?_⟩
    · match A with
      | 0 => simp [g, eq_comm]
      | 1 => simp [g, eq_comm]
      | 2 => simp [g, eq_comm]
      | A + 3 => simp [g]
    · simp only [g, List.mem_cons, List.not_mem_nil, or_false] at hr
      rcases hr with rfl | rfl | rfl | rfl
      · refine ⟨by decide, fun i j => ?_⟩
        match i with
        | 0 => simp [varsOf]
        | 1 => simp [varsOf]
        | i + 2 => simp [varsOf]
      · refine ⟨by decide, fun i j => ?_⟩
        match i with
        | 0 => simp [varsOf]
        | 1 => simp [varsOf]
        | i + 2 => simp [varsOf]
      · exact ⟨by decide, fun i j => by simp [varsOf]⟩
      · exact ⟨by decide, fun i j => by simp [varsOf]⟩⟩
  normal := by simp [NormalForm, g]
  closed := by simp [g]

theorem noVariableCycle : NoVariableCycle g.rules := by
  refine ⟨fun _ _ => 0, fun r hr c i j B h1 h2 => ?_⟩
  simp only [g, List.mem_cons, List.not_mem_nil, or_false] at hr
  rcases hr with rfl | rfl | rfl | rfl <;> cases c <;> simp at h1

theorem leOne : FactorsLeOne factorize (indexed g.rules) := by unfold FactorsLeOne; decide
theorem neZero : FactorsNeZero factorize g.rules := by unfold FactorsNeZero; decide
theorem nodup : g.rules.Nodup := by decide

theorem new : ((CsRep.new factorize (fun _ l => l.dedup) g 5).map fun R => decide (R.generator.states ≤ 65535)) = some true := by decide +kernel

/-- The terminals of the results for the sentence `a a a`. -/
def results : Option (List (List Nat × Z)) :=
  (CsRep.new factorize (fun _ l => l.dedup) g 5).bind fun R => (R.parses .default [7, 7, 7] 30 20).map fun out =>
    out.map fun t => (t.flatMap fun x => x.2.composition.flatten.filterMap fun s => match s with | .t a => some a | _ => none, (t.map fun x => x.2.weight).prod)

/-- There are ten results for the eight derivations of sentences of three words. -/
example : (results.map fun l => l.map Prod.fst) =
    some [[8, 8, 8], [8, 7, 8], [7, 8, 8], [8, 7, 7], [7, 8, 7], [7, 7, 8], [8, 8, 7], [8, 7, 7], [7, 8, 7], [7, 7, 7]] := by decide +kernel

theorem refute {good : ∀ {N T W : Type} [LinearOrderedCommMonoidWithZero W], List (GornTree (PMCFGRule N T W)) → Prop} (h : C83_claim_for good)
    {bad : List (GornTree (PMCFGRule Nat Nat Z)) → Bool} (hbad : ∀ out, bad out = true → ¬ good out)
    (hres : ((CsRep.new factorize (fun _ l => l.dedup) g 5).bind fun R => (R.parses .default [7, 7, 7] 30 20).map bad) = some true) : False := by
  rw [Option.bind_eq_some_iff] at hres
  obtain ⟨R, hR, hres⟩ := hres
  rw [Option.map_eq_some_iff] at hres
  obtain ⟨out, hout, hb⟩ := hres
  have hs := new
  rw [hR, Option.map_some, Option.some.injEq, decide_eq_true_eq] at hs
  exact hbad out hb (h Nat Nat Z factorize _ g 5 R [7, 7, 7] hR C54Witness.hashOrder factorizes grammar nodup leOne neZero noVariableCycle hs (by simp) (by simp) _ _ _ hout)

end C83Example

open C83Example in
/-- **C83** The results are not always different: if a nonterminal has rules for several terminals, then the same derivation may be returned twice. -/
theorem C83_once_violated : ¬ C83_once_claim := fun h =>
  refute h (bad := fun out => decide ¬ out.Nodup) (fun out hb hn => by rw [decide_eq_true_eq] at hb; exact hb hn) (by decide +kernel)

open C83Example in
/-- **C83** The results are not always in the order of their weights. -/
theorem C83_order_violated : ¬ C83_order_claim := fun h =>
  refute h (bad := fun out => decide ¬ (out.Pairwise fun t t' => (t'.map fun x => x.2.weight).prod ≤ (t.map fun x => x.2.weight).prod))
    (fun out hb hn => by rw [decide_eq_true_eq] at hb; exact hb hn) (by decide +kernel)

open C83Example in
/-- The hypotheses of the theorems can be fulfilled by a grammar that is not covered by **C54**. -/
example : ParserGrammar g.rules g.init ∧ ¬ Preterminals g.rules ∧ NoVariableCycle g.rules ∧ FactorsLeOne C81Example.factorize (indexed g.rules) ∧
    FactorsNeZero C81Example.factorize g.rules ∧ Factorizes C81Example.factorize ∧ (∃ R, CsRep.new C81Example.factorize (fun _ l => l.dedup) g 5 = some R) ∧
    ∃ d, Derives g.rules g.init d [[7, 7, 7]] := by
  refine ⟨grammar, by simp [Preterminals, g], noVariableCycle, leOne, neZero, factorizes, C54_new_total grammar factorizes leOne (by decide), ?_⟩
  have hY : Derives g.rules 2 (.node ⟨2, [], [[.t 7]], C81Example.half⟩ []) [[7]] :=
    .node (r := ⟨2, [], [[.t 7]], C81Example.half⟩) (by simp [g]) .nil rfl
  have hX : Derives g.rules 1 _ [[7, 7]] := .node (r := ⟨1, [2, 2], [[.var 0 0, .var 1 0]], 1⟩) (by simp [g]) (.cons hY (.cons hY .nil)) rfl
  exact ⟨_, .node (r := ⟨0, [1, 2], [[.var 0 0, .var 1 0]], 1⟩) (by simp [g]) (.cons hX (.cons hY .nil)) rfl⟩

end Rustomata.Props
