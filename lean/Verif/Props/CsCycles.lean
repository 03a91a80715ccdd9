import Verif.Proofs.CsMainCycles
import Verif.Props.CsParse
import Verif.Props.Factorize
import Mathlib.Algebra.Order.GroupWithZero.Canonical
import Mathlib.Algebra.Order.Group.Int
import Mathlib.Topology.Instances.NNReal.Lemmas
import Mathlib.Analysis.SpecificLimits.Basic

/-!
# Property C81: the Chomsky-Schützenberger parser for grammars with cycles
-/

namespace Rustomata.Props
open Spec

section
variable {N T W : Type _} [DecidableEq N] [DecidableEq T] [LinearOrderedCommMonoidWithZero W] {factorize : W → Nat → List W}
  {rules : List (Nat × PMCFGRule N T W)} {init : N} {A : CsAutomaton T W}

/-- **C81** For charts with the weights of best derivations, and if each cycle of chain rules lowers the weights: for each `m`, the first `m` calls of the iterator end and
return the `m` best derivations in the chart, each once, in the order of their weights (or all derivations, if there are fewer). -/
theorem C81_enumerates (h : CsAutomaton.fromGrammar factorize rules init = some A) (hi : A.initial < A.states) {filter : List Bool}
    (hf : filter.length = A.brackets.length) {chart : DenseChart W} {n : Nat}
    (hget : ∀ i j q, i < j → j ≤ n → q < A.states → ∃ o, chart.getWeight i j q = some o)
    (hbest : ChartBest (buGrammar A filter) (fun i j q => (chart.getWeight i j q).getD none) n A.states) (hcyc : CyclesLower (buGrammar A filter))
    (hn0 : 0 < n) (hn : n ≤ 255) (m : Nat) : Enumerates A chart filter n m := by
  obtain ⟨st, ps, h1, h2, _⟩ := CsAutomaton.fromGrammar_rep h
  exact enumerates_cycles h1 h2 hi hf hget hbest hcyc hn0 hn m

/-- **C81** for the charts that `fill_chart` computes, as in `C44_filled_partial`. -/
theorem C81_filled (h : CsAutomaton.fromGrammar factorize rules init = some A) (hi : A.initial < A.states) {word : List T} {beam : Nat} {delta : W}
    {outs : SxOutside W} {filter : List Bool} (hf : filter.length = A.brackets.length) {chart : DenseChart W}
    (hc : fillChart A word beam delta outs filter = some chart) (hu : ∀ rid q q₁ w, (buGrammar A filter).unary rid q q₁ w → w ≤ 1)
    (hcyc : CyclesLower (buGrammar A filter))
    (hT : ∀ i q rid a v, i < word.length → (∃ w, chart.getWeight i (i + 1) q = some (some w)) → (buGrammar A filter).nullary rid q a v → word[i]? = some a)
    (hn0 : 0 < word.length) (hn : word.length ≤ 255) (m : Nat) : Enumerates A chart filter word.length m := by
  obtain ⟨st, ps, h1, h2, _⟩ := CsAutomaton.fromGrammar_rep h
  obtain ⟨hget, hbest⟩ := fillChart_best h2.buWF hn hc hu hT
  exact enumerates_cycles h1 h2 hi hf hget hbest hcyc hn0 hn m

/-- **C81** If the weights are at most one and the repetitions of cycles vanish, then each derivation in the chart whose weight is not zero is returned after finitely many
calls of the iterator. -/
theorem C81_candidate (h : CsAutomaton.fromGrammar factorize rules init = some A) (hi : A.initial < A.states) {filter : List Bool}
    (hf : filter.length = A.brackets.length) {chart : DenseChart W} {n : Nat}
    (hget : ∀ i j q, i < j → j ≤ n → q < A.states → ∃ o, chart.getWeight i j q = some o)
    (hbest : ChartBest (buGrammar A filter) (fun i j q => (chart.getWeight i j q).getD none) n A.states) (hle : RulesLeOne (buGrammar A filter))
    (hcyc : CyclesVanish (buGrammar A filter)) (hn0 : 0 < n) (hn : n ≤ 255) {t : BinTree} {w : W}
    (ht : ChartDerives (buGrammar A filter) (fun i j q => ∃ w, chart.getWeight i j q = some (some w)) 0 n A.initial t w) (hw : w ≠ 0) :
    ∃ v M, treeWord A.brackets t = some v ∧ ∀ m ≥ M, ∃ fuel₀, ∀ fuel ≥ fuel₀, ∃ out, KIter.run A chart filter fuel n m KIter.new = some out ∧ some v ∈ out := by
  have henum := C81_enumerates h hi hf hget hbest (cyclesLower_of_vanish hle.2.1 hcyc) hn0 hn
  obtain ⟨M, hM⟩ := mem_of_fair (t := t) (automaton_fair h filter hle hcyc (fun i j q => ∃ w, chart.getWeight i j q = some (some w)) n A.initial hw)
  have key : ∀ m ≥ M, ∃ v, treeWord A.brackets t = some v ∧
      ∃ fuel₀, ∀ fuel ≥ fuel₀, ∃ out, KIter.run A chart filter fuel n m KIter.new = some out ∧ some v ∈ out := by
    intro m hm
    obtain ⟨ts, words, k0, k1, k2, k3, k3', k4, fuel₀, k5⟩ := henum m
    have hmem := hM m hm ts k1 k3 (k3' _ _ ht)
    obtain ⟨k, hk⟩ := List.getElem?_of_mem hmem
    obtain ⟨g1, e1⟩ := List.getElem?_eq_some_iff.1 hk
    have hlen := k4.length_eq
    have := (List.forall₂_iff_get.1 k4).2 k g1 (by omega)
    simp only [List.get_eq_getElem, e1] at this
    refine ⟨_, this, fuel₀, fun fuel hfuel => ⟨_, k5 fuel hfuel, ?_⟩⟩
    rw [List.mem_map]
    exact ⟨k, List.mem_range.2 (by omega), List.getElem?_eq_getElem (by omega)⟩
  obtain ⟨v, hv, _⟩ := key M (le_refl _)
  refine ⟨v, M, hv, fun m hm => ?_⟩
  obtain ⟨v', hv', h'⟩ := key m hm
  rw [hv, Option.some.injEq] at hv'
  subst hv'
  exact h'

end

section
variable {N T W : Type _} [DecidableEq N] [DecidableEq T] [LinearOrderedCommMonoidWithZero W] {factorize : W → Nat → List W}
  {order : Nat → List Nat → List Nat} {g : Lcfrs N T W} {width : Nat} {R : CsRep N T W}

/-- **C81** More calls continue the sequence of results. -/
theorem C81_prefix {o : CsOptions W} {word : List T} {fuel fuel' m m' : Nat} {out out' : List (GornTree (PMCFGRule N T W))} (hm : m ≤ m')
    (h : R.parses o word fuel m = some out) (h' : R.parses o word fuel' m' = some out') : out <+: out' := by
  unfold CsRep.parses at h h'
  rw [Option.bind_eq_some_iff] at h h'
  obtain ⟨vs, h1, h2⟩ := h
  obtain ⟨vs', h1', h2'⟩ := h'
  unfold CsRep.generate at h1 h1'
  cases hmask : R.masks.build word with
  | none => simp only [hmask] at h1; cases h1
  | some mask =>
    cases hc : fillChart R.generator word (o.beam.getD R.generator.states) o.delta R.estimates mask with
    | none => simp only [hmask, hc] at h1; cases h1
    | some chart =>
      simp only [hmask, hc] at h1 h1'
      have e1 := KIter.run_mono (Nat.le_max_left fuel fuel') m h1
      have e2 := KIter.run_mono (Nat.le_max_right fuel fuel') m' h1'
      refine parses_prefix (R := R) (o := o) (word := word) (fuel := max fuel fuel') hm ?_ ?_
      · unfold CsRep.parses CsRep.generate
        simp only [hmask, hc, e1, Option.bind_some, h2]
      · unfold CsRep.parses CsRep.generate
        simp only [hmask, hc, e2, Option.bind_some, h2']

theorem states_pos (hR : CsRep.new factorize order g width = some R) (hfac : Factorizes factorize) (hg : ParserGrammar g.rules g.init) :
    0 < R.generator.states := by
  unfold CsRep.new at hR
  split at hR
  swap
  · cases hR
  split at hR
  swap
  · cases hR
  split at hR
  swap
  · cases hR
  rename_i A masks hA hmk
  rw [Option.map_eq_some_iff] at hR
  obtain ⟨outs, houts, rfl⟩ := hR
  exact Nat.zero_lt_of_lt (initial_lt hA hg fun w n => (hfac w n).1)

/-- **C81** for all beams and all `delta`: if cycles lower the weights, then the first `m` calls end for each `m`, and their results are derivations of the sentence, each at
most once, in the order of their weights. -/
theorem C81_pruned [NoZeroDivisors W] (hR : CsRep.new factorize order g width = some R) (ho : HashOrder order) (hfac : Factorizes factorize)
    (hg : ParserGrammar g.rules g.init) (hw : FactorsLeOne factorize (indexed g.rules)) (hpre : Preterminals g.rules)
    (hcyc : VariableCyclesLower factorize g.rules) {word : List T} (hn0 : 0 < word.length) (hn : word.length ≤ 255) {o : CsOptions W}
    (hb0 : 0 < o.beam.getD R.generator.states) (hb : o.beam.getD R.generator.states ≤ 65535) (m : Nat) :
    ∃ out, ParsesSome g.rules g.init word out ∧ ∃ fuel₀, ∀ fuel ≥ fuel₀, R.parses o word fuel m = some out := by
  obtain ⟨ds, out, h1, _⟩ := parses_cycles hR ho hfac hg hw hpre hcyc hn0 hn hb0 hb
  exact ⟨out m, ⟨ds m, (h1 m).1⟩, (h1 m).2⟩

/-- **C81** without pruning: the results of the first `m` calls are the best derivations, so that no other derivation has a greater weight than one of them. -/
theorem C81_best [NoZeroDivisors W] (hR : CsRep.new factorize order g width = some R) (ho : HashOrder order) (hfac : Factorizes factorize)
    (hg : ParserGrammar g.rules g.init) (hw : FactorsLeOne factorize (indexed g.rules)) (h0 : FactorsNeZero factorize g.rules) (hpre : Preterminals g.rules)
    (hcyc : VariableCyclesLower factorize g.rules) (hs : R.generator.states ≤ 65535) {word : List T} (hn0 : 0 < word.length) (hn : word.length ≤ 255)
    {o : CsOptions W} (hb : o.beam = none) (hd : o.delta = 0) (m : Nat) :
    ∃ out, BestParses g.rules g.init word out ∧ ∃ fuel₀, ∀ fuel ≥ fuel₀, R.parses o word fuel m = some out := by
  have hpos := states_pos hR hfac hg
  obtain ⟨ds, out, h1, h2⟩ := parses_cycles hR ho hfac hg hw hpre hcyc hn0 hn (o := o) (by rw [hb]; exact hpos) (by rw [hb]; exact hs)
  exact ⟨out m, ⟨ds m, (h1 m).1, (h2 h0 (by rw [hb]; exact le_refl _) hd).1 m⟩, (h1 m).2⟩

/-- **C81** If the repetitions of cycles vanish, then each derivation of the sentence is returned after finitely many calls. -/
theorem C81_fair [NoZeroDivisors W] (hR : CsRep.new factorize order g width = some R) (ho : HashOrder order) (hfac : Factorizes factorize)
    (hg : ParserGrammar g.rules g.init) (hw : FactorsLeOne factorize (indexed g.rules)) (h0 : FactorsNeZero factorize g.rules) (hpre : Preterminals g.rules)
    (hcyc : VariableCyclesLower factorize g.rules) (hvan : VariableCyclesVanish factorize g.rules) (hs : R.generator.states ≤ 65535) {word : List T}
    (hn0 : 0 < word.length) (hn : word.length ≤ 255) {o : CsOptions W} (hb : o.beam = none) (hd : o.delta = 0) (hc : o.candidates = none)
    {e : DTree Nat} {d : DTree (PMCFGRule N T W)} (hnum : Numbers g.rules e d) (hder : Derives g.rules g.init d [word]) :
    ∃ M, ∀ m ≥ M, ∃ ds out, ParsedBy g.rules g.init word ds out ∧ (e, d) ∈ ds ∧ ∃ fuel₀, ∀ fuel ≥ fuel₀, R.parses o word fuel m = some out := by
  have hpos := states_pos hR hfac hg
  obtain ⟨ds, out, h1, h2⟩ := parses_cycles hR ho hfac hg hw hpre hcyc hn0 hn (o := o) (by rw [hb]; exact hpos) (by rw [hb]; exact hs)
  obtain ⟨M, hM⟩ := (h2 h0 (by rw [hb]; exact le_refl _) hd).2 hc hvan e d hnum hder
  exact ⟨M, fun m hm => ⟨ds m, out m, (h1 m).1, hM m hm, (h1 m).2⟩⟩

end

/-! ### Probabilities -/

section
variable {N T : Type _} {rules : List (PMCFGRule N T NNReal)}

theorem variablePath_le_one (hp : Probabilities rules) {A B : N} {c j : Nat} {v : NNReal} (h : VariablePath logFactorize rules A c B j v) : v ≤ 1 := by
  have key : ∀ r ∈ rules, ∀ (c : Nat) f, (logFactorize r.weight r.composition.length)[c]? = some f → f ≤ 1 := fun r hr c f hf =>
    ((C67_factors _ _ f (List.mem_of_getElem? hf)).1 (hp r hr).2).2
  induction h with
  | one hr _ _ hf => exact key _ hr _ _ hf
  | cons hr _ _ hf _ ih => exact mul_le_one₀ (key _ hr _ _ hf) zero_le ih

/-- **C81** For probabilities, the conditions on cycles hold if no cycle has the weight one. -/
theorem C81_probability_cycles (hp : Probabilities rules) (h : ∀ A c, ¬ VariablePath logFactorize rules A c A c 1) :
    VariableCyclesLower logFactorize rules ∧ VariableCyclesVanish logFactorize rules := by
  have hlt : ∀ A c v, VariablePath logFactorize rules A c A c v → v < 1 := fun A c v hv =>
    lt_of_le_of_ne (variablePath_le_one hp hv) fun he => h A c (he ▸ hv)
  constructor
  · intro A c v x hv hx
    exact mul_lt_of_lt_one_left (pos_iff_ne_zero.2 hx) (hlt A c v hv)
  · intro A c v x y hv hx
    have h1 := (NNReal.tendsto_pow_atTop_nhds_zero_of_lt_one (hlt A c v hv)).mul_const y
    rw [zero_mul] at h1
    exact (h1.eventually (gt_mem_nhds (pos_iff_ne_zero.2 hx))).exists

variable [DecidableEq N] [DecidableEq T] {order : Nat → List Nat → List Nat} {width : Nat} {g : Lcfrs N T NNReal} {R : CsRep N T NNReal}

/-- **C81** For grammars with probabilities in which no cycle has the weight one: the parser without pruning returns, for each `m`, the best derivations, and it returns each
derivation after finitely many calls. -/
theorem C81_probabilities (hR : CsRep.new logFactorize order g width = some R) (ho : HashOrder order)
    (hg : ParserGrammar g.rules g.init) (hp : Probabilities g.rules) (hpre : Preterminals g.rules)
    (hcyc : ∀ A c, ¬ VariablePath logFactorize g.rules A c A c 1) (hs : R.generator.states ≤ 65535) {word : List T}
    (hn0 : 0 < word.length) (hn : word.length ≤ 255) {o : CsOptions NNReal} (hb : o.beam = none) (hd : o.delta = 0) :
    (∀ m, ∃ out, BestParses g.rules g.init word out ∧ ∃ fuel₀, ∀ fuel ≥ fuel₀, R.parses o word fuel m = some out) ∧
    (o.candidates = none → ∀ e d, Numbers g.rules e d → Derives g.rules g.init d [word] →
      ∃ M, ∀ m ≥ M, ∃ ds out, ParsedBy g.rules g.init word ds out ∧ (e, d) ∈ ds ∧ ∃ fuel₀, ∀ fuel ≥ fuel₀, R.parses o word fuel m = some out) := by
  obtain ⟨h1, h2⟩ := C81_probability_cycles hp hcyc
  obtain ⟨h3, h4⟩ := probabilities_factors hp
  exact ⟨C81_best hR ho C67_factorize hg h3 h4 hpre h1 hs hn0 hn hb hd,
    fun hc e d => C81_fair hR ho C67_factorize hg h3 h4 hpre h1 h2 hs hn0 hn hb hd hc⟩

end

/-! ### The condition on cycles -/

/-- The claim **C81** for the grammars that fulfil a condition: for all grammars in normal form whose weights are at most one and not zero and in which each nonterminal with
a terminal rule has only rules for this terminal, and for all sentences of at most 255 words, the first `m` calls of the parser without pruning end, and they return the
best derivations, in the order of their weights. -/
def C81_claim_for (ok : ∀ {N T W : Type} [LinearOrderedCommMonoidWithZero W], (W → Nat → List W) → List (PMCFGRule N T W) → Prop) : Prop :=
  ∀ (N T W : Type) [DecidableEq N] [DecidableEq T] [LinearOrderedCommMonoidWithZero W] [NoZeroDivisors W] (factorize : W → Nat → List W)
    (order : Nat → List Nat → List Nat) (g : Lcfrs N T W) (width : Nat) (R : CsRep N T W) (word : List T),
    CsRep.new factorize order g width = some R → HashOrder order → Factorizes factorize → ParserGrammar g.rules g.init →
    FactorsLeOne factorize (indexed g.rules) → FactorsNeZero factorize g.rules → Preterminals g.rules → ok factorize g.rules → R.generator.states ≤ 65535 →
    0 < word.length → word.length ≤ 255 →
    ∀ m, ∃ out, BestParses g.rules g.init word out ∧ ∃ fuel₀, ∀ fuel ≥ fuel₀, R.parses .default word fuel m = some out

/-- The full claim **C81**. -/
def C81_claim : Prop := C81_claim_for fun _ _ => True

/-- **C81** holds if cycles of components that consist of one variable lower the weights. -/
theorem C81_claim_partial : C81_claim_for fun factorize rules => VariableCyclesLower factorize rules := by
  intro N T W _ _ _ _ factorize order g width R word hR ho hfac hg hw h0 hpre hcyc hs hn0 hn m
  exact C81_best hR ho hfac hg hw h0 hpre hcyc hs hn0 hn (o := .default) rfl rfl m

namespace C81Witness

/-- `S → B B`, `S → S`, `B → b`, all with weight one. -/
def g : Lcfrs Nat Nat Nat := ⟨[⟨0, [1, 1], [[.var 0 0, .var 1 0]], 1⟩, ⟨0, [0], [[.var 0 0]], 1⟩, ⟨1, [], [[.t 7]], 1⟩], 0⟩

theorem grammar {W : Type} {w v u : W} :
    ParserGrammar (⟨[⟨0, [1, 1], [[.var 0 0, .var 1 0]], w⟩, ⟨0, [0], [[.var 0 0]], v⟩, ⟨1, [], [[.t 7]], u⟩], 0⟩ : Lcfrs Nat Nat W).rules 0 where
  lcfrs := ⟨fun A => if A = 0 ∨ A = 1 then some 1 else none, by
    refine ⟨fun A f => ?_, rfl, fun r hr => ?_⟩
    · match A with
      | 0 => simp [eq_comm]
      | 1 => simp [eq_comm]
      | A + 2 => simp
    · simp only [List.mem_cons, List.not_mem_nil, or_false] at hr
      rcases hr with rfl | rfl | rfl
      · refine ⟨by simp [varsOf], fun i j => ?_⟩
        match i with
        | 0 => simp [varsOf]
        | 1 => simp [varsOf]
        | i + 2 => simp [varsOf]
      · refine ⟨by simp [varsOf], fun i j => ?_⟩
        match i with
        | 0 => simp [varsOf]
        | i + 1 => simp [varsOf]
      · exact ⟨by simp [varsOf], fun i j => by simp [varsOf]⟩⟩
  normal := by simp [NormalForm]
  closed := by simp

/-- If the best derivation is the chain rule applied to the best derivation, then the iterator does not return. -/
theorem run_none {A : CsAutomaton Nat Nat} {chart : DenseChart Nat} {mask : List Bool} (hi : A.initial = 0)
    (hb : backtraces A chart mask 0 2 0 = some [(1, .binary 0 1 1 1 1 0 0), (1, .unary 1 0 1 0)]) (fuel m : Nat) :
    KIter.run A chart mask fuel 2 (m + 1) KIter.new = none := by
  cases fuel with
  | zero => rfl
  | succ fuel =>
    obtain ⟨d, rest, hd⟩ : ∃ d rest, ∀ fuel, kth A chart mask (fuel + 1) 0 (u8 2) A.initial 0 [] = some (some (.unary 1 0 1 0, 1), d) ∧
        d.get (0, 2, 0) = some ([(.unary 1 0 1 0, 1)], rest) := by
      refine ⟨AMap.set [] (0, 2, 0) ([(.unary 1 0 1 0, 1)], [(1, .binary 0 1 1 1 1 0 0)]), [(1, .binary 0 1 1 1 1 0 0)], fun fuel => ⟨?_, rfl⟩⟩
      rw [hi, show u8 2 = 2 from rfl]
      simp only [kth, show (AMap.get ([] : KCache Nat) (0, 2, 0)) = none from rfl, hb]
      rfl
    have hk : ∀ fuel, kth A chart mask (fuel + 1) 0 2 0 0 d = some (some (.unary 1 0 1 0, 1), d) := by
      intro fuel
      simp only [kth, (hd fuel).2]
      rfl
    have hr : ∀ fuel, readBt A chart mask fuel 0 2 (.unary 1 0 1 0) d = none := by
      intro fuel
      induction fuel with
      | zero => rfl
      | succ fuel ih =>
        cases fuel with
        | zero => rfl
        | succ fuel =>
          simp only [readBt, hk fuel]
          simp only [readBt] at ih
          rw [ih]
    have hk' := (hd fuel).1
    rw [show u8 2 = 2 from rfl] at hk'
    simp only [KIter.run, KIter.next, KIter.new, show u8 2 = 2 from rfl, hk', hr]

theorem states : ((CsRep.new C45Example.factorize (fun _ l => l.dedup) g 5).map fun R => decide (R.generator.states ≤ 65535 ∧ R.generator.initial = 0)) = some true := by
  decide +kernel

theorem bts : ((CsRep.new C45Example.factorize (fun _ l => l.dedup) g 5).bind fun R => (R.masks.build [7, 7]).bind fun mask =>
    (fillChart R.generator [7, 7] R.generator.states 0 R.estimates mask).bind fun c => backtraces R.generator c mask 0 2 0) =
      some [(1, .binary 0 1 1 1 1 0 0), (1, .unary 1 0 1 0)] := by decide +kernel

/-- No bound suffices. -/
theorem parses_none {R : CsRep Nat Nat Nat} (hR : CsRep.new C45Example.factorize (fun _ l => l.dedup) g 5 = some R) (fuel m : Nat) :
    R.parses .default [7, 7] fuel (m + 1) = none := by
  have h1 := states
  have h2 := bts
  rw [hR] at h1 h2
  rw [Option.map_some, Option.some.injEq, decide_eq_true_eq] at h1
  rw [Option.bind_some, Option.bind_eq_some_iff] at h2
  obtain ⟨mask, hm, h2⟩ := h2
  rw [Option.bind_eq_some_iff] at h2
  obtain ⟨chart, hc, h2⟩ := h2
  unfold CsRep.parses CsRep.generate
  have hc' : fillChart R.generator [7, 7] ((CsOptions.default : CsOptions Nat).beam.getD R.generator.states) (CsOptions.default : CsOptions Nat).delta R.estimates mask =
    some chart := hc
  simp only [hm, hc']
  rw [show [7, 7].length = 2 from rfl, run_none h1.2 h2]
  rfl

end C81Witness

open C81Witness in
/-- **C81** is violated for cycles of weight one: the parser does not return a first derivation for the rules `S → B B`, `S → S`, `B → b` with weight one and the sentence
`b b`, although there are derivations. -/
theorem C81_cycle_violated : ¬ C81_claim := by
  intro h
  have hst := states
  obtain ⟨R, hR⟩ : ∃ R, CsRep.new C45Example.factorize (fun _ l => l.dedup) g 5 = some R := by
    cases hR : CsRep.new C45Example.factorize (fun _ l => l.dedup) g 5 with
    | none => rw [hR] at hst; cases hst
    | some R => exact ⟨R, rfl⟩
  rw [hR, Option.map_some, Option.some.injEq, decide_eq_true_eq] at hst
  obtain ⟨out, _, fuel₀, h1⟩ := h Nat Nat Nat _ _ g 5 R [7, 7] hR C54Witness.hashOrder C45Example.factorizes grammar (by unfold FactorsLeOne; decide)
    (by unfold FactorsNeZero; decide) (by simp [Preterminals, g]) trivial hst.1 (by simp) (by simp) 1
  have := h1 fuel₀ (le_refl _)
  rw [parses_none hR] at this
  cases this

namespace C81Example

abbrev Z := WithZero (Multiplicative ℤ)

def half : Z := ((Multiplicative.ofAdd (-1 : ℤ) : Multiplicative ℤ) : Z)

def factorize (w : Z) (n : Nat) : List Z := (w :: List.replicate (n - 1) 1).take n

/-- `S → B B`, `S → S` with weight 1/2, `B → b`. -/
def g : Lcfrs Nat Nat Z := ⟨[⟨0, [1, 1], [[.var 0 0, .var 1 0]], 1⟩, ⟨0, [0], [[.var 0 0]], half⟩, ⟨1, [], [[.t 7]], 1⟩], 0⟩

/-- The numbers of nodes of the first derivations. -/
example : ((CsRep.new factorize (fun _ l => l.dedup) g 5).bind fun R => (R.parses .default [7, 7] 20 4).map fun out => out.map fun t => t.length) =
    some [3, 4, 5, 6] := by decide +kernel

/-- The same grammar with probabilities. -/
noncomputable def gp : Lcfrs Nat Nat NNReal := ⟨[⟨0, [1, 1], [[.var 0 0, .var 1 0]], 1 / 2⟩, ⟨0, [0], [[.var 0 0]], 1 / 2⟩, ⟨1, [], [[.t 7]], 1⟩], 0⟩

theorem probabilities : Probabilities gp.rules := by
  intro r hr
  simp only [gp, List.mem_cons, List.not_mem_nil, or_false] at hr
  rcases hr with rfl | rfl | rfl
  · exact ⟨by simp, by rw [← NNReal.coe_le_coe]; norm_num⟩
  · exact ⟨by simp, by rw [← NNReal.coe_le_coe]; norm_num⟩
  · exact ⟨by simp, by simp⟩

theorem path_lt {A B : Nat} {c j : Nat} {v : NNReal} (h : VariablePath logFactorize gp.rules A c B j v) : v < 1 := by
  have key : ∀ r ∈ gp.rules, ∀ (c i j : Nat) f, r.composition[c]? = some [.var i j] → (logFactorize r.weight r.composition.length)[c]? = some f → f < 1 := by
    intro r hr c i j f hc hf
    simp only [gp, List.mem_cons, List.not_mem_nil, or_false] at hr
    rcases hr with rfl | rfl | rfl
    · cases c <;> simp at hc
    · have := List.mem_of_getElem? hf
      rw [logFactorize, List.mem_replicate] at this
      rw [this.2]
      simp only [List.length_singleton, Nat.cast_one, div_one, NNReal.rpow_one]
      rw [← NNReal.coe_lt_coe]
      norm_num
    · cases c <;> simp at hc
  cases h with
  | one hr h1 _ hf => exact key _ hr _ _ _ _ h1 hf
  | cons hr h1 _ hf h => exact lt_of_le_of_lt (mul_le_of_le_one_right zero_le (variablePath_le_one probabilities h)) (key _ hr _ _ _ _ h1 hf)

/-- The hypotheses of the theorems can be fulfilled, also with a cycle. -/
example : ParserGrammar gp.rules gp.init ∧ Probabilities gp.rules ∧ Preterminals gp.rules ∧ (∀ A c, ¬ VariablePath logFactorize gp.rules A c A c 1) ∧
    (∃ v, VariablePath logFactorize gp.rules 0 0 0 0 v) ∧ ∃ R, CsRep.new logFactorize (fun _ l => l.dedup) gp 5 = some R :=
  ⟨C81Witness.grammar, probabilities, by simp [Preterminals, gp], fun A c h => lt_irrefl _ (path_lt h),
    ⟨_, .one (r := ⟨0, [0], [[.var 0 0]], 1 / 2⟩) (i := 0) (by simp [gp]) rfl rfl rfl⟩, C67_new C81Witness.grammar probabilities (by decide)⟩

end C81Example

end Rustomata.Props
