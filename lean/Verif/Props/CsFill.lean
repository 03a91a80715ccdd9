import Mathlib.Algebra.Order.Ring.Nat
import Verif.Proofs.CsAlive

/-!
# Properties C41 and C42: outside estimates and chart of the Chomsky-Schützenberger parser

Derivations are those of the weighted grammar with the productions `grammarProds` (`Spec/CsRules.lean`), `C42_tables`.
-/

namespace Rustomata.Props
open Spec

section
variable {N T W : Type _} [DecidableEq N] [DecidableEq T]

/-- **C42** The tables of the automaton contain the productions of the binarised context-free approximation of the grammar, the identifier of each production is
its position, and each production has its brackets. -/
theorem C42_tables [One W] {factorize : W → Nat → List W} {rules : List (Nat × PMCFGRule N T W)} {init : N} {A : CsAutomaton T W}
    (h : CsAutomaton.fromGrammar factorize rules init = some A) :
    ∃ st ps, grammarProds factorize rules = some ps ∧ st.Nodup ∧ (∀ p ∈ ps, ∀ s ∈ p.1.symbols, s ∈ st) ∧
      A.states = st.length ∧ A.brackets = ps.map Prod.snd ∧ (∀ filter, buGrammar A filter = numGrammar st ps filter) ∧
      (A.initial < A.states ↔ CsState.non init 0 ∈ st) ∧ (A.initial < A.states → st[A.initial]? = some (.non init 0)) := by
  obtain ⟨st, ps, h1, h2, h3⟩ := CsAutomaton.fromGrammar_rep h
  have hs : A.states = st.length := h2.len.1
  refine ⟨st, ps, h1, h2.nodup, h2.symbols, hs, h2.brackets, h2.grammar, ?_, ?_⟩
  · rcases h3 with h3 | ⟨h3, h4⟩
    · exact ⟨fun _ => List.mem_of_getElem? h3, fun _ => hs ▸ (List.getElem?_eq_some_iff.1 h3).1⟩
    · exact ⟨fun h => by omega, fun h => absurd h h4⟩
  · rcases h3 with h3 | ⟨h3, h4⟩
    · exact fun _ => h3
    · exact fun h => by omega

end

section
variable {N T W : Type _} [DecidableEq N] [DecidableEq T] [RoundedWeight W] {factorize : W → Nat → List W}
  {rules : List (Nat × PMCFGRule N T W)} {init : N} {A : CsAutomaton T W}

/-- The factors of all weights are at most one. -/
def FactorsLeOne (factorize : W → Nat → List W) (rules : List (Nat × PMCFGRule N T W)) : Prop :=
  ∀ r ∈ rules, ∀ w ∈ factorize r.2.weight r.2.composition.length, w ≤ 1

theorem leOne_of_factors (h : CsAutomaton.fromGrammar factorize rules init = some A) (hw : FactorsLeOne factorize rules) : A.LeOne := by
  obtain ⟨st, ps, h1, h2, _⟩ := CsAutomaton.fromGrammar_rep h
  exact h2.leOne (grammarProds_weight rules ps hw h1)

end

section
variable {N T W : Type _} [DecidableEq N] [DecidableEq T] [One W] [Mul W] {factorize : W → Nat → List W}
  {rules : List (Nat × PMCFGRule N T W)} {init : N} {A : CsAutomaton T W}

theorem derives_state_lt (h : CsAutomaton.fromGrammar factorize rules init = some A) {filter : List Bool} {word : List T} {ok : Nat → Nat → Nat → Prop}
    {i j q : Nat} {t : BinTree} {w : W} (hd : (buGrammar A filter).Derives word ok i j q t w) : q < A.states := by
  obtain ⟨st, ps, h1, h2, _⟩ := CsAutomaton.fromGrammar_rep h
  have hB := h2.buWF
  cases hd with
  | nullary ha hr ho => obtain ⟨_, l, hl, hb⟩ := hr; exact (hB.initial _ l hl _ hb).1
  | unary hr ho hd => obtain ⟨_, l, hl, hb⟩ := hr; exact (hB.unary _ l hl _ hb).1
  | binary hr ho hd₁ hd₂ => obtain ⟨_, l, hl, hb⟩ := hr; exact (hB.binary _ l hl _ hb).1

end

section
variable {N T W : Type _} [DecidableEq N] [DecidableEq T] [RoundedWeight W] {factorize : W → Nat → List W}
  {rules : List (Nat × PMCFGRule N T W)} {init : N} {A : CsAutomaton T W}

/-! ### C41 -/

/-- **C41** The estimates are computed without a panic (if the initial nonterminal has a rule), and reading them does not panic. -/
theorem C41_total (h : CsAutomaton.fromGrammar factorize rules init = some A) (hw : FactorsLeOne factorize rules) (hi : A.initial < A.states)
    (maxrange : Nat) : ∃ outs, SxOutside.fromAutomaton A maxrange = some outs ∧
      ∀ q i j n, q < A.states → i < j → j ≤ n → outs.get q i j n ≠ none := by
  obtain ⟨st, ps, h1, h2, _⟩ := CsAutomaton.fromGrammar_rep h
  obtain ⟨ins, outs, h3, _, h4⟩ := SxOutside.fromAutomaton_spec (n := maxrange) h2.buWF h2.tdWF h2.keys (leOne_of_factors h hw) hi
  refine ⟨outs, h3, fun q i j n hq hij hj => ?_⟩
  unfold SxOutside.get
  rw [if_neg (by omega)]
  by_cases hm : outs.maxrange ≤ i + n - j
  · rw [if_pos hm]
    simp
  · rw [if_neg hm, if_neg (by omega)]
    obtain ⟨k, c, hc, hk, g1, g2, g3⟩ := SxOutside.index_eq h4.maxrange h4.len (h4.states ▸ hq : q < outs.states)
      (by omega : i < j + outs.maxrange - n) (by have := h4.maxrange; omega)
    simp [g1, g3]

end

section
variable {N T W : Type _} [DecidableEq N] [DecidableEq T] [LinearOrderedCommMonoidWithZero W] {factorize : W → Nat → List W}
  {rules : List (Nat × PMCFGRule N T W)} {init : N} {A : CsAutomaton T W}

/-- **C41** The weight of every parse is at most the weight of any of its parts times the estimate for the state and the span of the part; in particular, if
there is no estimate, the weight of the parse is zero. -/
theorem C41_overestimate (h : CsAutomaton.fromGrammar factorize rules init = some A) (hw : FactorsLeOne factorize rules) {maxrange : Nat}
    {outs : SxOutside W} (ho : SxOutside.fromAutomaton A maxrange = some outs) {filter : List Bool} {word : List T} {ok : Nat → Nat → Nat → Prop}
    {i j q : Nat} {t' t : BinTree} {w' w : W}
    (hc : (buGrammar A filter).Contains word ok i j q t' w' 0 word.length A.initial t w) :
    ∃ o, outs.get q i j word.length = some o ∧ w ≤ w' * o.getD 0 := by
  obtain ⟨st, ps, h1, h2, _⟩ := CsAutomaton.fromGrammar_rep h
  have hp := hc.part.span
  have hi := derives_state_lt h hc.whole
  have hq := derives_state_lt h hc.part
  obtain ⟨ins, outs', h3, h4, h5⟩ := SxOutside.fromAutomaton_spec (n := maxrange) h2.buWF h2.tdWF h2.keys (leOne_of_factors h hw) hi
  rw [ho, Option.some.injEq] at h3
  subst h3
  have hle := SxOutside.contains_le h2.buWF h2.tdWF (leOne_of_factors h hw) h4 h5 hc
  by_cases hne : (1 : W) = 0
  · obtain ⟨outs', h3', htot⟩ := C41_total h hw hi maxrange
    rw [ho, Option.some.injEq] at h3'
    subst h3'
    obtain ⟨o, ho'⟩ := Option.ne_none_iff_exists'.1 (htot q i j word.length hq hp.1 hp.2.1)
    refine ⟨o, ho', ?_⟩
    rw [← one_mul w, hne, zero_mul]
    exact zero_le
  · rw [SxOutside.get_eq_est h5.maxrange h5.len (h5.states ▸ hq) hp.1 hp.2.1 hne]
    refine ⟨_, rfl, ?_⟩
    by_cases h0 : outs.est q i j word.length = 0
    · simpa [h0] using hle
    · simpa [h0] using hle

end

section
variable {N T W : Type _} [DecidableEq N] [DecidableEq T] [RoundedWeight W] {factorize : W → Nat → List W}
  {rules : List (Nat × PMCFGRule N T W)} {init : N} {A : CsAutomaton T W}

/-- **C41** Discarding items without an estimate loses no parse: every parse with a nonzero weight has an estimate for each of its nodes. This also holds for rounded
weights. -/
theorem C41_no_parse_lost [NoZeroDivisors W] (h : CsAutomaton.fromGrammar factorize rules init = some A) (hw : FactorsLeOne factorize rules) {maxrange : Nat}
    {outs : SxOutside W} (ho : SxOutside.fromAutomaton A maxrange = some outs) {filter : List Bool} {word : List T} {t : BinTree} {w : W}
    (hd : (buGrammar A filter).Derives word (fun _ _ _ => True) 0 word.length A.initial t w) (h0 : w ≠ 0) :
    (buGrammar A filter).Derives word (fun q i j => ∃ o, outs.get q i j word.length = some (some o)) 0 word.length A.initial t w := by
  refine hd.of_contains fun i' j' q' t' w' hc => ?_
  obtain ⟨st, ps, h1, h2, _⟩ := CsAutomaton.fromGrammar_rep h
  have hp := hc.part.span
  have hi := derives_state_lt h hc.whole
  have hq := derives_state_lt h hc.part
  obtain ⟨ins, outs', h3, h4, h5⟩ := SxOutside.fromAutomaton_spec (n := maxrange) h2.buWF h2.tdWF h2.keys (leOne_of_factors h hw) hi
  rw [ho, Option.some.injEq] at h3
  subst h3
  have hne := SxOutside.contains_ne_zero h2.buWF h2.tdWF (leOne_of_factors h hw) h4 h5 hc h0
  have hone : (1 : W) ≠ 0 := fun h => h0 (by rw [← one_mul w, h, zero_mul])
  rw [SxOutside.get_eq_est h5.maxrange h5.len (h5.states ▸ hq) hp.1 hp.2.1 hone, if_neg hne]
  exact ⟨_, rfl⟩

/-! ### C42 -/

end

section
variable {N T W : Type _} [DecidableEq N] [DecidableEq T] [Zero W] [One W] [CommMagma W] [LinearOrder W] {factorize : W → Nat → List W}
  {rules : List (Nat × PMCFGRule N T W)} {init : N} {A : CsAutomaton T W}

/-- **C42** Every entry of the chart is the weight of a derivation of its span from its state; this holds for all beams, thresholds, filters and estimates, and for
all kinds of weights with a commutative multiplication (also for rounded weights). -/
theorem C42_sound (h : CsAutomaton.fromGrammar factorize rules init = some A) {word : List T} {beam : Nat} {delta : W} {outs : SxOutside W}
    {filter : List Bool} {chart : DenseChart W} (hn : word.length ≤ 255) (hc : fillChart A word beam delta outs filter = some chart) {l r : Nat}
    (hlr : l < r) (hr : r ≤ word.length) :
    (∃ es, chart.iterateNont l r = some es ∧ (es.map Prod.fst).Nodup ∧ es.length ≤ beam ∧
      ∀ q w, (q, w) ∈ es → q < A.states ∧ ∃ t, (buGrammar A filter).Derives word (fun _ _ _ => True) l r q t w) ∧
    ∀ q < A.states, ∃ o, chart.getWeight l r q = some o ∧
      ∀ w, o = some w → ∃ t, (buGrammar A filter).Derives word (fun _ _ _ => True) l r q t w := by
  obtain ⟨st, ps, h1, h2, _⟩ := CsAutomaton.fromGrammar_rep h
  obtain ⟨a, hcn, hcs, hcb, href, hok, hemp⟩ := fillChart_spec h2.buWF hn hc
  have hd : ∀ q w, (q, w) ∈ a l r → ∃ t, (buGrammar A filter).Derives word (fun _ _ _ => True) l r q t w := by
    intro q w hm
    obtain ⟨t, ht⟩ := cells_sound hok hemp _ l r rfl q w hm
    exact ⟨t, ht.mono (fun _ _ _ _ h => h) (fun _ _ _ _ h => h) (fun _ _ _ _ _ h => h) fun _ _ _ _ => trivial⟩
  have hlt : ∀ q w, (q, w) ∈ a l r → q < A.states := by
    intro q w hm
    obtain ⟨t, ht⟩ := hd q w hm
    exact derives_state_lt h ht
  refine ⟨⟨a l r, href.iterateNont hlr (hcn ▸ hr), ?_, hcb ▸ href.bound l r, fun q w hm => ⟨hlt q w hm, hd q w hm⟩⟩, ?_⟩
  · obtain ⟨H, hinv, _, _⟩ := hok l r hlr hr
    exact hinv.nodup
  · intro q hq
    refine ⟨_, href.getWeight hlr (hcn ▸ hr) (hcs ▸ hq), fun w hw => ?_⟩
    rw [Option.filter_eq_some_iff] at hw
    exact hd q w (lastWeight_mem hw.1)

end

section
variable {N T W : Type _} [DecidableEq N] [DecidableEq T] [RoundedWeight W] {factorize : W → Nat → List W}
  {rules : List (Nat × PMCFGRule N T W)} {init : N} {A : CsAutomaton T W}

/-- **C42** Without pruning, and if no chain rule has a weight greater than one, the weight of a state in a span is the greatest weight of the derivations all of
whose nodes have an estimate. -/
theorem C42_best_partial (h : CsAutomaton.fromGrammar factorize rules init = some A) {word : List T} {beam : Nat} {outs : SxOutside W}
    {filter : List Bool} {chart : DenseChart W} (hn : word.length ≤ 255) (hc : fillChart A word beam 0 outs filter = some chart) (hb : A.states ≤ beam)
    (hu : ∀ rid q q₁ w, (buGrammar A filter).unary rid q q₁ w → w ≤ 1) {l r q : Nat} {t : BinTree} {w : W}
    (hd : (buGrammar A filter).Derives word (fun q i j => ∃ o, outs.get q i j word.length = some (some o)) l r q t w) (hw : w ≠ 0) :
    ∃ t' w', chart.getWeight l r q = some (some w') ∧ w ≤ w' ∧
      (buGrammar A filter).Derives word (fun q i j => ∃ o, outs.get q i j word.length = some (some o)) l r q t' w' := by
  obtain ⟨st, ps, h1, h2, _⟩ := CsAutomaton.fromGrammar_rep h
  obtain ⟨a, hcn, hcs, hcb, href, hok, hemp⟩ := fillChart_spec h2.buWF hn hc
  have hlr := hd.span
  obtain ⟨w', h3, h4⟩ := cells_complete h2.buWF hu hb hok hd hw
  have hq := derives_state_lt h hd
  have hnd : ((a l r).map Prod.fst).Nodup := by
    obtain ⟨H, hinv, _, _⟩ := hok l r hlr.1 hlr.2.1
    exact hinv.nodup
  obtain ⟨t', ht'⟩ := cells_sound hok hemp _ l r rfl q w' h3
  have hw' : w' ≠ 0 := fun h0 => hw (le_antisymm (h0 ▸ h4) zero_le)
  refine ⟨t', w', ?_, h4, ht'⟩
  rw [href.getWeight hlr.1 (hcn ▸ hlr.2.1) (hcs ▸ hq), lastWeight_of_mem hnd h3]
  simp [Option.filter, hw']

/-- **C41, C42** Without pruning, with the estimates of the automaton and with weights of at most one, the weight of the initial state for the whole sentence is
the greatest weight of all parses. -/
theorem C42_best_parse_partial [NoZeroDivisors W] (h : CsAutomaton.fromGrammar factorize rules init = some A) (hf : FactorsLeOne factorize rules)
    {maxrange : Nat} {outs : SxOutside W} (ho : SxOutside.fromAutomaton A maxrange = some outs) {word : List T} {beam : Nat}
    {filter : List Bool} {chart : DenseChart W} (hn : word.length ≤ 255) (hc : fillChart A word beam 0 outs filter = some chart) (hb : A.states ≤ beam)
    {t : BinTree} {w : W} (hd : (buGrammar A filter).Derives word (fun _ _ _ => True) 0 word.length A.initial t w) (hw : w ≠ 0) :
    ∃ t' w', chart.getWeight 0 word.length A.initial = some (some w') ∧ w ≤ w' ∧
      (buGrammar A filter).Derives word (fun _ _ _ => True) 0 word.length A.initial t' w' := by
  obtain ⟨t', w', h1, h2, h3⟩ := C42_best_partial h hn hc hb ((leOne_of_factors h hf).chains filter) (C41_no_parse_lost h hf ho hd hw) hw
  exact ⟨t', w', h1, h2, h3.of_contains fun _ _ _ _ _ _ => trivial⟩

/-- **C42** (and C51) The chart is filled without a panic for sentences of at most 255 words. -/
theorem C42_total (h : CsAutomaton.fromGrammar factorize rules init = some A) (hf : FactorsLeOne factorize rules) (hi : A.initial < A.states)
    {maxrange : Nat} {outs : SxOutside W} (ho : SxOutside.fromAutomaton A maxrange = some outs) {word : List T} {beam : Nat} {delta : W}
    {filter : List Bool} (hfl : filter.length = A.brackets.length) (hn : word.length ≤ 255) (hb : 0 < beam) (hb' : beam ≤ 65535) :
    ∃ chart, fillChart A word beam delta outs filter = some chart := by
  obtain ⟨st, ps, h1, h2, _⟩ := CsAutomaton.fromGrammar_rep h
  refine fillChart_isSome h2.buWF hfl ?_ hb hb' hn
  obtain ⟨outs', h3, h4⟩ := C41_total h hf hi maxrange
  rw [ho, Option.some.injEq] at h3
  subst h3
  exact fun q l r hq hlr hr => h4 q l r word.length hq hlr hr

omit [DecidableEq N] in
/-- **C42** Sentences of more than 256 words are not parsed: the positions are cast to `u8`. -/
theorem C42_long_sentences_panic {word : List T} {beam : Nat} {delta : W} {outs : SxOutside W} {filter : List Bool} (hn : 257 ≤ word.length) :
    fillChart A word beam delta outs filter = none := fillChart_long hn

end

/-- **C42**, the part about the best derivation for all grammars (and estimates that discard nothing). -/
def C42_claim : Prop :=
  ∀ (T W : Type) [DecidableEq T] [LinearOrderedCommMonoidWithZero W] (factorize : W → Nat → List W) (rules : List (Nat × PMCFGRule Nat T W)) (init : Nat)
    (A : CsAutomaton T W) (word : List T) (outs : SxOutside W) (filter : List Bool) (chart : DenseChart W),
    CsAutomaton.fromGrammar factorize rules init = some A → word.length ≤ 255 → fillChart A word A.states 0 outs filter = some chart →
    ∀ l r q t w, (buGrammar A filter).Derives word (fun q i j => ∃ o, outs.get q i j word.length = some (some o)) l r q t w → w ≠ 0 →
      ∃ w', chart.getWeight l r q = some (some w') ∧ w ≤ w'

namespace C42Witness

/-- `S → a` with weight 3, `A → a` with weight 2, `S → A` with weight 2. -/
def rules : List (Nat × PMCFGRule Nat Nat Nat) :=
  [(0, ⟨0, [], [[.t 7]], 3⟩), (1, ⟨1, [], [[.t 7]], 2⟩), (2, ⟨0, [1], [[.var 0 0]], 2⟩)]

def aut : Option (CsAutomaton Nat Nat) := CsAutomaton.fromGrammar (fun w n => List.replicate n w) rules 0

def result : Option (Option Nat) :=
  aut.bind fun A => (fillChart A [7] A.states 0 ⟨[], 0, 2⟩ [true, true, true]).bind fun c => c.getWeight 0 1 0

end C42Witness

open C42Witness in
/-- **C42** is violated for grammars with chain rules of weight greater than one: the search of each cell is best-first and keeps the first weight of each
state. -/
theorem C42_best_violated : ¬ C42_claim := by
  intro h
  obtain ⟨A, hA⟩ : ∃ A, aut = some A := ⟨_, rfl⟩
  have hA' := hA
  unfold aut at hA'
  obtain ⟨chart, hc⟩ : ∃ c, fillChart A [7] A.states 0 ⟨[], 0, 2⟩ [true, true, true] = some c := by
    cases hA
    exact ⟨_, rfl⟩
  have hres : chart.getWeight 0 1 0 = some (some 3) := by
    have : result = some (some 3) := by decide
    unfold result at this
    rw [hA] at this
    simp only [Option.bind_some, hc] at this
    exact this
  obtain ⟨w', h1, h2⟩ := h Nat Nat (fun w n => List.replicate n w) rules 0 A [7] ⟨[], 0, 2⟩ [true, true, true] chart hA' (by decide) hc 0 1 0
    (.unary 2 (.nullary 1)) 4 (by
      have hn : (buGrammar A [true, true, true]).nullary 1 1 7 2 := by
        cases hA
        exact ⟨rfl, _, rfl, by decide⟩
      have hu : (buGrammar A [true, true, true]).unary 2 0 1 2 := by
        cases hA
        exact ⟨rfl, _, rfl, by decide⟩
      exact .unary hu ⟨1, rfl⟩ (.nullary rfl hn ⟨1, rfl⟩)) (by decide)
  rw [hres] at h1
  cases h1
  omega

namespace C42Example

/-- `S → [x₁¹ x₂¹ x₁²](A, B)`, `A → [x₁¹, x₂¹](B, B)`, `B → b` over the weights 0 and 1. -/
def rules : List (Nat × PMCFGRule Nat Nat Nat) :=
  [(0, ⟨0, [1, 2], [[.var 0 0, .var 1 0, .var 0 1]], 1⟩), (1, ⟨1, [2, 2], [[.var 0 0], [.var 1 0]], 1⟩), (2, ⟨2, [], [[.t 7]], 1⟩)]

def aut : Option (CsAutomaton Nat Nat) := CsAutomaton.fromGrammar (fun w n => List.replicate n w) rules 0

example : (aut.bind fun A => (SxOutside.fromAutomaton A 3).bind fun outs =>
    (fillChart A [7, 7, 7] A.states 0 outs (List.replicate A.brackets.length true)).bind fun c => c.getWeight 0 3 A.initial) = some (some 1) := by decide

example : (aut.bind fun A => (SxOutside.fromAutomaton A 3).bind fun outs => outs.get 1 0 1 3) = some (some 1) := by decide

example : (aut.bind fun A => (SxOutside.fromAutomaton A 3).bind fun outs => outs.get 1 1 2 3) = some none := by decide

example : FactorsLeOne (fun w n => List.replicate n w) rules := by
  unfold FactorsLeOne
  decide

end C42Example

end Rustomata.Props
