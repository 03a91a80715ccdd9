import Verif.Proofs.CsKBestSound
import Verif.Props.CsFill
import Mathlib.Algebra.Order.Ring.Nat

/-!
# Property C44: the enumeration of the derivations in a chart
-/

namespace Rustomata.Props
open Spec

section
variable {N T W : Type _} [DecidableEq N] [DecidableEq T] [LinearOrderedCommMonoidWithZero W] {factorize : W → Nat → List W}
  {rules : List (Nat × PMCFGRule N T W)} {init : N} {A : CsAutomaton T W}

/-- **C44** For all charts that contain the greatest weights with respect to the rules and the other weights in the chart, if there is no cycle of chain rules: the
iterator returns the derivations in the chart by descending weight, each once, and ends after the last one. -/
theorem C44_enumerates_partial (h : CsAutomaton.fromGrammar factorize rules init = some A) (hi : A.initial < A.states) {filter : List Bool}
    (hf : filter.length = A.brackets.length) {chart : DenseChart W} {n : Nat}
    (hget : ∀ i j q, i < j → j ≤ n → q < A.states → ∃ o, chart.getWeight i j q = some o)
    (hbest : ChartBest (buGrammar A filter) (fun i j q => (chart.getWeight i j q).getD none) n A.states) (hcyc : NoChainCycle (buGrammar A filter))
    (hn0 : 0 < n) (hn : n ≤ 255) (m : Nat) : Enumerates A chart filter n m := by
  obtain ⟨st, ps, h1, h2, _⟩ := CsAutomaton.fromGrammar_rep h
  exact (enumeratesAll h1 h2 hi hf hget hbest hcyc hn0 hn).enumerates m

/-- **C44** The charts that `fill_chart` computes (with any beam, threshold and estimates) are of this form if no chain rule has a weight greater than one and if a
state that is in the chart for a word has terminal rules only for this word. -/
theorem C44_filled_partial (h : CsAutomaton.fromGrammar factorize rules init = some A) (hi : A.initial < A.states) {word : List T} {beam : Nat} {delta : W}
    {outs : SxOutside W} {filter : List Bool} (hf : filter.length = A.brackets.length) {chart : DenseChart W}
    (hc : fillChart A word beam delta outs filter = some chart) (hu : ∀ rid q q₁ w, (buGrammar A filter).unary rid q q₁ w → w ≤ 1)
    (hcyc : NoChainCycle (buGrammar A filter))
    (hT : ∀ i q rid a v, i < word.length → (∃ w, chart.getWeight i (i + 1) q = some (some w)) → (buGrammar A filter).nullary rid q a v → word[i]? = some a)
    (hn0 : 0 < word.length) (hn : word.length ≤ 255) (m : Nat) : Enumerates A chart filter word.length m := by
  obtain ⟨st, ps, h1, h2, _⟩ := CsAutomaton.fromGrammar_rep h
  obtain ⟨hget, hbest⟩ := fillChart_best h2.buWF hn hc hu hT
  exact (enumeratesAll h1 h2 hi hf hget hbest hcyc hn0 hn).enumerates m

/-- **C44** Under the same conditions, the enumeration is complete and finite: all derivations in the chart are given, each once, and then `None`. -/
theorem C44_complete_partial (h : CsAutomaton.fromGrammar factorize rules init = some A) (hi : A.initial < A.states) {word : List T} {beam : Nat} {delta : W}
    {outs : SxOutside W} {filter : List Bool} (hf : filter.length = A.brackets.length) {chart : DenseChart W}
    (hc : fillChart A word beam delta outs filter = some chart) (hu : ∀ rid q q₁ w, (buGrammar A filter).unary rid q q₁ w → w ≤ 1)
    (hcyc : NoChainCycle (buGrammar A filter))
    (hT : ∀ i q rid a v, i < word.length → (∃ w, chart.getWeight i (i + 1) q = some (some w)) → (buGrammar A filter).nullary rid q a v → word[i]? = some a)
    (hn0 : 0 < word.length) (hn : word.length ≤ 255) : EnumeratesAll A chart filter word.length := by
  obtain ⟨st, ps, h1, h2, _⟩ := CsAutomaton.fromGrammar_rep h
  obtain ⟨hget, hbest⟩ := fillChart_best h2.buWF hn hc hu hT
  exact enumeratesAll h1 h2 hi hf hget hbest hcyc hn0 hn

end

section
variable {N T W : Type _} [DecidableEq N] [DecidableEq T] [Zero W] [One W] [CommMagma W] [LinearOrder W] {factorize : W → Nat → List W}
  {rules : List (Nat × PMCFGRule N T W)} {init : N} {A : CsAutomaton T W}

/-- **C44** The condition for terminal rules holds if each state with a terminal rule has only rules for this terminal. -/
theorem C44_terminals (h : CsAutomaton.fromGrammar factorize rules init = some A) {word : List T} {beam : Nat} {delta : W} {outs : SxOutside W}
    {filter : List Bool} {chart : DenseChart W} (hn : word.length ≤ 255) (hc : fillChart A word beam delta outs filter = some chart)
    (hd : TerminalDet (buGrammar A filter)) {i q rid : Nat} {a : T} {v : W} (hi : i < word.length) (hq : ∃ w, chart.getWeight i (i + 1) q = some (some w))
    (hr : (buGrammar A filter).nullary rid q a v) : word[i]? = some a := by
  obtain ⟨w, hw⟩ := hq
  obtain ⟨st, ps, h1, h2, _⟩ := CsAutomaton.fromGrammar_rep h
  have hlt : q < A.states := by
    rw [h2.grammar] at hr
    obtain ⟨_, Q, _, hQ⟩ := hr
    have := (List.getElem?_eq_some_iff.1 hQ).1
    rw [show A.states = st.length from h2.len.1]
    exact this
  obtain ⟨o, ho, ht⟩ := (C42_sound h hn hc (Nat.lt_succ_self i) hi).2 q hlt
  rw [hw, Option.some.injEq] at ho
  obtain ⟨t, ht⟩ := ht w ho.symm
  cases ht with
  | nullary g1 g2 _ => rw [g1, (hd _ _ _ _ hr).1 _ _ _ g2]
  | unary g1 _ _ => exact absurd g1 ((hd _ _ _ _ hr).2 _ _ _)
  | binary g1 _ g2 g3 =>
    have := g2.span
    have := g3.span
    omega

end

section
variable {N T W : Type _} [DecidableEq N] [DecidableEq T] [Zero W] [One W] [Mul W] [LinearOrder W] {factorize : W → Nat → List W}
  {rules : List (Nat × PMCFGRule N T W)} {init : N} {A : CsAutomaton T W}

/-- **C44** The enumeration has at most one result (the bound for the depth of the recursion is irrelevant). -/
theorem C44_deterministic {chart : DenseChart W} {filter : List Bool} {n m fuel fuel' : Nat} {it : KIter W} {r r'}
    (h : KIter.run A chart filter fuel n m it = some r) (h' : KIter.run A chart filter fuel' n m it = some r') : r = r' := by
  have h1 := KIter.run_mono (Nat.le_max_left fuel fuel') m h
  rw [KIter.run_mono (Nat.le_max_right fuel fuel') m h'] at h1
  exact (Option.some.inj h1).symm

/-- **C43, C44** For all charts: each candidate is the bracket word of a derivation in the chart. -/
theorem C44_sound (h : CsAutomaton.fromGrammar factorize rules init = some A) {chart : DenseChart W} {filter : List Bool} {n m fuel : Nat} (hn : n ≤ 255)
    {out : List (Option (List (Bracket BracketContent)))} (hr : KIter.run A chart filter fuel n m KIter.new = some out) {v : List (Bracket BracketContent)}
    (hv : some v ∈ out) :
    ∃ t w, ChartDerives (buGrammar A filter) (fun i j q => ∃ w, chart.getWeight i j q = some (some w)) 0 n A.initial t w ∧ treeWord A.brackets t = some v := by
  obtain ⟨st, ps, h1, h2, _⟩ := CsAutomaton.fromGrammar_rep h
  refine KIter.run_bt h2 ?_ hn m ?_ hr v hv
  · rw [h2.grammar, h2.brackets]
    exact brackets_of_prods h1 filter
  · intro i j q cell hc
    cases hc

end

/-- **C44** for all charts that `fill_chart` computes for grammars with weights of at most one. -/
def C44_claim : Prop :=
  ∀ (W : Type) [LinearOrderedCommMonoidWithZero W] (factorize : W → Nat → List W) (rules : List (Nat × PMCFGRule Nat Nat W)) (init : Nat)
    (A : CsAutomaton Nat W) (word : List Nat) (beam : Nat) (delta : W) (outs : SxOutside W) (filter : List Bool) (chart : DenseChart W),
    CsAutomaton.fromGrammar factorize rules init = some A → A.initial < A.states → 0 < word.length → word.length ≤ 255 →
    filter.length = A.brackets.length → (∀ rid q q₁ w, (buGrammar A filter).unary rid q q₁ w → w ≤ 1) →
    fillChart A word beam delta outs filter = some chart → ∀ m, Enumerates A chart filter word.length m

namespace C44Witness

/-- `S → X X`, `S → Z X` with weight 2, `X → a`, `X → b` with weight 3, `Z → a`. -/
def rules : List (Nat × PMCFGRule Nat Nat Nat) :=
  [(0, ⟨0, [1, 1], [[.var 0 0, .var 1 0]], 1⟩), (1, ⟨0, [2, 1], [[.var 0 0, .var 1 0]], 2⟩), (2, ⟨1, [], [[.t 7]], 1⟩), (3, ⟨1, [], [[.t 8]], 3⟩),
   (4, ⟨2, [], [[.t 7]], 1⟩)]

def aut : Option (CsAutomaton Nat Nat) := CsAutomaton.fromGrammar (fun w n => List.replicate n w) rules 0

def result : Option (List (Option (List (Bracket BracketContent)))) :=
  aut.bind fun A => (fillChart A [7, 8] A.states 0 ⟨[], 0, 5⟩ (List.replicate 5 true)).bind fun c => KIter.run A c (List.replicate 5 true) 5 2 7 KIter.new

/-- `S → X X` for the words `b b`, with weight 9. -/
def t₉ : BinTree := .binary 0 1 (.nullary 3) (.nullary 3)

/-- `S → Z X` for the words `a b`, with weight 6. -/
def t₆ : BinTree := .binary 1 1 (.nullary 4) (.nullary 3)

/-- The positions of a bracket word. -/
def positions (t : BinTree) : Option (List Nat) :=
  result.map fun out => (List.range 7).filter fun k => out[k]? = some (aut.bind fun A => treeWord A.brackets t)

theorem positions₆ : positions t₆ = some [0] := by decide +kernel
theorem positions₉ : positions t₉ = some [1] := by decide +kernel
theorem end_ : (result.bind fun out => out[6]?) = some none := by decide +kernel

theorem weights : (aut.bind fun A => (fillChart A [7, 8] A.states 0 ⟨[], 0, 5⟩ (List.replicate 5 true)).bind fun c =>
    some (c.getWeight 0 1 1, c.getWeight 1 2 1, c.getWeight 0 1 2)) = some (some (some 1), some (some 3), some (some 1)) := by decide +kernel

end C44Witness

open C44Witness in
/-- **C44** is violated, since terminal rules are not compared to the sentence: for the sentence `a b`, the derivation of `b b` with weight 9 is returned after a
derivation with weight 6. -/
theorem C44_order_violated : ¬ C44_claim := by
  intro h
  obtain ⟨A, hA⟩ : ∃ A, aut = some A := ⟨_, rfl⟩
  have hA' := hA
  unfold aut at hA'
  obtain ⟨chart, hc⟩ : ∃ c, fillChart A [7, 8] A.states 0 ⟨[], 0, 5⟩ (List.replicate 5 true) = some c := by
    cases hA
    exact ⟨_, rfl⟩
  have hi : A.initial < A.states := by
    cases hA
    decide
  have hl : A.brackets.length = 5 := by
    cases hA
    rfl
  have hres : result = KIter.run A chart (List.replicate 5 true) 5 2 7 KIter.new := by
    unfold result
    rw [hA]
    simp only [Option.bind_some, hc]
  obtain ⟨ts, words, h1, h2, h3, h4, h5, h6, fuel₀, h7⟩ := h Nat (fun w n => List.replicate n w) rules 0 A [7, 8] A.states 0 ⟨[], 0, 5⟩ (List.replicate 5 true)
    chart hA' hi (by decide) (by decide) (by rw [hl]; rfl) (by
      intro rid q q₁ w hu
      obtain ⟨_, l, hl, hm⟩ := hu
      have : ∀ l ∈ A.buUnaries, l = [] := by
        cases hA
        decide
      rw [this l (List.mem_of_getElem? hl)] at hm
      simp at hm) hc 7
  have hrun := h7 (max fuel₀ 5) (Nat.le_max_left _ _)
  have hend := end_
  have hp₆ := positions₆
  have hp₉ := positions₉
  obtain ⟨out, hout⟩ : ∃ out, result = some out := by
    cases hr : result with
    | none => rw [hr] at hend; cases hend
    | some out => exact ⟨out, rfl⟩
  rw [KIter.run_mono (Nat.le_max_right fuel₀ 5) 7 (hres ▸ hout), Option.some.injEq] at hrun
  rw [hout] at hend
  simp only [positions, hout, Option.map_some, Option.some.injEq, hA, Option.bind_some] at hp₆ hp₉ hend
  have hlen := h6.length_eq
  have hlt : ts.length < 7 := by
    rw [hrun] at hend
    simp at hend
    omega
  have hind : ∀ t w, (t, w) ∈ ts → ∃ k : Nat, ts[k]? = some (t, w) ∧ k ∈ (List.range 7).filter fun k => out[k]? = some (treeWord A.brackets t) := by
    intro t w hm
    obtain ⟨k, hk⟩ := List.getElem?_of_mem hm
    obtain ⟨hk', hk''⟩ := List.getElem?_eq_some_iff.1 hk
    have := (List.forall₂_iff_get.1 h6).2 k hk' (by omega)
    simp only [List.get_eq_getElem, hk''] at this
    refine ⟨k, hk, ?_⟩
    rw [List.mem_filter, List.mem_range, hrun]
    refine ⟨by omega, ?_⟩
    rw [decide_eq_true_eq, List.getElem?_map, List.getElem?_range (by omega), Option.map_some, this, List.getElem?_eq_getElem (by omega)]
  have hd : ∀ t w, ChartDerives (buGrammar A (List.replicate 5 true)) (fun i j q => ∃ w, chart.getWeight i j q = some (some w)) 0 2 A.initial t w → (t, w) ∈ ts :=
    fun t w hd => (h5 t w hd).resolve_right fun h => by omega
  have hb₀ : (buGrammar A (List.replicate 5 true)).binary 0 0 1 1 1 := by
    cases hA
    exact ⟨rfl, _, rfl, by decide⟩
  have hb₁ : (buGrammar A (List.replicate 5 true)).binary 1 0 2 1 2 := by
    cases hA
    exact ⟨rfl, _, rfl, by decide⟩
  have hn₃ : (buGrammar A (List.replicate 5 true)).nullary 3 1 8 3 := by
    cases hA
    exact ⟨rfl, _, rfl, by decide⟩
  have hn₄ : (buGrammar A (List.replicate 5 true)).nullary 4 2 7 1 := by
    cases hA
    exact ⟨rfl, _, rfl, by decide⟩
  have hi0 : A.initial = 0 := by
    cases hA
    rfl
  have hw : chart.getWeight 0 1 1 = some (some 1) ∧ chart.getWeight 1 2 1 = some (some 3) ∧ chart.getWeight 0 1 2 = some (some 1) := by
    have := weights
    rw [hA] at this
    simp only [Option.bind_some, hc, Option.some.injEq, Prod.mk.injEq] at this
    exact this
  have hd₆ := hd t₆ (2 * 1 * 3) (by rw [hi0]; exact .binary (by omega) (by omega) hb₁ ⟨_, hw.2.2⟩ ⟨_, hw.2.1⟩ (.nullary hn₄) (.nullary hn₃))
  have hd₉ := hd t₉ (1 * 3 * 3) (by rw [hi0]; exact .binary (by omega) (by omega) hb₀ ⟨_, hw.1⟩ ⟨_, hw.2.1⟩ (.nullary hn₃) (.nullary hn₃))
  obtain ⟨k₆, e1, e2⟩ := hind t₆ _ hd₆
  obtain ⟨k₉, e3, e4⟩ := hind t₉ _ hd₉
  rw [hp₆, List.mem_singleton] at e2
  rw [hp₉, List.mem_singleton] at e4
  subst e2
  subst e4
  obtain ⟨g1, g2⟩ := List.getElem?_eq_some_iff.1 e1
  obtain ⟨g3, g4⟩ := List.getElem?_eq_some_iff.1 e3
  have := List.pairwise_iff_getElem.1 h3 0 1 g1 g3 (by omega)
  rw [g2, g4] at this
  simp at this

namespace C44Cycle

/-- `S → B B`, `S → S`, `B → b`, all with weight one. -/
def rules : List (Nat × PMCFGRule Nat Nat Nat) :=
  [(0, ⟨0, [1, 1], [[.var 0 0, .var 1 0]], 1⟩), (1, ⟨0, [0], [[.var 0 0]], 1⟩), (2, ⟨1, [], [[.t 7]], 1⟩)]

def aut : Option (CsAutomaton Nat Nat) := CsAutomaton.fromGrammar (fun w n => List.replicate n w) rules 0

theorem bts : (aut.bind fun A => (fillChart A [7, 7] A.states 0 ⟨[], 0, 5⟩ (List.replicate 3 true)).bind fun c =>
    backtraces A c (List.replicate 3 true) 0 2 0) = some [(1, .binary 0 1 1 1 1 0 0), (1, .unary 1 0 1 0)] := by decide +kernel

end C44Cycle

open C44Cycle in
/-- **C44** is also violated for a cycle of chain rules with weight one: the first derivation is the chain rule applied to the first derivation, so that the
iterator does not return. -/
theorem C44_cycle_violated : ¬ C44_claim := by
  intro h
  obtain ⟨A, hA⟩ : ∃ A, aut = some A := ⟨_, rfl⟩
  have hA' := hA
  unfold aut at hA'
  obtain ⟨chart, hc⟩ : ∃ c, fillChart A [7, 7] A.states 0 ⟨[], 0, 5⟩ (List.replicate 3 true) = some c := by
    cases hA
    exact ⟨_, rfl⟩
  have hi : A.initial < A.states := by
    cases hA
    decide
  have hl : A.brackets.length = 3 := by
    cases hA
    rfl
  obtain ⟨ts, words, h1, h2, h3, h4, h5, h6, fuel₀, h7⟩ := h Nat (fun w n => List.replicate n w) rules 0 A [7, 7] A.states 0 ⟨[], 0, 5⟩ (List.replicate 3 true)
    chart hA' hi (by decide) (by decide) (by rw [hl]; rfl) (by
      intro rid q q₁ w hu
      obtain ⟨_, l, hl, hm⟩ := hu
      have : ∀ l ∈ A.buUnaries, ∀ x ∈ l, x.weight ≤ 1 := by
        cases hA
        decide
      exact this l (List.mem_of_getElem? hl) _ hm) hc 1
  have hrun := h7 (fuel₀ + 1) (by omega)
  -- the cache after the first call
  obtain ⟨d, rest, hd⟩ : ∃ d rest, ∀ fuel, kth A chart (List.replicate 3 true) (fuel + 1) 0 (u8 2) A.initial 0 [] = some (some (.unary 1 0 1 0, 1), d) ∧
      d.get (0, 2, 0) = some ([(.unary 1 0 1 0, 1)], rest) := by
    have hb := bts
    rw [hA] at hb
    simp only [Option.bind_some, hc] at hb
    have hi0 : A.initial = 0 := by
      cases hA
      rfl
    refine ⟨AMap.set [] (0, 2, 0) ([(.unary 1 0 1 0, 1)], [(1, .binary 0 1 1 1 1 0 0)]), [(1, .binary 0 1 1 1 1 0 0)], fun fuel => ⟨?_, rfl⟩⟩
    rw [hi0, show u8 2 = 2 from rfl]
    simp only [kth, show (AMap.get ([] : KCache Nat) (0, 2, 0)) = none from rfl, hb]
    rfl
  have hk : ∀ fuel, kth A chart (List.replicate 3 true) (fuel + 1) 0 2 0 0 d = some (some (.unary 1 0 1 0, 1), d) := by
    intro fuel
    simp only [kth, (hd fuel).2]
    rfl
  have hr : ∀ fuel, readBt A chart (List.replicate 3 true) fuel 0 2 (.unary 1 0 1 0) d = none := by
    intro fuel
    induction fuel with
    | zero => rfl
    | succ fuel ih =>
      cases fuel with
      | zero => rfl
      | succ fuel =>
        simp only [readBt, hk fuel]
        simp only [readBt] at ih
        rw [ih]
  have hk' := (hd fuel₀).1
  rw [show u8 2 = 2 from rfl] at hk'
  simp only [KIter.run, KIter.next, KIter.new, show u8 [7, 7].length = 2 from rfl, hk', hr] at hrun
  cases hrun

namespace C44Example

/-- `S → X Y`, `X → a`, `Y → Z`, `Z → b`, `S → U`, `U → X Z`. -/
def rules : List (Nat × PMCFGRule Nat Nat Nat) :=
  [(0, ⟨0, [1, 2], [[.var 0 0, .var 1 0]], 1⟩), (1, ⟨1, [], [[.t 7]], 1⟩), (2, ⟨2, [3], [[.var 0 0]], 1⟩), (3, ⟨3, [], [[.t 8]], 1⟩),
   (4, ⟨0, [4], [[.var 0 0]], 1⟩), (5, ⟨4, [1, 3], [[.var 0 0, .var 1 0]], 1⟩)]

def aut : Option (CsAutomaton Nat Nat) := CsAutomaton.fromGrammar (fun w n => List.replicate n w) rules 0

def chart (A : CsAutomaton Nat Nat) : Option (DenseChart Nat) := fillChart A [7, 8] A.states 0 ⟨[], 0, 5⟩ (List.replicate 6 true)

theorem terminalDet {A : CsAutomaton Nat Nat} (hA : aut = some A) : TerminalDet (buGrammar A (List.replicate 6 true)) := by
  have hmem : ∀ {m : AMap Nat (List (BuRule Nat))} {a l}, m.get a = some l → (a, l) ∈ m := by
    intro m a l h
    induction m with
    | nil => cases h
    | cons p m ih =>
      simp only [AMap.get] at h
      split at h
      · cases h
        subst_vars
        exact List.mem_cons_self ..
      · exact List.mem_cons_of_mem _ (ih h)
  have h1 : ∀ p ∈ A.buInitials, ∀ x ∈ p.2, ∀ p' ∈ A.buInitials, ∀ x' ∈ p'.2, x'.lhs = x.lhs → p'.1 = p.1 := by
    cases hA
    decide
  have h2 : ∀ p ∈ A.buInitials, ∀ x ∈ p.2, ∀ l ∈ A.buUnaries, ∀ x' ∈ l, x'.lhs ≠ x.lhs := by
    cases hA
    decide
  rintro rid q a w ⟨_, l, hl, hm⟩
  exact ⟨fun rid' a' w' ⟨_, l', hl', hm'⟩ => h1 _ (hmem hl) _ hm _ (hmem hl') _ hm' rfl,
    fun rid' q₁ w' ⟨_, l', hl', hm'⟩ => h2 (a, l) (hmem hl) _ hm _ (List.mem_of_getElem? hl') _ hm' rfl⟩

/-- Two derivations, then the end. -/
example : (aut.bind fun A => (chart A).bind fun c => (KIter.run A c (List.replicate 6 true) 5 2 4 KIter.new).map fun l => l.map Option.isSome) =
    some [true, true, false, false] := by decide +kernel

example : ∃ A c, aut = some A ∧ chart A = some c ∧ ∀ m, Enumerates A c (List.replicate 6 true) 2 m := by
  obtain ⟨A, hA⟩ : ∃ A, aut = some A := ⟨_, rfl⟩
  obtain ⟨c, hc⟩ : ∃ c, chart A = some c := by
    cases hA
    exact ⟨_, rfl⟩
  refine ⟨A, c, hA, hc, fun m => C44_filled_partial (word := [7, 8]) hA ?_ ?_ hc ?_ ?_ ?_ (by decide) (by decide) m⟩
  · cases hA
    decide
  · cases hA
    rfl
  · rintro rid q q₁ w ⟨_, l, hl, hm⟩
    have : ∀ l ∈ A.buUnaries, ∀ x ∈ l, x.weight ≤ 1 := by
      cases hA
      decide
    exact this l (List.mem_of_getElem? hl) _ hm
  · refine ⟨fun q => [2, 0, 1, 0, 1].getD q 0, ?_⟩
    rintro rid q q₁ w ⟨_, l, hl, hm⟩
    have : ∀ q₁ < A.buUnaries.length, ∀ x ∈ A.buUnaries.getD q₁ [], [2, 0, 1, 0, 1].getD q₁ 0 < [2, 0, 1, 0, 1].getD x.lhs 0 := by
      cases hA
      decide
    obtain ⟨h1, h2⟩ := List.getElem?_eq_some_iff.1 hl
    have := this q₁ h1
    have e : A.buUnaries.getD q₁ [] = l := by simp [List.getD, hl]
    rw [e] at this
    exact this _ hm
  · exact fun i q rid a v hi hq hr => C44_terminals (word := [7, 8]) hA (by decide) hc (terminalDet hA) hi hq hr

end C44Example

end Rustomata.Props
