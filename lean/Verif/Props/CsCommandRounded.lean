import Verif.Props.CsCommandAny
import Verif.Props.CsNearBest

/-!
# Property C106: the command `csparsing parse` with rounded weights

The tool computes with `LogDomain<f64>`. **C84** holds for rounded weights, so that it can be combined with **C105**: the trees that are printed for a line are nearly the
best ones, and they are printed nearly in the order of their weights.
-/

namespace Rustomata.Spec
open Props (TreeOf)

/-- The trees `out` are nearly the best derivations of the sentence: each derivation `d` costs at most `κ` times as much as a derivation `d'` that follows it, or that is
not among the trees before it. -/
def NearlyBest {N T W : Type _} (rules : List (PMCFGRule N T W)) (init : N) (sentence : List T) (c : PMCFGRule N T W → NNReal) (κ : NNReal)
    (out : List (GornTree (PMCFGRule N T W))) : Prop :=
  ∀ (i : Nat) t d, out[i]? = some t → TreeOf d t → ∀ d', Derives rules init d' [sentence] → (∀ j < i, ∀ t', out[j]? = some t' → ¬ TreeOf d' t') →
    d.cost c ≤ κ * d'.cost c

/-- The trees `out` are nearly in the order of their costs. -/
def NearlyOrdered {N T W : Type _} (c : PMCFGRule N T W → NNReal) (κ : NNReal) (out : List (GornTree (PMCFGRule N T W))) : Prop :=
  ∀ (i j : Nat) t t' d d', i < j → out[i]? = some t → out[j]? = some t' → TreeOf d t → TreeOf d' t' → d.cost c ≤ κ * d'.cost c

end Rustomata.Spec

namespace Rustomata.Props
open Rustomata Spec

/-- The bound of **C105** for a sentence of `n` words. -/
noncomputable def orderFactor (ε δ : ℝ) (n states : Nat) : NNReal := roundFactor δ ^ 4 * roundFactor ε ^ (4 * ((n + 1) * (states + 1)) ^ 2)

/-- **C106** For the weights and the factors of the tool: if all lines have the right form, then the command does not panic, and for each line it prints trees (the
first `k`, or the fallback, or none) of a list of derivations that is nearly in the order of their weights, and that consists, without pruning, nearly of the best
derivations. -/
theorem C106_command {N : Type} [DecidableEq N] {r : Rounding} {ε δ : ℝ} {order : Nat → List Nat → List Nat} {g : Lcfrs N (List Nat) (LogWeight r)} {width : Nat}
    {R : CsRep N (List Nat) (LogWeight r)} (hR : CsRep.new roundedFactorize order g width = some R) (hε : r.Within ε) (h0 : 0 ≤ δ) (h1 : δ < 1) (ho : HashOrder order)
    (hg : ParserGrammar g.rules g.init) (hp : RoundedProbabilities δ g.rules) (hcyc : NoVariableCycle g.rules) (hpre : Preterminals g.rules) (hwidth : width ≤ 255)
    {o : CsOptions (LogWeight r)} (hb0 : 0 < o.beam.getD R.generator.states) (hb : o.beam.getD R.generator.states ≤ 65535)
    (a : ParseArgs) (showN : N → List Nat) {text : List Nat} {ls : List (List Nat)} (hls : LinesOf ls text)
    (hform : ∀ i line, ls[i]? = some line → ∃ id ws sentence names, LineOf a.withLines i line id ws ∧ TagsOf a.withPos ws sentence names ∧ sentence.length ≤ 255 ∧
      (sentence.length = 1 → NoTerminalRoot g.rules g.init)) :
    ∃ answers : List (List Nat), answers.length = ls.length ∧
      (∀ (i : Nat) line answer, ls[i]? = some line → answers[i]? = some answer → ∃ id ws sentence names out fb, LineOf a.withLines i line id ws ∧
        TagsOf a.withPos ws sentence names ∧ AnswerTextEach showN a out fb sentence names id answer ∧
        (∀ t ∈ out, ∃ d, TreeOf d t ∧ Derives g.rules g.init d [sentence]) ∧
        NearlyOrdered (fun p => p.weight.cost) (orderFactor ε δ sentence.length R.generator.states) out ∧
        (o.beam = none → o.delta = 0 → NearlyBest g.rules g.init sentence (fun p => p.weight.cost) (orderFactor ε δ sentence.length R.generator.states) out ∧
          (o.candidates = none → ∀ d, Derives g.rules g.init d [sentence] → ∃ t ∈ out, TreeOf d t) ∧
          (¬ (a.debug ∧ o.candidates = some 0) → (∃ d, Derives g.rules g.init d [sentence]) → fb.isSome))) ∧
      ∃ m₀ fuel₀, ∀ m ≥ m₀, ∀ fuel ≥ fuel₀, R.parseCommand o a showN fuel m text = some answers.flatten := by
  have hw := roundedProbabilities_factors hp
  haveI : NoZeroDivisors (LogWeight r) := ⟨fun {a b} h => by
    rcases LogWeight.cases_log a with ha | ⟨x, hx, rfl⟩
    · exact .inl ha
    rcases LogWeight.cases_log b with hb | ⟨y, hy, rfl⟩
    · exact .inr hb
    rw [LogWeight.ofLog_mul] at h
    cases h⟩
  obtain ⟨answers, k1, k2, k3⟩ := C84_command hR ho roundedFactorize_length hg (fun r hr w h => (hw _ (List.mem_of_getElem? (mem_indexed.1 hr)) w h).1) hcyc hb0 hb a
    showN hls hform
  obtain ⟨R', hR', key⟩ := C105_logarithms (order := order) (g := g) hε h0 h1 ho hg hp hcyc hpre hwidth
  rw [hR, Option.some.injEq] at hR'
  subst hR'
  refine ⟨answers, k1, fun i line answer e1 e2 => ?_, k3⟩
  obtain ⟨id, ws, sentence, names, e3, e4, ds, all, out, fb, f1, f2, f3, ⟨m, fuel, f4⟩, f5, f6, f7⟩ := k2 i line answer e1 e2
  obtain ⟨id', ws', sentence', names', g1, g2, hn, _⟩ := hform i line e1
  have e5 : ws' = ws := by
    have := (splitLine_iff.2 g1).symm.trans (splitLine_iff.2 e3)
    simpa using (Prod.ext_iff.1 (Option.some.inj this)).2
  subst e5
  have e6 : sentence' = sentence := by
    have := (splitPos_iff.2 ⟨names', g2, rfl⟩).symm.trans (splitPos_iff.2 ⟨names, e4, rfl⟩)
    exact (Prod.ext_iff.1 (Option.some.inj this)).1
  subst e6
  have htrees : ∀ t ∈ out, ∃ d, TreeOf d t ∧ Derives g.rules g.init d [sentence'] := by
    intro t ht
    obtain ⟨d, q1, q2, q3⟩ := (C101_sentence_partial hR ho roundedFactorize_length hg hpre hn (o := o) (fuel := fuel) (m := m)).1 out f4 t ht
    exact ⟨d, ⟨q1, q2⟩, q3⟩
  have hpos : ∀ (i : Nat) t, out[i]? = some t → 0 < sentence'.length := by
    intro i t hi
    obtain ⟨d, _, hd⟩ := htrees t (List.mem_of_getElem? hi)
    rw [List.length_pos_iff]
    rintro rfl
    exact not_derivesOver_nil hg.normal _ ⟨d, _, hd, by simp⟩
  refine ⟨id, ws', sentence', names, out, fb, e3, e4, f7, htrees, fun i j t t' d d' hij hi hj hd hd' => ?_, fun hb' hδ => ⟨?_, fun hc d hd => ?_, ?_⟩⟩
  · exact key o sentence' m fuel out (hpos i t hi) hn f4 i t d hi hd d' (.inl ⟨hb0, hb, j, t', hij, hj, hd'⟩)
  · intro i t d hi hd d' hd' hmiss
    rw [hb'] at hb
    exact key o sentence' m fuel out (hpos i t hi) hn f4 i t d hi hd d' (.inr ⟨hb', hδ, hb, hd', hmiss⟩)
  · obtain ⟨e, he⟩ := exists_numbers hd
    have hm := (f6 (fun r hr w h => (hw r hr w h).2) (by rw [hb']; exact le_rfl) hδ).1 e d ⟨he, hd⟩
    obtain ⟨j, hj⟩ := List.getElem?_of_mem hm
    obtain ⟨hlj, hj'⟩ := List.getElem?_eq_some_iff.1 hj
    have hl := f1.2.length_eq
    have := (List.forall₂_iff_get.1 f1.2).2 j hlj (by omega)
    simp only [List.get_eq_getElem, hj'] at this
    rw [f3 hc]
    exact ⟨_, List.getElem_mem (by omega), this⟩
  · exact (f6 (fun r hr w h => (hw r hr w h).2) (by rw [hb']; exact le_rfl) hδ).2

namespace C106Example

open C105Example (few_one)

/-- `S → A`, `S → B`, `A → a`, `B → a`. -/
noncomputable def g : Lcfrs Nat (List Nat) (LogWeight C89Example.few) :=
  ⟨[⟨0, [1], [[.var 0 0]], .ofLog 0 C89Example.few.zero⟩, ⟨0, [2], [[.var 0 0]], .ofLog (-1) few_one⟩, ⟨1, [], [[.t [97]]], .ofLog (-1) few_one⟩,
    ⟨2, [], [[.t [97]]], .ofLog 0 C89Example.few.zero⟩], 0⟩

def fanout : Nat → Option Nat
  | 0 => some 1
  | 1 => some 1
  | 2 => some 1
  | _ => none

theorem grammar : ParserGrammar g.rules g.init where
  lcfrs := by
    refine ⟨fanout, ?_, rfl, ?_⟩
    · intro A f
      match A with
      | 0 => simp [fanout, g, eq_comm]
      | 1 => simp [fanout, g, eq_comm]
      | 2 => simp [fanout, g, eq_comm]
      | A + 3 => simp [fanout, g]
    · intro r hr
      simp only [g, List.mem_cons, List.not_mem_nil, or_false] at hr
      rcases hr with rfl | rfl | rfl | rfl
      all_goals
        refine ⟨by decide, fun i j => ?_⟩
        match i with
        | 0 => simp [varsOf, fanout]
        | i + 1 => simp [varsOf]
  normal := by
    intro r hr
    simp only [g, List.mem_cons, List.not_mem_nil, or_false] at hr
    rcases hr with rfl | rfl | rfl | rfl <;> simp
  closed := by simp [g]

theorem preterminals : Preterminals g.rules := by
  simp [Preterminals, g]

theorem noVariableCycle : NoVariableCycle g.rules := by
  refine ⟨fun A _ => if A = 0 then 1 else 0, fun r hr c i j B h1 h2 => ?_⟩
  simp only [g, List.mem_cons, List.not_mem_nil, or_false] at hr
  rcases hr with rfl | rfl | rfl | rfl
  all_goals
    match c with
    | 0 => simp at h1 <;> (obtain ⟨rfl, rfl⟩ := h1; simp at h2; subst h2; simp)
    | c + 1 => simp at h1

theorem probabilities : RoundedProbabilities 0 g.rules := by
  have h1 : C89Example.few.round 1 = 1 := by
    show C89Example.round 1 = 1
    norm_num [C89Example.round]
  intro p hp
  simp only [g, List.mem_cons, List.not_mem_nil, or_false] at hp
  rcases hp with rfl | rfl | rfl | rfl
  · exact ⟨_, _, rfl, by norm_num, by simp [Rounding.NearAt, h1], by simp [Rounding.NearAt, h1, C89Example.few.zero]⟩
  · exact ⟨_, _, rfl, by norm_num, by simp [Rounding.NearAt, h1], by simp [Rounding.NearAt, h1, few_one]⟩
  · exact ⟨_, _, rfl, by norm_num, by simp [Rounding.NearAt, h1], by simp [Rounding.NearAt, h1, few_one]⟩
  · exact ⟨_, _, rfl, by norm_num, by simp [Rounding.NearAt, h1], by simp [Rounding.NearAt, h1, C89Example.few.zero]⟩

theorem noTerminalRoot : NoTerminalRoot g.rules g.init := by
  simp [NoTerminalRoot, g]

theorem derives : ∃ d, Derives g.rules g.init d [[[97]]] := by
  refine ⟨.node ⟨0, [1], [[.var 0 0]], .ofLog 0 C89Example.few.zero⟩ [.node ⟨1, [], [[.t [97]]], .ofLog (-1) few_one⟩ []], ?_⟩
  refine Derives.node (r := ⟨0, [1], [[.var 0 0]], LogWeight.ofLog 0 C89Example.few.zero⟩) (args := [[[[97]]]]) ?_
    (.cons (Derives.node (r := ⟨1, [], [[.t [97]]], LogWeight.ofLog (-1) few_one⟩) (args := []) ?_ .nil ?_) .nil) ?_
  · exact List.mem_of_getElem? (i := 0) rfl
  · exact List.mem_of_getElem? (i := 2) rfl
  · rfl
  · rfl

end C106Example

/-- The hypotheses of the theorem can be fulfilled with a way to round that is not exact. -/
example : (∃ R, CsRep.new roundedFactorize (fun _ l => l.dedup) C106Example.g 5 = some R) ∧ C89Example.few.Within (1 / 5) ∧ HashOrder (fun _ l => l.dedup) ∧
    ParserGrammar C106Example.g.rules C106Example.g.init ∧ RoundedProbabilities 0 C106Example.g.rules ∧ NoVariableCycle C106Example.g.rules ∧
    Preterminals C106Example.g.rules ∧ NoTerminalRoot C106Example.g.rules C106Example.g.init ∧
    ∃ d, Derives C106Example.g.rules C106Example.g.init d [[[97]]] := by
  refine ⟨?_, C89Example.few_within, C54Witness.hashOrder, C106Example.grammar, C106Example.probabilities, C106Example.noVariableCycle, C106Example.preterminals,
    C106Example.noTerminalRoot, C106Example.derives⟩
  exact C105_new C106Example.grammar roundedFactorize_length
      (fun r hr w h => (roundedProbabilities_factors C106Example.probabilities _ (List.mem_of_getElem? (mem_indexed.1 hr)) w h).1) (by decide)

end Rustomata.Props
