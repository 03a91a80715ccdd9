import Verif.Model.Factorize
import Verif.Props.CsCommand

/-!
# C67: parsing with probabilities
-/

namespace Rustomata.Props
open Spec

/-- **C67** The factors are `n` numbers with the product `w`. -/
theorem C67_factorize : Factorizes logFactorize := by
  intro w n
  refine ⟨by simp [logFactorize], fun hn => ?_⟩
  rw [logFactorize, List.prod_replicate, ← NNReal.rpow_natCast, ← NNReal.rpow_mul, one_div, inv_mul_cancel₀ (by exact_mod_cast hn), NNReal.rpow_one]

/-- **C67** The factors of a probability are probabilities that are not less than it, and equal to each other; the factors of a weight are zero only if it is. -/
theorem C67_factors (w : NNReal) (n : Nat) : ∀ x ∈ logFactorize w n, (w ≤ 1 → w ≤ x ∧ x ≤ 1) ∧ (w ≠ 0 → x ≠ 0) ∧ ∀ y ∈ logFactorize w n, x = y := by
  intro x hx
  have hx' := hx
  rw [logFactorize, List.mem_replicate] at hx
  obtain ⟨hn, rfl⟩ := hx
  refine ⟨fun hw => ⟨?_, NNReal.rpow_le_one hw (by positivity)⟩, fun hw h => ?_, fun y hy => (List.mem_replicate.1 hy).2.symm⟩
  · by_cases h0 : w = 0
    · rw [h0]
      exact zero_le
    · have h1 : 1 / (n : ℝ) ≤ 1 := by
        rw [div_le_one (by exact_mod_cast Nat.pos_of_ne_zero hn)]
        exact_mod_cast Nat.one_le_iff_ne_zero.2 hn
      calc w = w ^ (1 : ℝ) := (NNReal.rpow_one w).symm
        _ ≤ w ^ (1 / (n : ℝ)) := NNReal.rpow_le_rpow_of_exponent_ge (pos_iff_ne_zero.2 h0) hw h1
  · rw [NNReal.rpow_eq_zero_iff] at h
    exact hw h.1

/-- All weights are probabilities other than zero. -/
def Probabilities {N T : Type _} (rules : List (PMCFGRule N T NNReal)) : Prop := ∀ r ∈ rules, r.weight ≠ 0 ∧ r.weight ≤ 1

theorem probabilities_factors {N T : Type _} {rules : List (PMCFGRule N T NNReal)} (h : Probabilities rules) :
    FactorsLeOne logFactorize (indexed rules) ∧ FactorsNeZero logFactorize rules :=
  ⟨fun r hr w hw => (((C67_factors _ _ w hw).1 (h r.2 (List.mem_of_getElem? (mem_indexed.1 hr))).2)).2,
    fun r hr w hw => (C67_factors _ _ w hw).2.1 (h r hr).1⟩

section
variable {N T : Type _} [DecidableEq N] [DecidableEq T] {order : Nat → List Nat → List Nat} {width : Nat}

/-- **C67** For grammars in normal form with probabilities, the construction of the parser does not panic. -/
theorem C67_new {g : Lcfrs N T NNReal} (hg : ParserGrammar g.rules g.init) (hp : Probabilities g.rules) (hwidth : width ≤ 255) :
    ∃ R, CsRep.new logFactorize order g width = some R :=
  C54_new_total hg C67_factorize (probabilities_factors hp).1 hwidth

/-- **C67** For grammars with probabilities, the parser without pruning returns the derivations, each once, in the order of their probabilities. -/
theorem C67_parses_partial {g : Lcfrs N T NNReal} {R : CsRep N T NNReal} (hR : CsRep.new logFactorize order g width = some R) (ho : HashOrder order)
    (hg : ParserGrammar g.rules g.init) (hp : Probabilities g.rules) (hpre : Preterminals g.rules)
    (hcyc : NoVariableCycle g.rules) (hs : R.generator.states ≤ 65535) {word : List T} (hn0 : 0 < word.length) (hn : word.length ≤ 255) {o : CsOptions NNReal}
    (hb : o.beam = none) (hd : o.delta = 0) :
    ∃ out, Parses g.rules g.init word out ∧ ∃ m₀ fuel₀, ∀ m, ∀ fuel ≥ fuel₀,
      (∃ k, R.parses o word fuel m = some (out.take k)) ∧ (o.candidates = none → m₀ ≤ m → R.parses o word fuel m = some out) :=
  C54_parses_partial hR ho C67_factorize hg (probabilities_factors hp).1 (probabilities_factors hp).2 hpre hcyc hs hn0 hn hb hd

/-- **C67** The command `csparsing parse` for grammars with probabilities. -/
theorem C67_command_partial {g : Lcfrs N (List Nat) NNReal} {R : CsRep N (List Nat) NNReal} (hR : CsRep.new logFactorize order g width = some R)
    (ho : HashOrder order) (hg : ParserGrammar g.rules g.init) (hp : Probabilities g.rules) (hpre : Preterminals g.rules) (hcyc : NoVariableCycle g.rules)
    (hroot : NoTerminalRoot g.rules g.init) {o : CsOptions NNReal} (hb0 : 0 < o.beam.getD R.generator.states) (hb : o.beam.getD R.generator.states ≤ 65535)
    (a : ParseArgs) (showN : N → List Nat) {text : List Nat} {ls : List (List Nat)} (hls : LinesOf ls text)
    (hform : ∀ i line, ls[i]? = some line → ∃ id ws sentence names, LineOf a.withLines i line id ws ∧ TagsOf a.withPos ws sentence names ∧ sentence.length ≤ 255) :
    ∃ answers : List (List Nat), answers.length = ls.length ∧
      (∀ (i : Nat) line answer, ls[i]? = some line → answers[i]? = some answer → ∃ id ws sentence names, LineOf a.withLines i line id ws ∧
        TagsOf a.withPos ws sentence names ∧ LineAnswer logFactorize g R o a showN sentence names id answer) ∧
      ∃ m₀ fuel₀, ∀ m ≥ m₀, ∀ fuel ≥ fuel₀, R.parseCommand o a showN fuel m text = some answers.flatten :=
  C66_command_partial hR ho C67_factorize hg (probabilities_factors hp).1 hpre hcyc hroot hb0 hb a showN hls hform

end

/-- **C67** The unit weight. -/
theorem C67_unit (n : Nat) : (unitFactorize () n).length = n ∧ (unitFactorize () n).prod = () := ⟨by simp [unitFactorize], rfl⟩

namespace C67Example

/-- `S → X X` with probability 1/2, `X → b` with probability 1/3. -/
noncomputable def g : Lcfrs Nat (List Nat) NNReal := ⟨[⟨0, [1, 1], [[.var 0 0, .var 1 0]], 1 / 2⟩, ⟨1, [], [[.t [98]]], 1 / 3⟩], 0⟩

theorem grammar : ParserGrammar g.rules g.init where
  lcfrs := ⟨fun A => if A = 0 ∨ A = 1 then some 1 else none, by
    refine ⟨fun A f => ?_, rfl, fun r hr => ?_⟩
    · match A with
      | 0 => simp [g, eq_comm]
      | 1 => simp [g, eq_comm]
      | A + 2 => simp [g]
    · simp only [g, List.mem_cons, List.not_mem_nil, or_false] at hr
      rcases hr with rfl | rfl
      · refine ⟨by decide, fun i j => ?_⟩
        match i with
        | 0 => simp [varsOf]
        | 1 => simp [varsOf]
        | i + 2 => simp [varsOf]
      · exact ⟨by decide, fun i j => by simp [varsOf]⟩⟩
  normal := by simp [NormalForm, g]
  closed := by simp [g]

end C67Example

open C67Example in
/-- The hypotheses of the theorems can be fulfilled. -/
example : ParserGrammar g.rules g.init ∧ Probabilities g.rules ∧ Preterminals g.rules ∧ NoVariableCycle g.rules ∧ NoTerminalRoot g.rules g.init := by
  refine ⟨grammar, ?_, by simp [Preterminals, g], ⟨fun _ _ => 0, ?_⟩, by simp [NoTerminalRoot, g]⟩
  · intro r hr
    simp only [g, List.mem_cons, List.not_mem_nil, or_false] at hr
    rcases hr with rfl | rfl
    · exact ⟨by simp, by rw [← NNReal.coe_le_coe]; norm_num⟩
    · exact ⟨by simp, by rw [← NNReal.coe_le_coe]; norm_num⟩
  · intro r hr c i j B h1 h2
    simp only [g, List.mem_cons, List.not_mem_nil, or_false] at hr
    rcases hr with rfl | rfl
    · match c with
      | 0 => simp at h1
      | c + 1 => simp at h1
    · match c with
      | 0 => simp at h1
      | c + 1 => simp at h1

/-- The two factors of 1/4 are 1/2. -/
example : logFactorize (1 / 4) 2 = [1 / 2, 1 / 2] := by
  have : ((1 : NNReal) / 4) ^ (1 / ((2 : Nat) : ℝ)) = 1 / 2 := by
    have h : (1 : NNReal) / 4 = (1 / 2) ^ (2 : ℝ) := by
      rw [show (2 : ℝ) = ((2 : Nat) : ℝ) by norm_num, NNReal.rpow_natCast]
      norm_num
    rw [h, ← NNReal.rpow_mul]
    norm_num
  rw [logFactorize, this]
  rfl

end Rustomata.Props
