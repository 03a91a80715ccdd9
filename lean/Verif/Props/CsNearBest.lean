import Verif.Model.RoundedFactorize
import Verif.Props.CsNear

/-!
# Property C105: the best parses with rounded weights

By **C104**, the results of the parser are nearly in the order of their exact weights. Without pruning, no derivation that is missing so far is much better than the
next result: in this sense, the first results are the best derivations. This is also shown for the factors that the tool computes.
-/

namespace Rustomata.Spec

/-- `x` is rounded with a relative error of at most `δ`. -/
def Rounding.NearAt (r : Rounding) (δ x : ℝ) : Prop := |r.round x - x| ≤ δ * |x|

end Rustomata.Spec

namespace Rustomata.Props
open Rustomata Spec

section
variable {N T W : Type _} [DecidableEq N] [DecidableEq T] [RoundedWeight W] {factorize : W → Nat → List W} {order : Nat → List Nat → List Nat}
  {g : Lcfrs N T W} {width : Nat}

/-- **C105** The construction of the parser does not panic with rounded weights. -/
theorem C105_new (hg : ParserGrammar g.rules g.init) (hlen : ∀ w n, (factorize w n).length = n) (hw : FactorsLeOne factorize (indexed g.rules))
    (hwidth : width ≤ 255) : ∃ R, CsRep.new factorize order g width = some R := by
  obtain ⟨A, hA⟩ := fromGrammar_total (factorize := factorize) hg (rs := indexed g.rules) fun r hr => List.mem_of_getElem? (mem_indexed.1 hr)
  obtain ⟨fan, g1, g2, _⟩ := hg.lcfrs
  obtain ⟨r, hr, hh, _⟩ := (g1 g.init 1).1 g2
  obtain ⟨b, hb⟩ := C40_new_total (rules := g.rules) (init := g.init) order (fun r hr c hc => (hg.normal r hr).2.1 c hc) ⟨r, hr, hh⟩
  obtain ⟨outs, ho, _⟩ := C41_total hA hw (initial_lt hA hg hlen) width
  refine ⟨⟨A, outs, b, g.rules⟩, ?_⟩
  unfold CsRep.new
  rw [if_pos hwidth, if_pos (inNormalForm_of hg.normal)]
  change (match CsAutomaton.fromGrammar factorize (indexed g.rules) g.init, RuleMaskBuilder.new order g.rules g.init with
    | some A, some masks => (SxOutside.fromAutomaton A width).map fun estimates => (⟨A, estimates, masks, g.rules⟩ : CsRep N T W)
    | _, _ => none) = _
  simp only [hA, hb, ho, Option.map_some]

end

/-- **C105** Without pruning: each derivation of the sentence that is not among the first results is not much better than the next one. -/
theorem C105_best {N T W : Type} [DecidableEq N] [DecidableEq T] [Zero W] [One W] [Mul W] [LinearOrder W] {r : Rounding} {ε : ℝ} {e : W → LogWeight r}
    {factorize : W → Nat → List W} {order : Nat → List Nat → List Nat} {g : Lcfrs N T W} {width : Nat} {R : CsRep N T W} {word : List T}
    (he : LogsBy r ε e) (hR : CsRep.new factorize order g width = some R) (ho : HashOrder order) (hlen : ∀ w n, (factorize w n).length = n)
    (hw : ∀ r ∈ g.rules, ∀ w ∈ factorize r.weight r.composition.length, w ≤ 1 ∧ w ≠ 0) (hg : ParserGrammar g.rules g.init) {γ : NNReal}
    (hγ : ∀ r ∈ g.rules, ((factorize r.weight r.composition.length).map fun w => (e w).cost).sum ≤ γ * (e r.weight).cost ∧
      (e r.weight).cost ≤ γ * ((factorize r.weight r.composition.length).map fun w => (e w).cost).sum)
    (hcyc : NoVariableCycle g.rules) (hpre : Preterminals g.rules) {o : CsOptions W} (hb : o.beam = none) (hδ : o.delta = 0)
    (hs : R.generator.states ≤ 65535) (hn0 : 0 < word.length) (hn : word.length ≤ 255) {m fuel : Nat} {out : List (GornTree (PMCFGRule N T W))}
    (hout : R.parses o word fuel m = some out) {i : Nat} {t : GornTree (PMCFGRule N T W)} {d d' : DTree (PMCFGRule N T W)}
    (hi : out[i]? = some t) (hd : TreeOf d t) (hd' : Derives g.rules g.init d' [word]) (hmiss : ∀ j < i, ∀ t', out[j]? = some t' → ¬ TreeOf d' t') :
    d.cost (fun r => (e r.weight).cost) ≤
      γ ^ 2 * roundFactor ε ^ (4 * ((word.length + 1) * (R.generator.states + 1)) ^ 2) * d'.cost fun r => (e r.weight).cost := by
  have hW : RoundedLogs W := ⟨r, ε, e, he.within, he.strict, he.zero, he.one, he.mul⟩
  have hone : (e 1).cost = 0 := by
    rw [he.one]
    show Real.toNNReal (-0) = 0
    simp
  have hpos : 0 < R.generator.states := by
    unfold CsRep.new at hR
    split at hR
    swap
    · cases hR
    split at hR
    swap
    · cases hR
    split at hR
    swap
    · cases hR
    rename_i A masks hA hmk
    rw [Option.map_eq_some_iff] at hR
    obtain ⟨outs, houts, rfl⟩ := hR
    exact Nat.zero_lt_of_lt (initial_lt hA hg hlen)
  obtain ⟨ds, all, h1, h2, h4, m₀, fuel₀, h3⟩ := @parses_near N T W _ _ hW.weight factorize (fun w => (e w).cost) (roundFactor ε) order g R width (nearLog he hW)
    hone hR ho hlen hg (fun r hr w h => (hw _ (List.mem_of_getElem? (mem_indexed.1 hr)) w h).1) (fun r hr w h => (hw r hr w h).2) hcyc hpre word hn0 hn o
    (by rw [hb]; exact hpos) (by rw [hb]; exact hs)
  obtain ⟨k, hk⟩ := (h3 m fuel₀ le_rfl).1
  have := C54_deterministic hout hk
  subst this
  have hl := h1.2.length_eq
  have hrel := (List.forall₂_iff_get.1 h1.2).2
  obtain ⟨hlt, hi'⟩ := List.getElem?_eq_some_iff.1 hi
  rw [List.length_take] at hlt
  rw [List.getElem_take] at hi'
  have hdi : (ds[i]'(by omega)).2 = d := by
    have := hrel i (by omega) (by omega)
    simp only [List.get_eq_getElem, hi'] at this
    exact at?_ext _ _ fun p => by rw [← this.2 p, hd.2 p]
  obtain ⟨x', hx'⟩ := exists_numbers hd'
  obtain ⟨j, hj⟩ := List.getElem?_of_mem (h4 (by rw [hb]; exact le_rfl) hδ x' d' ⟨hx', hd'⟩)
  obtain ⟨hlj, hj'⟩ := List.getElem?_eq_some_iff.1 hj
  have hij : i ≤ j := by
    by_contra hc
    have := hrel j (by omega) (by omega)
    simp only [List.get_eq_getElem, hj'] at this
    refine hmiss j (by omega) (all[j]'(by omega)) ?_ this
    rw [List.getElem?_eq_getElem (by rw [List.length_take]; omega), List.getElem_take]
  have hord : d.cost (factorCost (fun w => (e w).cost) factorize) ≤
      roundFactor ε ^ (4 * ((word.length + 1) * (R.generator.states + 1)) ^ 2) * d'.cost (factorCost (fun w => (e w).cost) factorize) := by
    rcases Nat.lt_or_eq_of_le hij with hij | rfl
    · have := List.pairwise_iff_getElem.1 h2 i j (by simp; omega) (by simpa using hlj) hij
      simpa only [List.getElem_map, hdi, hj'] using this
    · rw [hj'] at hdi
      rw [← hdi]
      exact le_mul_of_one_le_left zero_le (one_le_pow₀ (one_le_roundFactor he.within))
  obtain ⟨_, u, hu, _⟩ := h1.1 (ds[i]'(by omega)).1 d (by rw [← hdi]; exact List.getElem_mem _)
  calc d.cost (fun r => (e r.weight).cost) ≤ γ * d.cost (factorCost (fun w => (e w).cost) factorize) := cost_le (fun r hr => (hγ r hr).2) hu
    _ ≤ γ * (roundFactor ε ^ (4 * ((word.length + 1) * (R.generator.states + 1)) ^ 2) * d'.cost (factorCost (fun w => (e w).cost) factorize)) :=
      mul_le_mul_right hord _
    _ ≤ γ * (roundFactor ε ^ (4 * ((word.length + 1) * (R.generator.states + 1)) ^ 2) * (γ * d'.cost fun r => (e r.weight).cost)) :=
      mul_le_mul_right (mul_le_mul_right (cost_le (fun r hr => (hγ r hr).1) hd') _) _
    _ = _ := by ring

/-- **C105** without errors: with rounded logarithms, for the grammars of **C54** and factors whose costs sum up to the cost of the weight, the parser without pruning
returns the best derivations first. -/
def C105_exact_claim : Prop :=
  ∀ (N T W : Type) [DecidableEq N] [DecidableEq T] [Zero W] [One W] [Mul W] [LinearOrder W] (r : Rounding) (ε : ℝ) (e : W → LogWeight r)
    (factorize : W → Nat → List W) (order : Nat → List Nat → List Nat) (g : Lcfrs N T W) (width : Nat) (R : CsRep N T W) (word : List T),
    LogsBy r ε e → CsRep.new factorize order g width = some R → HashOrder order → (∀ w n, (factorize w n).length = n) →
    (∀ r ∈ g.rules, ∀ w ∈ factorize r.weight r.composition.length, w ≤ 1 ∧ w ≠ 0) → ParserGrammar g.rules g.init →
    (∀ r ∈ g.rules, ((factorize r.weight r.composition.length).map fun w => (e w).cost).sum = (e r.weight).cost) →
    NoVariableCycle g.rules → Preterminals g.rules → R.generator.states ≤ 65535 →
    0 < word.length → word.length ≤ 255 → ∀ m fuel out, R.parses .default word fuel m = some out →
    ∀ (i : Nat) t d d', out[i]? = some t → TreeOf d t → Derives g.rules g.init d' [word] → (∀ j < i, ∀ t', out[j]? = some t' → ¬ TreeOf d' t') →
      d.cost (fun r => (e r.weight).cost) ≤ d'.cost fun r => (e r.weight).cost

open C104Example in
theorem short_derives : Derives g.rules g.init short [[7]] := by
  refine Derives.node (r := ⟨0, [4], [[.var 0 0]], C102Example.weight 2⟩) (args := [[[7]]]) ?_ (.cons
    (Derives.node (r := ⟨4, [], [[.t 7]], C102Example.weight 4⟩) (args := []) ?_ .nil ?_) .nil) ?_
  · exact List.mem_of_getElem? (i := 4) rfl
  · exact List.mem_of_getElem? (i := 5) rfl
  · rfl
  · rfl

open C104Example in
/-- **C105** The bound is not one: with rounded weights, the first result is not always the best derivation. -/
theorem C105_exact_violated : ¬ C105_exact_claim := by
  intro h
  obtain ⟨R, hR, hs, hp⟩ := parses
  have := h Nat Nat C102Example.Rough C89Example.few (1 / 5) C102Example.embed C102Example.factorize _ g 5 R [7] logsBy hR C54Witness.hashOrder
    C102Example.factorize_length (by decide +kernel) grammar factors noVariableCycle preterminals hs (by simp) (by simp) _ _ _ hp 0 _ long short
    rfl long_tree short_derives fun j hj => absurd hj (by omega)
  rw [long_cost, short_cost] at this
  norm_num at this

open C104Example in
/-- The conditions of the theorem hold for this grammar. -/
example : ∃ R, CsRep.new C102Example.factorize (fun _ l => l.dedup) g 5 = some R ∧ (long.cost fun r => (C102Example.embed r.weight).cost) ≤
    1 ^ 2 * roundFactor (1 / 5) ^ (4 * ((1 + 1) * (R.generator.states + 1)) ^ 2) * short.cost fun r => (C102Example.embed r.weight).cost := by
  obtain ⟨R, hR, hs, hp⟩ := parses
  exact ⟨R, hR, C105_best logsBy hR C54Witness.hashOrder C102Example.factorize_length (by decide +kernel) grammar (γ := 1)
    (fun r hr => by rw [factors r hr, one_mul]; exact ⟨le_rfl, le_rfl⟩) noVariableCycle preterminals (o := .default) rfl rfl hs (word := [7]) (by simp) (by simp) hp
    (i := 0) rfl long_tree short_derives fun j hj => absurd hj (by omega)⟩

/-- **C105** If nothing is rounded, then each derivation of the sentence that is not among the first results is not better than the next one. -/
theorem C105_exact {N T W : Type} [DecidableEq N] [DecidableEq T] [Zero W] [One W] [Mul W] [LinearOrder W] {r : Rounding} {e : W → LogWeight r}
    {factorize : W → Nat → List W} {order : Nat → List Nat → List Nat} {g : Lcfrs N T W} {width : Nat} {R : CsRep N T W} {word : List T}
    (he : LogsBy r 0 e) (hR : CsRep.new factorize order g width = some R) (ho : HashOrder order) (hlen : ∀ w n, (factorize w n).length = n)
    (hw : ∀ r ∈ g.rules, ∀ w ∈ factorize r.weight r.composition.length, w ≤ 1 ∧ w ≠ 0) (hg : ParserGrammar g.rules g.init)
    (hf : ∀ r ∈ g.rules, ((factorize r.weight r.composition.length).map fun w => (e w).cost).sum = (e r.weight).cost)
    (hcyc : NoVariableCycle g.rules) (hpre : Preterminals g.rules) {o : CsOptions W} (hb : o.beam = none) (hδ : o.delta = 0)
    (hs : R.generator.states ≤ 65535) (hn0 : 0 < word.length) (hn : word.length ≤ 255) {m fuel : Nat} {out : List (GornTree (PMCFGRule N T W))}
    (hout : R.parses o word fuel m = some out) {i : Nat} {t : GornTree (PMCFGRule N T W)} {d d' : DTree (PMCFGRule N T W)}
    (hi : out[i]? = some t) (hd : TreeOf d t) (hd' : Derives g.rules g.init d' [word]) (hmiss : ∀ j < i, ∀ t', out[j]? = some t' → ¬ TreeOf d' t') :
    d.cost (fun r => (e r.weight).cost) ≤ d'.cost fun r => (e r.weight).cost := by
  have := C105_best he hR ho hlen hw hg (γ := 1) (fun r hr => by rw [hf r hr, one_mul]; exact ⟨le_rfl, le_rfl⟩) hcyc hpre hb hδ hs hn0 hn hout hi hd hd' hmiss
  simpa [roundFactor] using this

/-- The weights of the tool themselves. -/
theorem logsBy_id {r : Rounding} {ε : ℝ} (h : r.Within ε) : LogsBy r ε (fun w : LogWeight r => w) := ⟨h, strictMono_id, rfl, rfl, fun _ _ => rfl⟩

theorem roundedFactorize_length {r : Rounding} (w : LogWeight r) (n : Nat) : (roundedFactorize w n).length = n := by simp [roundedFactorize]

/-- **C105** The factors that the tool computes for a weight greater than zero and at most one are such weights. -/
theorem C105_factors {r : Rounding} {w f : LogWeight r} {n : Nat} (hw : w ≤ 1) (h0 : w ≠ 0) (hf : f ∈ roundedFactorize w n) : f ≤ 1 ∧ f ≠ 0 := by
  rcases LogWeight.cases_log w with h | ⟨x, hx, rfl⟩
  · exact absurd h h0
  rw [LogWeight.ofLog_le_one] at hw
  obtain rfl := (List.mem_replicate.1 hf).2
  refine ⟨?_, fun h => by cases h⟩
  show LogWeight.ofLog _ _ ≤ 1
  rw [LogWeight.ofLog_le_one]
  have hp : 0 ≤ r.round (1 / (n : ℝ)) := by
    rw [← r.zero]
    exact r.mono (by positivity)
  calc r.round (x * r.round (1 / (n : ℝ))) ≤ r.round 0 := r.mono (mul_nonpos_of_nonpos_of_nonneg hw hp)
    _ = 0 := r.zero

/-- **C105** The factors that the tool computes for zero are zero. -/
theorem C105_zero {r : Rounding} {f : LogWeight r} {n : Nat} (hf : f ∈ roundedFactorize 0 n) : f = 0 := (List.mem_replicate.1 hf).2

/-- **C105** The costs of the factors that the tool computes sum up to the cost of the weight up to a factor. -/
theorem C105_sum {r : Rounding} {δ : ℝ} (h0 : 0 ≤ δ) (h1 : δ < 1) {x : ℝ} (hx : r.round x = x) (hx0 : x ≤ 0) {n : Nat} (hn : n ≠ 0)
    (hq : r.NearAt δ (1 / (n : ℝ))) (hp : r.NearAt δ (x * r.round (1 / (n : ℝ)))) :
    ((roundedFactorize (LogWeight.ofLog x hx) n).map LogWeight.cost).sum ≤ roundFactor δ ^ 2 * (LogWeight.ofLog x hx).cost ∧
      (LogWeight.ofLog x hx).cost ≤ roundFactor δ ^ 2 * ((roundedFactorize (LogWeight.ofLog x hx) n).map LogWeight.cost).sum := by
  have hn' : (0 : ℝ) < n := by exact_mod_cast Nat.pos_of_ne_zero hn
  have hκ : (roundFactor δ : ℝ) = 1 / (1 - δ) := Real.coe_toNNReal _ (by have := h1; positivity)
  set q := r.round (1 / (n : ℝ)) with hqd
  have hq0 : 0 ≤ q := by
    rw [hqd, ← r.zero]
    exact r.mono (by positivity)
  set y := r.round (x * q) with hyd
  have hy0 : y ≤ 0 := by
    rw [hyd, ← r.zero]
    exact r.mono (mul_nonpos_of_nonpos_of_nonneg hx0 hq0)
  have hsum : ((((roundedFactorize (LogWeight.ofLog x hx) n).map LogWeight.cost).sum : NNReal) : ℝ) = n * -y := by
    have e1 : roundedFactorize (LogWeight.ofLog x hx) n = List.replicate n (LogWeight.ofLog y (r.idem _)) := rfl
    rw [e1, List.map_replicate, List.sum_replicate, cost_ofLog, nsmul_eq_mul, NNReal.coe_mul, Real.coe_toNNReal _ (by linarith), NNReal.coe_natCast]
  have hxc : (((LogWeight.ofLog x hx).cost : NNReal) : ℝ) = -x := by rw [cost_ofLog, Real.coe_toNNReal _ (by linarith)]
  -- the quotient
  have hq1 : 1 - δ ≤ n * q ∧ n * q ≤ 1 + δ := by
    have := abs_le.1 hq
    rw [abs_of_pos (by positivity)] at this
    have e : (n : ℝ) * (1 / n) = 1 := by field_simp
    constructor
    · have := mul_le_mul_of_nonneg_left this.1 hn'.le
      nlinarith
    · have := mul_le_mul_of_nonneg_left this.2 hn'.le
      nlinarith
  -- the product
  have hy1 : (1 - δ) * (-x * q) ≤ -y ∧ -y ≤ (1 + δ) * (-x * q) := by
    have := abs_le.1 hp
    rw [abs_of_nonpos (mul_nonpos_of_nonpos_of_nonneg hx0 hq0)] at this
    constructor <;> nlinarith
  have hx1 : 0 ≤ -x := by linarith
  have hlow : (1 - δ) ^ 2 * -x ≤ n * -y := by
    calc (1 - δ) ^ 2 * -x = (1 - δ) * -x * (1 - δ) := by ring
      _ ≤ (1 - δ) * -x * (n * q) := mul_le_mul_of_nonneg_left hq1.1 (mul_nonneg (by linarith) hx1)
      _ = n * ((1 - δ) * (-x * q)) := by ring
      _ ≤ n * -y := mul_le_mul_of_nonneg_left hy1.1 hn'.le
  have hup : n * -y ≤ (1 + δ) ^ 2 * -x := by
    calc n * -y ≤ n * ((1 + δ) * (-x * q)) := mul_le_mul_of_nonneg_left hy1.2 hn'.le
      _ = (1 + δ) * -x * (n * q) := by ring
      _ ≤ (1 + δ) * -x * (1 + δ) := mul_le_mul_of_nonneg_left hq1.2 (mul_nonneg (by linarith) hx1)
      _ = (1 + δ) ^ 2 * -x := by ring
  have hle : 1 + δ ≤ 1 / (1 - δ) := by
    rw [le_div_iff₀ (by linarith)]
    nlinarith
  constructor
  · rw [← NNReal.coe_le_coe, NNReal.coe_mul, NNReal.coe_pow, hsum, hxc, hκ]
    exact hup.trans (mul_le_mul_of_nonneg_right (pow_le_pow_left₀ (by linarith) hle 2) hx1)
  · have hpos : 0 < (1 - δ) ^ 2 := pow_pos (by linarith) 2
    rw [← NNReal.coe_le_coe, NNReal.coe_mul, NNReal.coe_pow, hsum, hxc, hκ, one_div, inv_pow, ← div_eq_inv_mul, le_div_iff₀ hpos]
    linarith

/-- The weights of the rules are greater than zero and at most one, and the quotients and products in the computation of their factors are rounded with a relative error
of at most `δ`. -/
def RoundedProbabilities {N T : Type _} {r : Rounding} (δ : ℝ) (rules : List (PMCFGRule N T (LogWeight r))) : Prop :=
  ∀ p ∈ rules, ∃ x h, p.weight = LogWeight.ofLog x h ∧ x ≤ 0 ∧ r.NearAt δ (1 / (p.composition.length : ℝ)) ∧
    r.NearAt δ (x * r.round (1 / (p.composition.length : ℝ)))

theorem roundedProbabilities_factors {N T : Type _} {r : Rounding} {δ : ℝ} {rules : List (PMCFGRule N T (LogWeight r))} (h : RoundedProbabilities δ rules) :
    ∀ p ∈ rules, ∀ w ∈ roundedFactorize p.weight p.composition.length, w ≤ 1 ∧ w ≠ 0 := by
  intro p hp w hw
  obtain ⟨x, hx, e, hx0, _⟩ := h p hp
  refine C105_factors ?_ ?_ hw
  · rw [e, LogWeight.ofLog_le_one]
    exact hx0
  · rw [e]
    intro h
    cases h

/-- **C105** for the weights and the factors of the tool: the construction of the parser does not panic, the results of the parser are nearly in the order of their
weights, and without pruning they are nearly the best derivations. -/
theorem C105_logarithms {N T : Type} [DecidableEq N] [DecidableEq T] {r : Rounding} {ε δ : ℝ} {order : Nat → List Nat → List Nat} {g : Lcfrs N T (LogWeight r)}
    {width : Nat} (hε : r.Within ε) (h0 : 0 ≤ δ) (h1 : δ < 1) (ho : HashOrder order) (hg : ParserGrammar g.rules g.init) (hp : RoundedProbabilities δ g.rules)
    (hcyc : NoVariableCycle g.rules) (hpre : Preterminals g.rules) (hwidth : width ≤ 255) :
    ∃ R, CsRep.new roundedFactorize order g width = some R ∧ ∀ (o : CsOptions (LogWeight r)) (word : List T) m fuel out, 0 < word.length → word.length ≤ 255 →
      R.parses o word fuel m = some out → ∀ (i : Nat) t d, out[i]? = some t → TreeOf d t → ∀ d' : DTree (PMCFGRule N T (LogWeight r)),
      (0 < o.beam.getD R.generator.states ∧ o.beam.getD R.generator.states ≤ 65535 ∧ (∃ (j : Nat) (t' : _), i < j ∧ out[j]? = some t' ∧ TreeOf d' t') ∨
        o.beam = none ∧ o.delta = 0 ∧ R.generator.states ≤ 65535 ∧ Derives g.rules g.init d' [word] ∧ ∀ j < i, ∀ t', out[j]? = some t' → ¬ TreeOf d' t') →
      d.cost (fun p => p.weight.cost) ≤
        roundFactor δ ^ 4 * roundFactor ε ^ (4 * ((word.length + 1) * (R.generator.states + 1)) ^ 2) * d'.cost fun p => p.weight.cost := by
  have hw := roundedProbabilities_factors hp
  obtain ⟨R, hR⟩ := C105_new (order := order) hg roundedFactorize_length (fun r hr w h => (hw _ (List.mem_of_getElem? (mem_indexed.1 hr)) w h).1) hwidth
  have hγ : ∀ p ∈ g.rules, ((roundedFactorize p.weight p.composition.length).map fun w => w.cost).sum ≤ roundFactor δ ^ 2 * p.weight.cost ∧
      p.weight.cost ≤ roundFactor δ ^ 2 * ((roundedFactorize p.weight p.composition.length).map fun w => w.cost).sum := by
    intro p hpr
    obtain ⟨x, hx, e, hx0, h2, h3⟩ := hp p hpr
    have := C105_sum h0 h1 hx hx0 (n := p.composition.length) (by
      have := (hg.normal p hpr).1
      simpa using this) h2 h3
    rw [e]
    exact this
  have e4 : roundFactor δ ^ 4 = (roundFactor δ ^ 2) ^ 2 := by rw [← pow_mul]
  refine ⟨R, hR, fun o word m fuel out hn0 hn hout i t d hi hd d' h => ?_⟩
  rw [e4]
  rcases h with ⟨hb0, hs, j, t', hij, hj, hd'⟩ | ⟨hb, hδ, hs, hd', hmiss⟩
  · exact C104_order (logsBy_id hε) hR ho roundedFactorize_length hw hg hγ hcyc hpre hb0 hs hn0 hn hout hij hi hj hd hd'
  · exact C105_best (logsBy_id hε) hR ho roundedFactorize_length hw hg hγ hcyc hpre hb hδ hs hn0 hn hout hi hd hd' hmiss

namespace C105Example

theorem few_one : C89Example.few.round (-1) = -1 := by
  show C89Example.round (-1) = -1
  norm_num [C89Example.round]

/-- `S → A`, `S → B`, `A → 7`, `B → 7`. -/
noncomputable def g : Lcfrs Nat Nat (LogWeight C89Example.few) :=
  ⟨[⟨0, [1], [[.var 0 0]], .ofLog 0 C89Example.few.zero⟩, ⟨0, [2], [[.var 0 0]], .ofLog (-1) few_one⟩, ⟨1, [], [[.t 7]], .ofLog (-1) few_one⟩,
    ⟨2, [], [[.t 7]], .ofLog 0 C89Example.few.zero⟩], 0⟩

def fanout : Nat → Option Nat
  | 0 => some 1
  | 1 => some 1
  | 2 => some 1
  | _ => none

theorem grammar : ParserGrammar g.rules g.init where
  lcfrs := by
    refine ⟨fanout, ?_, rfl, ?_⟩
    · intro A f
      match A with
      | 0 => simp [fanout, g, eq_comm]
      | 1 => simp [fanout, g, eq_comm]
      | 2 => simp [fanout, g, eq_comm]
      | A + 3 => simp [fanout, g]
    · intro r hr
      simp only [g, List.mem_cons, List.not_mem_nil, or_false] at hr
      rcases hr with rfl | rfl | rfl | rfl
      all_goals
        refine ⟨by decide, fun i j => ?_⟩
        match i with
        | 0 => simp [varsOf, fanout]
        | i + 1 => simp [varsOf]
  normal := by
    intro r hr
    simp only [g, List.mem_cons, List.not_mem_nil, or_false] at hr
    rcases hr with rfl | rfl | rfl | rfl <;> simp
  closed := by simp [g]

theorem preterminals : Preterminals g.rules := by
  simp [Preterminals, g]

theorem noVariableCycle : NoVariableCycle g.rules := by
  refine ⟨fun A _ => if A = 0 then 1 else 0, fun r hr c i j B h1 h2 => ?_⟩
  simp only [g, List.mem_cons, List.not_mem_nil, or_false] at hr
  rcases hr with rfl | rfl | rfl | rfl
  all_goals
    match c with
    | 0 => simp at h1 <;> (obtain ⟨rfl, rfl⟩ := h1; simp at h2; subst h2; simp)
    | c + 1 => simp at h1

theorem probabilities : RoundedProbabilities 0 g.rules := by
  have h1 : C89Example.few.round 1 = 1 := by
    show C89Example.round 1 = 1
    norm_num [C89Example.round]
  intro p hp
  simp only [g, List.mem_cons, List.not_mem_nil, or_false] at hp
  rcases hp with rfl | rfl | rfl | rfl
  · exact ⟨_, _, rfl, by norm_num, by simp [Rounding.NearAt, h1], by simp [Rounding.NearAt, h1, C89Example.few.zero]⟩
  · exact ⟨_, _, rfl, by norm_num, by simp [Rounding.NearAt, h1], by simp [Rounding.NearAt, h1, few_one]⟩
  · exact ⟨_, _, rfl, by norm_num, by simp [Rounding.NearAt, h1], by simp [Rounding.NearAt, h1, few_one]⟩
  · exact ⟨_, _, rfl, by norm_num, by simp [Rounding.NearAt, h1], by simp [Rounding.NearAt, h1, C89Example.few.zero]⟩

end C105Example

/-- The hypotheses of the theorem for the weights of the tool can be fulfilled with a way to round that is not exact. -/
example : C89Example.few.Within (1 / 5) ∧ HashOrder (fun _ l => l.dedup) ∧ ParserGrammar C105Example.g.rules C105Example.g.init ∧
    RoundedProbabilities 0 C105Example.g.rules ∧ NoVariableCycle C105Example.g.rules ∧ Preterminals C105Example.g.rules :=
  ⟨C89Example.few_within, C54Witness.hashOrder, C105Example.grammar, C105Example.probabilities, C105Example.noVariableCycle, C105Example.preterminals⟩

end Rustomata.Props
