import Verif.Proofs.TreeCost

/-!
# The order of the parses with rounded weights
-/

namespace Rustomata
open Spec KForest

section
variable {N T W : Type _} [DecidableEq N] [DecidableEq T] [RoundedWeight W] {factorize : W → Nat → List W} {ℓ : W → NNReal} {κ : NNReal}
  {order : Nat → List Nat → List Nat} {g : Lcfrs N T W} {R : CsRep N T W} {width : Nat}

/-- The candidates are nearly in the order of their costs. -/
theorem candidates_near (hℓ : NearLog W ℓ κ) (hone : ℓ 1 = 0) {rules : List (PMCFGRule N T W)} {init : N} {A : CsAutomaton T W}
    (hA : CsAutomaton.fromGrammar factorize (indexed rules) init = some A) (hlen : ∀ w n, (factorize w n).length = n) (hg : ParserGrammar rules init)
    (hw : Props.FactorsLeOne factorize (indexed rules)) (h0 : FactorsNeZero factorize rules) (hcyc : NoVariableCycle rules) (hpre : Preterminals rules)
    {word : List T} (hn0 : 0 < word.length) (hn : word.length ≤ 255) (hi : A.initial < A.states) {mask : List Bool} (hml : mask.length = A.brackets.length)
    {beam : Nat} {delta : W} {outs : SxOutside W} {chart : DenseChart W} (hc : fillChart A word beam delta outs mask = some chart) :
    ∃ ts words, (ts.Pairwise fun t t' => ∀ d d', ReadOff A rules init t d → ReadOff A rules init t' d' →
        d.cost (factorCost ℓ factorize) ≤ κ ^ (4 * ((word.length + 1) * (A.states + 1)) ^ 2) * d'.cost (factorCost ℓ factorize)) ∧
      (∀ t, t ∈ ts ↔ ∃ w, ChartDerives (buGrammar A mask) (fun i j q => ∃ w, chart.getWeight i j q = some (some w)) 0 word.length A.initial t w) ∧
      List.Forall₂ (fun t v => treeWord A.brackets t = some v) ts words ∧
      ∃ fuel₀, ∀ m, ∀ fuel ≥ fuel₀, KIter.run A chart mask fuel word.length m KIter.new = some ((List.range m).map fun k => words[k]?) := by
  haveI : NoZeroDivisors W := ⟨fun {a b} h => by
    by_contra h'
    rw [not_or] at h'
    exact hℓ.ne_zero a b h'.1 h'.2 h⟩
  obtain ⟨st, ps, h1, h2, _⟩ := CsAutomaton.fromGrammar_rep hA
  have hle := Props.leOne_of_factors hA hw
  obtain ⟨hget, hbest⟩ := fillChart_best h2.buWF hn hc (hle.chains mask)
    fun i q rid a v hi hq hr => Props.C44_terminals hA hn hc (terminalDet_of hA hg hpre mask) hi hq hr
  obtain ⟨_, hsup⟩ := fillChart_supported h2.buWF hn hc
  obtain ⟨rank₀, hrank₀⟩ := noChainCycle_of hA hcyc mask
  obtain ⟨rank, hR, hrank⟩ := ranks_le (rank := rank₀) (states := A.states) (r := fun q q₁ => ∃ rid w, (buGrammar A mask).unary rid q q₁ w) (by
    rintro q q₁ ⟨rid, w, h⟩
    refine ⟨?_, hrank₀ _ _ _ _ h⟩
    rw [h2.grammar] at h
    obtain ⟨_, Q, S, _, _, h3⟩ := h
    rw [show A.states = st.length from h2.len.1]
    exact (List.getElem?_eq_some_iff.1 h3).1)
  obtain ⟨ts, words, ⟨hF, hts⟩, h3, h4⟩ := enumeratesLists h1 h2 hi hml hget hsup (R := A.states) (rank := rank) (fun q _ => hR q)
    (fun rid q q₁ w h => hrank q q₁ ⟨rid, w, h⟩) hn0 hn
  -- the costs of the rules
  let c : Nat → NNReal := fun k => ((ps[k]?).map fun p => ℓ p.1.weight).getD 0
  have hck : ∀ k p, (ps[k]?).map Prod.fst = some p → c k = ℓ p.weight := by
    intro k p hk
    rw [Option.map_eq_some_iff] at hk
    obtain ⟨x, hx, rfl⟩ := hk
    simp [c, hx]
  have hunit : ∀ k p, (ps[k]?).map Prod.fst = some p → Unit01 p.weight ∧ ℓ p.weight = c k := by
    intro k p hk
    obtain ⟨b, rid, r, g1, g2⟩ := prod_rule h1 hk
    refine ⟨⟨prod_ne_zero g2 (h0 r (List.mem_of_getElem? g1)), ?_⟩, (hck k p hk).symm⟩
    rw [Option.map_eq_some_iff] at hk
    obtain ⟨x, hx, rfl⟩ := hk
    exact grammarProds_weight _ _ hw h1 x (List.mem_of_getElem? hx)
  have hcost : RuleCosts (buGrammar A mask) ℓ c := by
    rw [h2.grammar]
    refine ⟨?_, ?_, ?_⟩
    · rintro rid q a w ⟨_, Q, h, _⟩
      exact hunit _ _ h
    · rintro rid q q₁ w ⟨_, Q, S, h, _⟩
      exact hunit _ _ h
    · rintro rid q q₁ q₂ w ⟨_, Q, L, R, h, _⟩
      exact hunit _ _ h
  have hu : ∀ i j q w, i < j → j ≤ word.length → q < A.states → chartWeight chart i j q = some w → Unit01 w := by
    intro i j q w h1 h2 h3 hw'
    obtain ⟨o, e1, e2⟩ := (Props.C42_sound hA hn hc h1 h2).2 q h3
    rw [chartWeight_some, e1, Option.some.injEq] at hw'
    obtain ⟨t, ht⟩ := e2 w hw'
    exact ⟨derives_ne_zero hA h0 ht, SxOutside.derives_le_one hle ht⟩
  have hnear := chartForest_near hℓ h2 hml hget hbest hcost hu hF
  have hat := near_at hnear (chartForest_of h2 hml hget A.states rank) ((word.length + 1) * (A.states + 1)) (i := 0) (j := word.length) (q := A.initial)
    ⟨hn0, le_refl _, hi⟩ (by
      show (word.length - 0) * (A.states + 1) + rank A.initial < _
      have := hR A.initial
      rw [Nat.sub_zero, Nat.add_mul]
      omega)
  refine ⟨ts, words, ?_, h3, h4⟩
  have hlt : ∀ t ∈ ts, ∀ d, ReadOff A rules init t d → t.cost c = d.cost (factorCost ℓ factorize) := by
    rintro t ht d ⟨rid, P, es, r, comp, u, e1, e2, e3, e4, e5, e6⟩
    obtain ⟨w, hcd⟩ := (h3 t).1 ht
    obtain ⟨_, u', hu, hd⟩ := chartDerives_word hcd
    have hd := hd [] [] rfl
    rw [List.nil_append, List.append_nil] at hd
    have hu : u'.length = word.length := by omega
    rw [← hu] at hd
    refine tree_cost hone hlen hg hA (fun st' ps' h _ k p hk => ?_) hd e1 e2 e3 e4 e5 e6
    rw [h1, Option.some.injEq] at h
    exact hck k p (h ▸ hk)
  rw [List.pairwise_iff_getElem]
  intro i j hi hj hij d d' hd hd'
  have hl := hts.length_eq
  have hr := (List.forall₂_iff_get.1 hts).2
  rw [← hlt _ (List.getElem_mem hi) d hd, ← hlt _ (List.getElem_mem hj) d' hd']
  exact hat.order i j _ _ _ _ hij.le (List.getElem?_eq_getElem (by omega)) (List.getElem?_eq_getElem (by omega)) (hr i (by omega) hi) (hr j (by omega) hj)

/-- The derivations that the parser returns are nearly in the order of their costs. -/
theorem parses_near (hℓ : NearLog W ℓ κ) (hone : ℓ 1 = 0) (hR : CsRep.new factorize order g width = some R) (ho : HashOrder order)
    (hlen : ∀ w n, (factorize w n).length = n) (hg : ParserGrammar g.rules g.init) (hw : Props.FactorsLeOne factorize (indexed g.rules))
    (h0 : FactorsNeZero factorize g.rules) (hcyc : NoVariableCycle g.rules) (hpre : Preterminals g.rules) {word : List T} (hn0 : 0 < word.length)
    (hn : word.length ≤ 255) {o : CsOptions W} (hb0 : 0 < o.beam.getD R.generator.states) (hs : o.beam.getD R.generator.states ≤ 65535) :
    ∃ ds out, ParsedLength g.rules g.init word ds out ∧ ((ds.map Prod.snd).Pairwise fun d d' =>
        d.cost (factorCost ℓ factorize) ≤ κ ^ (4 * ((word.length + 1) * (R.generator.states + 1)) ^ 2) * d'.cost (factorCost ℓ factorize)) ∧
      (R.generator.states ≤ o.beam.getD R.generator.states → o.delta = 0 → ∀ e d, Numbers g.rules e d ∧ Derives g.rules g.init d [word] → (e, d) ∈ ds) ∧
      ∃ m₀ fuel₀, ∀ m, ∀ fuel ≥ fuel₀,
      (∃ k, R.parses o word fuel m = some (out.take k)) ∧ (o.candidates = none → m₀ ≤ m → R.parses o word fuel m = some out) := by
  haveI : NoZeroDivisors W := ⟨fun {a b} h => by
    by_contra h'
    rw [not_or] at h'
    exact hℓ.ne_zero a b h'.1 h'.2 h⟩
  obtain ⟨ds, out, k1, k2, k3, k4⟩ := parses_core hR ho hlen hg hw hn0 hn hb0 hs (Q := fun d d' =>
    d.cost (factorCost ℓ factorize) ≤ κ ^ (4 * ((word.length + 1) * (R.generator.states + 1)) ^ 2) * d'.cost (factorCost ℓ factorize)) (by
    intro A chart mask outs hA hRA hi hml hc
    rw [hRA]
    exact candidates_near hℓ hone hA hlen hg hw h0 hcyc hpre hn0 hn hi hml hc)
  exact ⟨ds, out, k1, k2, fun h1 h2 => k3 this h0 h1 h2, k4⟩

end

end Rustomata
