import Verif.Proofs.CsMainAny
import Verif.Proofs.CsCommand

/-!
# The results of the parser for arbitrary terminal rules
-/

namespace Rustomata
open Spec

section
variable {N T W : Type _} [DecidableEq N] [DecidableEq T] [RoundedWeight W] [NoZeroDivisors W] {factorize : W → Nat → List W}
  {order : Nat → List Nat → List Nat} {g : Lcfrs N T W} {width : Nat} {R : CsRep N T W}

omit [NoZeroDivisors W] in
/-- The candidates of a sentence. -/
theorem candidates_each (hR : CsRep.new factorize order g width = some R) (ho : HashOrder order) (hlen : ∀ w n, (factorize w n).length = n)
    (hg : ParserGrammar g.rules g.init) (hw : Props.FactorsLeOne factorize (indexed g.rules))
    (hcyc : NoVariableCycle g.rules) {word : List T} (hn0 : 0 < word.length)
    (hn : word.length ≤ 255) {o : CsOptions W} (hb0 : 0 < o.beam.getD R.generator.states) (hs : o.beam.getD R.generator.states ≤ 65535) :
    R.rules = g.rules ∧ ∃ words : List (List (Bracket BracketContent)),
      (∀ v ∈ words, ∃ rid P u w, v = compWord rid 0 P ∧ @CompDerives N T W (constMonoid W).toMonoid firstFactor (indexed g.rules) g.init 0 rid P u w ∧ u.length = word.length) ∧
      ∃ fuel₀, ∀ m, ∀ fuel ≥ fuel₀, R.generate o word fuel m = some ((List.range m).map fun k => words[k]?) := by
  unfold CsRep.new at hR
  split at hR
  swap
  · cases hR
  split at hR
  swap
  · cases hR
  split at hR
  swap
  · cases hR
  rename_i _ _ A masks hA hmk
  change CsAutomaton.fromGrammar factorize (indexed g.rules) g.init = some A at hA
  rw [Option.map_eq_some_iff] at hR
  obtain ⟨outs, houts, rfl⟩ := hR
  simp only at hs hb0
  have hi := initial_lt hA hg hlen
  obtain ⟨st, ps, h1, hnd, h3, h4, hbr, h6, _, h7⟩ := Props.C42_tables hA
  obtain ⟨mask, hm1, hm2, hm3, hm4⟩ := mask_spec hlen h1 h3 ho hg hmk word
  have hml : mask.length = A.brackets.length := by rw [hm2, hbr, List.length_map]
  obtain ⟨chart, hc⟩ := Props.C42_total hA hw hi houts (beam := o.beam.getD A.states) (delta := o.delta) hml hn hb0 hs
  obtain ⟨ts, words, k3, k4, fuel₀, k5⟩ : EnumeratesEach A chart mask word.length := by
    obtain ⟨st, ps, h1, h2, _⟩ := CsAutomaton.fromGrammar_rep hA
    obtain ⟨hget, hsup⟩ := fillChart_supported h2.buWF hn hc
    exact enumeratesEach h1 h2 hi hml hget hsup (noChainCycle_of hA hcyc mask) hn0 hn
  refine ⟨rfl, words, fun v hv => ?_, fuel₀, fun m fuel hf => ?_⟩
  · obtain ⟨x, hx, hv⟩ := forall₂_mem_right k4 hv
    obtain ⟨w, hcd⟩ := (k3 x).1 hx
    obtain ⟨_, u, hu, hd⟩ := chartDerives_word hcd
    have hd := hd [] [] rfl
    rw [List.nil_append, List.append_nil] at hd
    have hu : u.length = word.length := by omega
    rw [← hu] at hd
    obtain ⟨rid, P, _, c1, c2⟩ := Props.derives_anyWeights hA hlen hd
    rw [hv, Option.some.injEq] at c2
    exact ⟨rid, P, u, _, c2, c1, hu⟩
  · unfold CsRep.generate
    simp only [hm1, hc]
    exact k5 m fuel hf

/-- The fallback for a sentence. -/
theorem with_fallback_each (hR : CsRep.new factorize order g width = some R) (ho : HashOrder order) (hlen : ∀ w n, (factorize w n).length = n)
    (hg : ParserGrammar g.rules g.init) (hw : Props.FactorsLeOne factorize (indexed g.rules))
    (hcyc : NoVariableCycle g.rules) {word : List T} (hn0 : 0 < word.length) (hn : word.length ≤ 255) {o : CsOptions W}
    (hb0 : 0 < o.beam.getD R.generator.states) (hb : o.beam.getD R.generator.states ≤ 65535) :
    ∃ ot fuel₀, (∀ fuel ≥ fuel₀, R.fallback o word fuel = some ot) ∧ (∀ t, ot = some t → ∃ u, FallbackOf g.rules g.init u t ∧ u.length = word.length) ∧
      (FactorsNeZero factorize g.rules → R.generator.states ≤ o.beam.getD R.generator.states → o.delta = 0 → (∃ d, Derives g.rules g.init d [word]) → ot.isSome) := by
  obtain ⟨hrules, words, h1, fuel₀, h2⟩ := candidates_each hR ho hlen hg hw hcyc hn0 hn hb0 hb
  cases words with
  | nil =>
    refine ⟨none, fuel₀, fun fuel hf => ?_, (fun t ht => by cases ht), fun g1 g2 g3 ⟨d, hd⟩ => ?_⟩
    · unfold CsRep.fallback
      rw [h2 1 fuel hf]
      rfl
    · obtain ⟨ds, out, ⟨_, k4⟩, k2, m₀, fuel₁, k3⟩ := parses_each hR ho hlen hg hw hcyc hn0 hn (o := ⟨none, o.beam, o.delta⟩) hb0 hb
      have k5 := k2 inferInstance g1 g2 g3
      obtain ⟨e, he⟩ := exists_numbers hd
      have k6 := (k3 m₀ (max fuel₀ fuel₁) (Nat.le_max_right ..)).2 rfl (le_refl _)
      have k7 := h2 m₀ (max fuel₀ fuel₁) (Nat.le_max_left ..)
      unfold CsRep.parses at k6
      rw [show R.generate ⟨none, o.beam, o.delta⟩ word (max fuel₀ fuel₁) m₀ = R.generate o word (max fuel₀ fuel₁) m₀ from rfl, k7, Option.bind_some,
        untilNone_range] at k6
      simp only [List.take_nil, CsOptions.limit, filterMapP, Option.some.injEq] at k6
      subst k6
      rw [List.forall₂_nil_right_iff] at k4
      subst k4
      cases k5 e d ⟨he, hd⟩
  | cons v words =>
    obtain ⟨rid, P, u, w, rfl, hc, hu⟩ := h1 v (List.mem_cons_self ..)
    obtain ⟨t, m, fuel₁, e1, e2, e3⟩ := @Props.C55_fallback N T W (constMonoid W) _ _ _ _ (Props.parserGrammar_linear hg) _ _ _ _ hc
    refine ⟨some m, max fuel₀ fuel₁, fun fuel hf => ?_, (fun t ht => by cases ht; exact ⟨u, e3, hu⟩), fun _ _ _ _ => rfl⟩
    unfold CsRep.fallback
    rw [h2 1 fuel (by omega), Option.bind_some, untilNone_range]
    simp only [List.take_succ_cons, e1, Option.bind_some, hrules]
    rw [e2 fuel (by omega)]
    rfl

/-- The results of the parser for a sentence, for all options. -/
theorem parser_results_each (hR : CsRep.new factorize order g width = some R) (ho : HashOrder order) (hlen : ∀ w n, (factorize w n).length = n)
    (hg : ParserGrammar g.rules g.init) (hw : Props.FactorsLeOne factorize (indexed g.rules))
    (hcyc : NoVariableCycle g.rules) {word : List T}
    (hn : word.length ≤ 255) {o : CsOptions W} (hb0 : 0 < o.beam.getD R.generator.states) (hs : o.beam.getD R.generator.states ≤ 65535) :
    ∃ ds all out fb res, ParsedLength g.rules g.init word ds all ∧ out <+: all ∧ (o.candidates = none → out = all) ∧
      (∀ t, fb = some t → ∃ u, FallbackOf g.rules g.init u t ∧ u.length = word.length) ∧ DebugIs out fb (o.candidates = some 0) res ∧
      (FactorsNeZero factorize g.rules → R.generator.states ≤ o.beam.getD R.generator.states → o.delta = 0 →
        (∀ e d, Numbers g.rules e d ∧ Derives g.rules g.init d [word] → (e, d) ∈ ds) ∧ ((∃ d, Derives g.rules g.init d [word]) → fb.isSome)) ∧
      ∃ m₀ fuel₀, ∀ m ≥ m₀, ∀ fuel ≥ fuel₀, R.parses o word fuel m = some out ∧ R.fallback o word fuel = some fb ∧ R.debug o word fuel m = some res := by
  rcases Nat.eq_zero_or_pos word.length with h0 | hn0
  · obtain rfl := List.eq_nil_of_length_eq_zero h0
    have hgen := candidates_empty hR ho hlen hg hw hb0 hs
    have hnone : ∀ d, ¬ Derives g.rules g.init d [([] : List T)] := fun d hd => not_derivesOver_nil hg.normal _ ⟨d, _, hd, by simp⟩
    refine ⟨[], [], [], none, .noparse, by simp [ParsedLength], by simp, by simp, by simp, ⟨rfl, .inl rfl⟩, fun _ _ _ => ⟨?_, ?_⟩, 1, 1, ?_⟩
    · rintro e d ⟨_, hd⟩
      exact absurd hd (hnone d)
    · rintro ⟨d, hd⟩
      exact absurd hd (hnone d)
    · intro m hm fuel hf
      obtain ⟨fuel, rfl⟩ : ∃ f, fuel = f + 1 := ⟨fuel - 1, by omega⟩
      obtain ⟨m, rfl⟩ : ∃ f, m = f + 1 := ⟨m - 1, by omega⟩
      have h1 : o.limit (untilNone (List.replicate (m + 1) (none : Option (List (Bracket BracketContent))))) = [] := by
        rw [List.replicate_succ, untilNone]
        unfold CsOptions.limit
        split <;> simp
        intro _ _ h; cases h
      refine ⟨?_, ?_, ?_⟩
      · unfold CsRep.parses
        rw [hgen, Option.bind_some, h1]
        rfl
      · unfold CsRep.fallback
        rw [hgen, Option.bind_some]
        rfl
      · unfold CsRep.debug
        rw [hgen, Option.bind_some, h1]
        rfl
  · obtain ⟨hrules, words, h1, fuel₀, h2⟩ := candidates_each hR ho hlen hg hw hcyc hn0 hn hb0 hs
    obtain ⟨ds, all, k1, k2, m₁, fuel₁, k3⟩ := parses_each hR ho hlen hg hw hcyc hn0 hn hb0 hs
    obtain ⟨fb, fuel₂, f1, f2, f3⟩ := with_fallback_each hR ho hlen hg hw hcyc hn0 hn hb0 hs
    have hrun : ∀ m ≥ words.length, ∀ fuel ≥ fuel₀, R.generate o word fuel m = some ((List.range m).map fun k => words[k]?) ∧
        untilNone ((List.range m).map fun k => words[k]?) = words := by
      intro m hm fuel hf
      refine ⟨h2 m fuel hf, ?_⟩
      rw [untilNone_range, List.take_of_length_le hm]
    obtain ⟨⟨j, k4⟩, k5⟩ := k3 (max m₁ words.length) (max fuel₀ fuel₁) (Nat.le_max_right ..)
    have k5 := fun h => k5 h (Nat.le_max_left ..)
    have k6 : filterMapP (toderiv R.rules) (o.limit words) = some (all.take j) := by
      unfold CsRep.parses at k4
      obtain ⟨r1, r2⟩ := hrun (max m₁ words.length) (Nat.le_max_right ..) (max fuel₀ fuel₁) (Nat.le_max_left ..)
      rw [r1, Option.bind_some, r2] at k4
      exact k4
    have hparses : ∀ m ≥ words.length, ∀ fuel ≥ fuel₀, R.parses o word fuel m = some (all.take j) := fun m hm fuel hf => by
      obtain ⟨r1, r2⟩ := hrun m hm fuel hf
      unfold CsRep.parses
      rw [r1, Option.bind_some, r2, k6]
    have hfb : words.head? = none → fb = none := by
      intro h
      have := f1 (max fuel₀ fuel₂) (Nat.le_max_right ..)
      unfold CsRep.fallback at this
      rw [h2 1 _ (Nat.le_max_left ..), Option.bind_some, untilNone_range] at this
      rw [List.head?_eq_none_iff] at h
      subst h
      exact (Option.some.inj this).symm
    obtain ⟨n, hn'⟩ := firstDeriv_spec 0 k6
    have hres : ∃ res fuel₃, DebugIs (all.take j) fb (o.candidates = some 0) res ∧ ∀ m ≥ words.length, ∀ fuel ≥ fuel₃, R.debug o word fuel m = some res := by
      cases hout : all.take j with
      | cons t out =>
        refine ⟨.parse t n, fuel₀, rfl, fun m hm fuel hf => ?_⟩
        obtain ⟨r1, r2⟩ := hrun m hm fuel hf
        unfold CsRep.debug
        rw [r1, Option.bind_some, r2, hn', hout]
        rfl
      | nil =>
        by_cases hc0 : o.candidates = some 0
        · refine ⟨.noparse, fuel₀, ⟨rfl, .inr (by simp [hc0])⟩, fun m hm fuel hf => ?_⟩
          obtain ⟨r1, r2⟩ := hrun m hm fuel hf
          unfold CsRep.debug
          rw [r1, Option.bind_some, r2, hn', hout, limit_prefix, if_pos hc0]
          rfl
        · cases words with
          | nil =>
            refine ⟨.noparse, fuel₀, ⟨rfl, .inl (hfb rfl)⟩, fun m hm fuel hf => ?_⟩
            obtain ⟨r1, r2⟩ := hrun m hm fuel hf
            have hl : o.limit ([] : List (List (Bracket BracketContent))) = [] := by
              unfold CsOptions.limit
              split <;> simp
            unfold CsRep.debug
            rw [r1, Option.bind_some, r2, hn', hout, hl]
            rfl
          | cons v words =>
            obtain ⟨rid, P, u, w, rfl, hc, hu⟩ := h1 v (List.mem_cons_self ..)
            obtain ⟨t, mt, fuel₃, e1, e2, e3⟩ := @Props.C55_fallback N T W (constMonoid W) _ _ _ _ (Props.parserGrammar_linear hg) _ _ _ _ hc
            have hfbt : fb = some mt := by
              have := f1 (max fuel₀ (max fuel₂ fuel₃)) (by omega)
              unfold CsRep.fallback at this
              rw [h2 1 _ (by omega), Option.bind_some, untilNone_range] at this
              simp only [List.take_succ_cons, e1, Option.bind_some, hrules] at this
              rw [e2 _ (by omega)] at this
              exact (Option.some.inj this).symm
            refine ⟨.fallback mt n, max fuel₀ fuel₃, ⟨rfl, hfbt, by simp [hc0]⟩, fun m hm fuel hf => ?_⟩
            obtain ⟨r1, r2⟩ := hrun m hm fuel (by omega)
            obtain ⟨l', hl'⟩ := limit_head (o := o) (x := compWord rid 0 P) (l := words) hc0
            unfold CsRep.debug
            rw [r1, Option.bind_some, r2, hn', hout, hl']
            simp only [List.head?_nil, e1, Option.bind_some, hrules]
            rw [e2 fuel (by omega)]
            rfl
    obtain ⟨res, fuel₃, d1, d2⟩ := hres
    refine ⟨ds, all, all.take j, fb, res, k1, List.take_prefix .., fun h => ?_, f2, d1, fun g1 g2 g3 => ⟨k2 inferInstance g1 g2 g3, f3 g1 g2 g3⟩, words.length,
      max fuel₀ (max fuel₂ fuel₃), fun m hm fuel hf => ⟨hparses m hm fuel (by omega), f1 fuel (by omega), d2 m hm fuel (by omega)⟩⟩
    have := k5 h
    rw [k4, Option.some.injEq] at this
    exact this

end

end Rustomata
