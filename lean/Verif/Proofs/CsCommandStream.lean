import Verif.Proofs.CsEnds
import Verif.Proofs.CsMainStream

/-!
# Results of the parser for grammars with cycles and arbitrary terminal rules
-/

namespace Rustomata
open Spec

theorem stream_get {α : Type _} {f : Nat → Option α} (hf : ∀ k k', k ≤ k' → f k = none → f k' = none) (m : Nat) {k : Nat} (hk : k < m) :
    ((List.range m).filterMap f)[k]? = f k := by
  have hlen : (∃ j ≤ k, f j = none) → f k = none := fun ⟨j, hj, h⟩ => hf j k hj h
  have h1 := stream_take hf (k + 1) m
  rw [min_eq_left (by omega)] at h1
  have h2 := stream_take hf k m
  rw [min_eq_left (by omega)] at h2
  have : ((List.range m).filterMap f)[k]? = (((List.range m).filterMap f).take (k + 1))[k]? := by
    rw [List.getElem?_take, if_pos (by omega)]
  rw [this, h1]
  cases hk' : f k with
  | none =>
    rw [List.getElem?_eq_none_iff, List.range_succ, List.filterMap_append, List.length_append]
    have : ((List.range k).filterMap f).length ≤ k := (List.length_filterMap_le _ _).trans (by simp)
    simpa [hk'] using this
  | some a =>
    have hall : ∀ j ∈ List.range k, (f j).isSome := by
      intro j hj
      rw [Option.isSome_iff_ne_none]
      intro h
      rw [hf j k (le_of_lt (List.mem_range.1 hj)) h] at hk'
      cases hk'
    have hl : ((List.range k).filterMap f).length = k := by
      rw [List.length_filterMap_eq_countP, List.countP_eq_length.2 hall, List.length_range]
    rw [List.range_succ, List.filterMap_append, List.getElem?_append_right (by omega), hl]
    simp [hk']

section
variable {N T W : Type _} [DecidableEq N] [DecidableEq T] [LinearOrderedCommMonoidWithZero W] [NoZeroDivisors W] {factorize : W → Nat → List W}
  {order : Nat → List Nat → List Nat} {g : Lcfrs N T W} {width : Nat} {R : CsRep N T W}

/-- The candidates of a sentence for grammars with cycles and arbitrary terminal rules. -/
theorem candidates_stream (hR : CsRep.new factorize order g width = some R) (ho : HashOrder order) (hfac : Factorizes factorize)
    (hg : ParserGrammar g.rules g.init) (hw : Props.FactorsLeOne factorize (indexed g.rules))
    (hcyc : VariableCyclesLower factorize g.rules) {word : List T} (hn0 : 0 < word.length)
    (hn : word.length ≤ 255) {o : CsOptions W} (hb0 : 0 < o.beam.getD R.generator.states) (hs : o.beam.getD R.generator.states ≤ 65535) :
    R.rules = g.rules ∧ ∀ m, ∃ words : List (List (Bracket BracketContent)), words.length ≤ m ∧
      (∀ v ∈ words, ∃ rid P u w, v = compWord rid 0 P ∧ CompDerives factorize (indexed g.rules) g.init 0 rid P u w ∧ u.length = word.length) ∧
      (FactorsNeZero factorize g.rules → R.generator.states ≤ o.beam.getD R.generator.states → o.delta = 0 → (∃ d, Derives g.rules g.init d [word]) → 0 < m →
        words ≠ []) ∧
      ∃ fuel₀, ∀ fuel ≥ fuel₀, R.generate o word fuel m = some ((List.range m).map fun k => words[k]?) := by
  unfold CsRep.new at hR
  split at hR
  swap
  · cases hR
  split at hR
  swap
  · cases hR
  split at hR
  swap
  · cases hR
  rename_i _ _ A masks hA hmk
  change CsAutomaton.fromGrammar factorize (indexed g.rules) g.init = some A at hA
  rw [Option.map_eq_some_iff] at hR
  obtain ⟨outs, houts, rfl⟩ := hR
  simp only at hs hb0
  have hlen : ∀ w n, (factorize w n).length = n := fun w n => (hfac w n).1
  have hi := initial_lt hA hg hlen
  have hle := Props.leOne_of_factors hA hw
  obtain ⟨mask, hm1, hml⟩ : ∃ mask, masks.build word = some mask ∧ mask.length = A.brackets.length := by
    obtain ⟨st, ps, h1, hnd, h3, h4, hbr, h6, _, h7⟩ := Props.C42_tables hA
    obtain ⟨mask, hm1, hm2, hm3, hm4⟩ := mask_spec hlen h1 h3 ho hg hmk word
    exact ⟨mask, hm1, by rw [hm2, hbr, List.length_map]⟩
  obtain ⟨chart, hc⟩ := Props.C42_total hA hw hi houts (beam := o.beam.getD A.states) (delta := o.delta) hml hn hb0 hs
  obtain ⟨ts, k1, k2, k3, k4⟩ : ∃ ts, EnumeratesStream A chart mask word.length ts := by
    obtain ⟨st, ps, h1, h2, _⟩ := CsAutomaton.fromGrammar_rep hA
    obtain ⟨hget, hreach⟩ := fillChart_reached h2.buWF hn hc
    obtain ⟨ts, h, _⟩ := enumeratesStream h1 h2 hi hml hget hreach (cyclesLower_of hA hcyc mask) hn0 hn
    exact ⟨ts, h⟩
  have hstable : ∀ k k', k ≤ k' → (ts k).bind (treeWord A.brackets) = none → (ts k').bind (treeWord A.brackets) = none := by
    intro k k' hkk hk
    cases ht : ts k with
    | none => rw [k2 k k' hkk ht]; rfl
    | some t =>
      obtain ⟨v, hv⟩ := (k1 k t ht).2
      rw [ht, Option.bind_some, hv] at hk
      cases hk
  refine ⟨rfl, fun m => ⟨(List.range m).filterMap fun k => (ts k).bind (treeWord A.brackets), (List.length_filterMap_le _ _).trans (by simp), fun v hv => ?_,
    fun h0 hst hdel ⟨d, hd⟩ hm hwords => ?_, ?_⟩⟩
  · rw [List.mem_filterMap] at hv
    obtain ⟨k, _, hv⟩ := hv
    rw [Option.bind_eq_some_iff] at hv
    obtain ⟨x, hx, hv⟩ := hv
    obtain ⟨w, hcd⟩ := (k1 k x hx).1
    obtain ⟨_, u, hu, hd⟩ := chartDerives_word hcd
    have hd := hd [] [] rfl
    rw [List.nil_append, List.append_nil] at hd
    have hu : u.length = word.length := by omega
    rw [← hu] at hd
    obtain ⟨rid, P, c1, c2, _⟩ := Props.derives_compDerives hA (indexed_ids _) hd
    rw [hv, Option.some.injEq] at c2
    exact ⟨rid, P, u, _, c2, c1, hu⟩
  · obtain ⟨e, he⟩ := exists_numbers hd
    obtain ⟨t, q1, q2⟩ := derivation_candidate hA hfac ho hg hmk hm1 he hd
    have hd' := Props.C41_no_parse_lost hA hw houts q2 (derives_ne_zero hA h0 q2)
    obtain ⟨_, w', e, _⟩ := Props.C42_best_partial hA hn (hdel ▸ hc) hst (hle.chains mask) hd' (derives_ne_zero hA h0 hd')
    have hsome := k3 ⟨w', e⟩
    rw [Option.isSome_iff_exists] at hsome
    obtain ⟨x, hx⟩ := hsome
    obtain ⟨v, hv⟩ := (k1 0 x hx).2
    have : v ∈ (List.range m).filterMap fun k => (ts k).bind (treeWord A.brackets) := by
      rw [List.mem_filterMap]
      exact ⟨0, List.mem_range.2 hm, by rw [hx, Option.bind_some, hv]⟩
    rw [hwords] at this
    cases this
  · obtain ⟨fuel₀, k4⟩ := k4 m
    refine ⟨fuel₀, fun fuel hf => ?_⟩
    unfold CsRep.generate
    simp only [hm1, hc]
    rw [k4 fuel hf, Option.some.injEq]
    refine List.map_congr_left fun k hk => ?_
    exact (stream_get hstable m (List.mem_range.1 hk)).symm

/-- The results of the parser for a sentence, for all options for grammars with cycles and arbitrary terminal rules. -/
theorem parser_results_stream (hR : CsRep.new factorize order g width = some R) (ho : HashOrder order) (hfac : Factorizes factorize)
    (hg : ParserGrammar g.rules g.init) (hw : Props.FactorsLeOne factorize (indexed g.rules))
    (hcyc : VariableCyclesLower factorize g.rules) {word : List T}
    (hn : word.length ≤ 255) {o : CsOptions W} (hb0 : 0 < o.beam.getD R.generator.states) (hs : o.beam.getD R.generator.states ≤ 65535) :
    ∃ fb, (∀ t, fb = some t → ∃ u, FallbackOf g.rules g.init u t ∧ u.length = word.length) ∧
      (FactorsNeZero factorize g.rules → R.generator.states ≤ o.beam.getD R.generator.states → o.delta = 0 → (∃ d, Derives g.rules g.init d [word]) → fb.isSome) ∧
      ∃ (ds : Nat → List (DTree Nat × DTree (PMCFGRule N T W))) (out : Nat → List (GornTree (PMCFGRule N T W))),
        (∀ m ≥ 1, ParsedLength g.rules g.init word (ds m) (out m) ∧ ∃ res, DebugIs (out m) fb (o.candidates = some 0) res ∧
          ∃ fuel₀, ∀ fuel ≥ fuel₀, R.parses o word fuel m = some (out m) ∧ R.fallback o word fuel = some fb ∧ R.debug o word fuel m = some res) ∧
        (FactorsNeZero factorize g.rules → R.generator.states ≤ o.beam.getD R.generator.states → o.delta = 0 → o.candidates = none →
          VariableCyclesVanish factorize g.rules → ∀ e d, Numbers g.rules e d → Derives g.rules g.init d [word] → ∃ M, ∀ m ≥ M, (e, d) ∈ ds m) := by
  rcases Nat.eq_zero_or_pos word.length with h0 | hn0
  · obtain rfl := List.eq_nil_of_length_eq_zero h0
    have hgen := candidates_empty hR ho (fun w n => (hfac w n).1) hg hw hb0 hs
    have hnone : ∀ d, ¬ Derives g.rules g.init d [([] : List T)] := fun d hd => not_derivesOver_nil hg.normal _ ⟨d, _, hd, by simp⟩
    refine ⟨none, by simp, fun _ _ _ => ?_, fun _ => [], fun _ => [], fun m hm => ⟨by simp [ParsedLength], .noparse, ⟨rfl, .inl rfl⟩, 1, ?_⟩, ?_⟩
    · rintro ⟨d, hd⟩
      exact absurd hd (hnone d)
    swap
    · intro _ _ _ _ _ e d _ hd
      exact absurd hd (hnone d)
    · intro fuel hf
      obtain ⟨fuel, rfl⟩ : ∃ f, fuel = f + 1 := ⟨fuel - 1, by omega⟩
      obtain ⟨m, rfl⟩ : ∃ f, m = f + 1 := ⟨m - 1, by omega⟩
      have h1 : o.limit (untilNone (List.replicate (m + 1) (none : Option (List (Bracket BracketContent))))) = [] := by
        rw [List.replicate_succ, untilNone]
        unfold CsOptions.limit
        split <;> simp
        intro _ _ h; cases h
      refine ⟨?_, ?_, ?_⟩
      · unfold CsRep.parses
        rw [hgen, Option.bind_some, h1]
        rfl
      · unfold CsRep.fallback
        rw [hgen, Option.bind_some]
        rfl
      · unfold CsRep.debug
        rw [hgen, Option.bind_some, h1]
        rfl
  · obtain ⟨hrules, hcand⟩ := candidates_stream hR ho hfac hg hw hcyc hn0 hn hb0 hs
    obtain ⟨ds, outs, hpar, hfair⟩ := parses_stream hR ho hfac hg hw hcyc hn0 hn hb0 hs
    obtain ⟨words₁, a1, a2, a3, fuel₁, a4⟩ := hcand 1
    -- the fallback
    obtain ⟨fb, fuel₂, hfb1, hfb2, hfb3, hfb4⟩ : ∃ fb fuel₂, (∀ fuel ≥ fuel₂, R.fallback o word fuel = some fb) ∧
        (∀ t, fb = some t → ∃ u, FallbackOf g.rules g.init u t ∧ u.length = word.length) ∧ (words₁ = [] ↔ fb = none) ∧
        ∀ v, words₁.head? = some v → ∃ t mt, fb = some mt ∧ CowNode.new v = some t ∧ ∃ fuel₃, ∀ fuel ≥ fuel₃, t.fallback g.rules fuel = some mt := by
      cases words₁ with
      | nil =>
        refine ⟨none, fuel₁, fun fuel hf => ?_, by simp, by simp, by simp⟩
        unfold CsRep.fallback
        rw [a4 fuel hf]
        rfl
      | cons v words =>
        obtain ⟨rid, P, u, w, rfl, hc, hu⟩ := a2 v (List.mem_cons_self ..)
        obtain ⟨t, mt, fuel₃, e1, e2, e3⟩ := Props.C55_fallback (Props.parserGrammar_linear hg) hc
        refine ⟨some mt, max fuel₁ fuel₃, fun fuel hf => ?_, fun t ht => (by cases ht; exact ⟨u, e3, hu⟩), by simp, fun v hv => ?_⟩
        · unfold CsRep.fallback
          rw [a4 fuel (by omega), Option.bind_some, untilNone_range]
          simp only [List.take_succ_cons, e1, Option.bind_some, hrules]
          rw [e2 fuel (by omega)]
          rfl
        · cases hv
          exact ⟨t, mt, rfl, e1, fuel₃, e2⟩
    refine ⟨fb, hfb2, fun g1 g2 g3 g4 => ?_, ds, outs, fun m hm => ?_, hfair inferInstance⟩
    · rw [Option.isSome_iff_ne_none]
      exact fun h => a3 g1 g2 g3 g4 (by omega) (hfb3.2 h)
    obtain ⟨words, b1, b2, b3, fuel₃, b4⟩ := hcand m
    obtain ⟨p1, fuel₄, p2⟩ := hpar m
    have hrun : ∀ fuel ≥ fuel₃, R.generate o word fuel m = some ((List.range m).map fun k => words[k]?) ∧
        untilNone ((List.range m).map fun k => words[k]?) = words := by
      intro fuel hf
      refine ⟨b4 fuel hf, ?_⟩
      rw [untilNone_range, List.take_of_length_le b1]
    have hhead : words₁.head? = words.head? := by
      have := generate_take hm (a4 _ (Nat.le_max_left fuel₁ fuel₃)) (b4 _ (Nat.le_max_right fuel₁ fuel₃))
      obtain ⟨m, rfl⟩ : ∃ f, m = f + 1 := ⟨m - 1, by omega⟩
      rw [List.range_succ_eq_map (n := m)] at this
      simpa [List.head?_eq_getElem?] using this
    have k6 : filterMapP (toderiv R.rules) (o.limit words) = some (outs m) := by
      have := p2 _ (Nat.le_max_right fuel₃ fuel₄)
      obtain ⟨r1, r2⟩ := hrun _ (Nat.le_max_left fuel₃ fuel₄)
      unfold CsRep.parses at this
      rw [r1, Option.bind_some, r2] at this
      exact this
    obtain ⟨n, hn'⟩ := firstDeriv_spec 0 k6
    have hres : ∃ res fuel₅, DebugIs (outs m) fb (o.candidates = some 0) res ∧ ∀ fuel ≥ fuel₅, R.debug o word fuel m = some res := by
      cases hout : outs m with
      | cons t out =>
        refine ⟨.parse t n, fuel₃, rfl, fun fuel hf => ?_⟩
        obtain ⟨r1, r2⟩ := hrun fuel hf
        unfold CsRep.debug
        rw [r1, Option.bind_some, r2, hn', hout]
        rfl
      | nil =>
        by_cases hc0 : o.candidates = some 0
        · refine ⟨.noparse, fuel₃, ⟨rfl, .inr (by simp [hc0])⟩, fun fuel hf => ?_⟩
          obtain ⟨r1, r2⟩ := hrun fuel hf
          unfold CsRep.debug
          rw [r1, Option.bind_some, r2, hn', hout, limit_prefix, if_pos hc0]
          rfl
        · cases hwords : words with
          | nil =>
            refine ⟨.noparse, fuel₃, ⟨rfl, .inl (hfb3.1 ?_)⟩, fun fuel hf => ?_⟩
            · rw [← List.head?_eq_none_iff, hhead, hwords]
              rfl
            obtain ⟨r1, r2⟩ := hrun fuel hf
            have hl : o.limit ([] : List (List (Bracket BracketContent))) = [] := by
              unfold CsOptions.limit
              split <;> simp
            unfold CsRep.debug
            rw [r1, Option.bind_some, r2, hn', hout, hwords, hl]
            rfl
          | cons v words' =>
            obtain ⟨t, mt, e0, e1, fuel₅, e2⟩ := hfb4 v (by rw [hhead, hwords]; rfl)
            refine ⟨.fallback mt n, max fuel₃ fuel₅, ⟨rfl, e0, by simp [hc0]⟩, fun fuel hf => ?_⟩
            obtain ⟨r1, r2⟩ := hrun fuel (by omega)
            obtain ⟨l', hl'⟩ := limit_head (o := o) (x := v) (l := words') hc0
            unfold CsRep.debug
            rw [r1, Option.bind_some, r2, hn', hout, hwords, hl']
            simp only [List.head?_nil, e1, Option.bind_some, hrules]
            rw [e2 fuel (by omega)]
            rfl
    obtain ⟨res, fuel₅, d1, d2⟩ := hres
    exact ⟨p1, res, d1, max fuel₂ (max fuel₄ fuel₅), fun fuel hf => ⟨p2 fuel (by omega), hfb1 fuel (by omega), d2 fuel (by omega)⟩⟩

end

end Rustomata
