import Verif.Spec.CsEnds
import Verif.Proofs.CsCommand
import Verif.Props.CsCycles

/-!
# Results of the parser for grammars with cycles
-/

namespace Rustomata
open Spec

section
variable {N T W : Type _} [DecidableEq N] [DecidableEq T] [LinearOrderedCommMonoidWithZero W] {R : CsRep N T W} {o : CsOptions W} {word : List T}

/-- More calls continue the sequence of bracket words. -/
theorem generate_take {fuel fuel' m m' : Nat} {vs vs' : List (Option (List (Bracket BracketContent)))} (hm : m ≤ m')
    (h : R.generate o word fuel m = some vs) (h' : R.generate o word fuel' m' = some vs') : vs = vs'.take m := by
  unfold CsRep.generate at h h'
  cases hmask : R.masks.build word with
  | none => simp only [hmask] at h; cases h
  | some mask =>
    cases hc : fillChart R.generator word (o.beam.getD R.generator.states) o.delta R.estimates mask with
    | none => simp only [hmask, hc] at h; cases h
    | some chart =>
      simp only [hmask, hc] at h h'
      have e1 := KIter.run_mono (Nat.le_max_left fuel fuel') m h
      have e2 := KIter.run_mono (Nat.le_max_right fuel fuel') m' h'
      rw [run_take m m' _ _ hm e2, Option.some.injEq] at e1
      exact e1.symm

theorem generate_length {fuel m : Nat} {vs : List (Option (List (Bracket BracketContent)))} (h : R.generate o word fuel m = some vs) : vs.length = m := by
  unfold CsRep.generate at h
  split at h
  · cases h
  split at h
  · cases h
  rename_i mask _ _ chart _
  generalize KIter.new = it at h
  induction m generalizing it vs with
  | zero =>
    simp only [KIter.run, Option.some.injEq] at h
    subst h
    rfl
  | succ m ih =>
    simp only [KIter.run] at h
    split at h
    · cases h
    · rw [Option.map_eq_some_iff] at h
      obtain ⟨l, h1, rfl⟩ := h
      rw [List.length_cons, ih _ h1]

theorem untilNone_append_of_none {X : Type _} : ∀ {l l' : List (Option X)}, none ∈ l → untilNone (l ++ l') = untilNone l
  | [], _, h => by cases h
  | none :: l, l', _ => rfl
  | some a :: l, l', h => by
    rw [List.cons_append, untilNone, untilNone, untilNone_append_of_none]
    simpa using h

theorem untilNone_length_le {X : Type _} : ∀ l : List (Option X), (untilNone l).length ≤ l.length
  | [] => by simp [untilNone]
  | none :: l => by simp [untilNone]
  | some a :: l => by
    rw [untilNone, List.length_cons, List.length_cons]
    exact Nat.succ_le_succ (untilNone_length_le l)

theorem untilNone_take_of_not {X : Type _} : ∀ {l : List (Option X)}, none ∉ l → (untilNone l).length = l.length
  | [], _ => by simp [untilNone]
  | none :: l, h => by simp at h
  | some a :: l, h => by
    rw [untilNone, List.length_cons, List.length_cons, untilNone_take_of_not]
    simpa using h

/-- If the enumeration ends, then the first `k` results do not depend on the number of further calls. -/
theorem ends_stable {k : Nat} (h : Ends R o word k) : ∃ m₀ fuel out, R.parses o word fuel m₀ = some out ∧
    ∀ m ≥ m₀, ∀ fuel' out', R.parses o word fuel' m = some out' → out'.take k = out.take k ∧ (out.length < k → out' = out) := by
  obtain ⟨m, fuel, cands, out, h1, h2, h3⟩ := h
  refine ⟨m, fuel, out, h2, fun m' hm fuel' out' h' => ?_⟩
  have heq : ∀ {X : Type _} {a b : List X}, a = b → a.take k = b.take k ∧ (b.length < k → a = b) := fun h => ⟨by rw [h], fun _ => h⟩
  rcases h3 with h3 | h3 | ⟨c, hc, h3⟩
  · obtain ⟨l, rfl⟩ := Props.C81_prefix hm h2 h'
    exact ⟨List.take_append_of_le_length h3, fun h => absurd h (by omega)⟩
  · refine heq ?_
    unfold CsRep.parses at h2 h'
    rw [h1, Option.bind_some] at h2
    rw [Option.bind_eq_some_iff] at h'
    obtain ⟨cands', h4, h5⟩ := h'
    have e := generate_take hm h1 h4
    have : untilNone cands' = untilNone cands := by
      conv_lhs => rw [← List.take_append_drop m cands', ← e]
      exact untilNone_append_of_none h3
    rw [this, h2, Option.some.injEq] at h5
    exact h5.symm
  · refine heq ?_
    unfold CsRep.parses at h2 h'
    rw [h1, Option.bind_some] at h2
    rw [Option.bind_eq_some_iff] at h'
    obtain ⟨cands', h4, h5⟩ := h'
    have e := generate_take hm h1 h4
    have : o.limit (untilNone cands') = o.limit (untilNone cands) := by
      unfold CsOptions.limit
      simp only [hc, e, untilNone_take, List.take_take, Nat.min_eq_left (Nat.le_of_lt h3)]
    rw [this, h2, Option.some.injEq] at h5
    exact h5.symm

end

section
variable {N T W : Type _} [DecidableEq N] [DecidableEq T] [LinearOrderedCommMonoidWithZero W] [NoZeroDivisors W] {factorize : W → Nat → List W}
  {order : Nat → List Nat → List Nat} {g : Lcfrs N T W} {width : Nat} {R : CsRep N T W}

/-- The candidates of a sentence for grammars with cycles. -/
theorem candidates_cycles (hR : CsRep.new factorize order g width = some R) (ho : HashOrder order) (hfac : Factorizes factorize)
    (hg : ParserGrammar g.rules g.init) (hw : Props.FactorsLeOne factorize (indexed g.rules))
    (hpre : Preterminals g.rules) (hcyc : VariableCyclesLower factorize g.rules) {word : List T} (hn0 : 0 < word.length)
    (hn : word.length ≤ 255) {o : CsOptions W} (hb0 : 0 < o.beam.getD R.generator.states) (hs : o.beam.getD R.generator.states ≤ 65535) :
    R.rules = g.rules ∧ ∀ m, ∃ words : List (List (Bracket BracketContent)), words.length ≤ m ∧
      (∀ v ∈ words, ∃ rid P w, v = compWord rid 0 P ∧ CompDerives factorize (indexed g.rules) g.init 0 rid P word w) ∧
      (FactorsNeZero factorize g.rules → R.generator.states ≤ o.beam.getD R.generator.states → o.delta = 0 → (∃ d, Derives g.rules g.init d [word]) → 0 < m →
        words ≠ []) ∧
      ∃ fuel₀, ∀ fuel ≥ fuel₀, R.generate o word fuel m = some ((List.range m).map fun k => words[k]?) := by
  unfold CsRep.new at hR
  split at hR
  swap
  · cases hR
  split at hR
  swap
  · cases hR
  split at hR
  swap
  · cases hR
  rename_i _ _ A masks hA hmk
  change CsAutomaton.fromGrammar factorize (indexed g.rules) g.init = some A at hA
  rw [Option.map_eq_some_iff] at hR
  obtain ⟨outs, houts, rfl⟩ := hR
  simp only at hs hb0
  have hlen : ∀ w n, (factorize w n).length = n := fun w n => (hfac w n).1
  have hi := initial_lt hA hg hlen
  have hle := Props.leOne_of_factors hA hw
  obtain ⟨mask, hm1, hml, hm3⟩ : ∃ mask, masks.build word = some mask ∧ mask.length = A.brackets.length ∧
      ∀ k : Nat, mask[k]? = some true → DerivesOver g.rules word g.init := by
    obtain ⟨st, ps, h1, hnd, h3, h4, hbr, h6, _, h7⟩ := Props.C42_tables hA
    obtain ⟨mask, hm1, hm2, hm3, hm4⟩ := mask_spec hlen h1 h3 ho hg hmk word
    exact ⟨mask, hm1, by rw [hm2, hbr, List.length_map], hm3⟩
  obtain ⟨chart, hc⟩ := Props.C42_total hA hw hi houts (beam := o.beam.getD A.states) (delta := o.delta) hml hn hb0 hs
  have hsound := fun t w => chart_sound (t := t) (w := w) hA hg hpre hm3 hn hc hi
  refine ⟨rfl, fun m => ?_⟩
  obtain ⟨ts, words, k0, k1, k2, k3, k3', k4, fuel₀, k5⟩ : Enumerates A chart mask word.length m := by
    obtain ⟨st, ps, h1, h2, _⟩ := CsAutomaton.fromGrammar_rep hA
    obtain ⟨hget, hbest⟩ := fillChart_best h2.buWF hn hc (hle.chains mask)
      fun i q rid a v hi hq hr => Props.C44_terminals hA hn hc (terminalDet_of hA hg hpre mask) hi hq hr
    exact enumerates_cycles h1 h2 hi hml hget hbest (cyclesLower_of hA hcyc mask) hn0 hn m
  refine ⟨words, by rw [← k4.length_eq]; exact k0, fun v hv => ?_, fun h0 hst hdel ⟨d, hd⟩ hm hwords => ?_, fuel₀, fun fuel hf => ?_⟩
  · obtain ⟨x, hx, hv⟩ := forall₂_mem_right k4 hv
    obtain ⟨rid, P, c1, c2, _⟩ := Props.derives_compDerives hA (indexed_ids _) (hsound _ _ (k3 x hx))
    rw [hv, Option.some.injEq] at c2
    exact ⟨rid, P, _, c2, c1⟩
  · subst hwords
    rw [List.forall₂_nil_right_iff] at k4
    subst k4
    obtain ⟨e, he⟩ := exists_numbers hd
    obtain ⟨t, q1, q2⟩ := derivation_candidate hA hfac ho hg hmk hm1 he hd
    rw [← chart_iff hA hg hw h0 hpre houts hst hm3 hn (hdel ▸ hc) hi] at q2
    rcases k3' _ _ q2 with h | h
    · cases h
    · have := h.1
      simp at this
      omega
  · unfold CsRep.generate
    simp only [hm1, hc]
    exact k5 fuel hf

/-- The results of the parser for a sentence, for all options and for grammars with cycles. -/
theorem parser_results_cycles (hR : CsRep.new factorize order g width = some R) (ho : HashOrder order) (hfac : Factorizes factorize)
    (hg : ParserGrammar g.rules g.init) (hw : Props.FactorsLeOne factorize (indexed g.rules))
    (hpre : Preterminals g.rules) (hcyc : VariableCyclesLower factorize g.rules) {word : List T}
    (hn : word.length ≤ 255) {o : CsOptions W} (hb0 : 0 < o.beam.getD R.generator.states) (hs : o.beam.getD R.generator.states ≤ 65535) :
    ∃ fb, (∀ t, fb = some t → FallbackOf g.rules g.init word t) ∧
      (FactorsNeZero factorize g.rules → R.generator.states ≤ o.beam.getD R.generator.states → o.delta = 0 → (∃ d, Derives g.rules g.init d [word]) → fb.isSome) ∧
      ∀ m ≥ 1, ∃ out res, ParsesSome g.rules g.init word out ∧
        (FactorsNeZero factorize g.rules → R.generator.states ≤ o.beam.getD R.generator.states → o.delta = 0 → BestParses g.rules g.init word out) ∧
        DebugIs out fb (o.candidates = some 0) res ∧
        ∃ fuel₀, ∀ fuel ≥ fuel₀, R.parses o word fuel m = some out ∧ R.fallback o word fuel = some fb ∧ R.debug o word fuel m = some res := by
  rcases Nat.eq_zero_or_pos word.length with h0 | hn0
  · obtain rfl := List.eq_nil_of_length_eq_zero h0
    have hgen := candidates_empty hR ho (fun w n => (hfac w n).1) hg hw hb0 hs
    have hnone : ∀ d, ¬ Derives g.rules g.init d [([] : List T)] := fun d hd => not_derivesOver_nil hg.normal _ ⟨d, _, hd, by simp⟩
    refine ⟨none, by simp, fun _ _ _ => ?_, fun m hm => ⟨[], .noparse, ⟨[], by simp [ParsedBy]⟩, fun _ _ _ => ⟨[], by simp [ParsedBy], ?_⟩, ⟨rfl, .inl rfl⟩, 1, ?_⟩⟩
    · rintro ⟨d, hd⟩
      exact absurd hd (hnone d)
    · intro e d _ hd
      exact absurd hd (hnone d)
    · intro fuel hf
      obtain ⟨fuel, rfl⟩ : ∃ f, fuel = f + 1 := ⟨fuel - 1, by omega⟩
      obtain ⟨m, rfl⟩ : ∃ f, m = f + 1 := ⟨m - 1, by omega⟩
      have h1 : o.limit (untilNone (List.replicate (m + 1) (none : Option (List (Bracket BracketContent))))) = [] := by
        rw [List.replicate_succ, untilNone]
        unfold CsOptions.limit
        split <;> simp
        intro _ _ h; cases h
      refine ⟨?_, ?_, ?_⟩
      · unfold CsRep.parses
        rw [hgen, Option.bind_some, h1]
        rfl
      · unfold CsRep.fallback
        rw [hgen, Option.bind_some]
        rfl
      · unfold CsRep.debug
        rw [hgen, Option.bind_some, h1]
        rfl
  · obtain ⟨hrules, hcand⟩ := candidates_cycles hR ho hfac hg hw hpre hcyc hn0 hn hb0 hs
    obtain ⟨ds, outs, hpar, hbest⟩ := parses_cycles hR ho hfac hg hw hpre hcyc hn0 hn hb0 hs
    obtain ⟨words₁, a1, a2, a3, fuel₁, a4⟩ := hcand 1
    -- the fallback
    obtain ⟨fb, fuel₂, hfb1, hfb2, hfb3, hfb4⟩ : ∃ fb fuel₂, (∀ fuel ≥ fuel₂, R.fallback o word fuel = some fb) ∧
        (∀ t, fb = some t → FallbackOf g.rules g.init word t) ∧ (words₁ = [] ↔ fb = none) ∧
        ∀ v, words₁.head? = some v → ∃ t mt, fb = some mt ∧ CowNode.new v = some t ∧ ∃ fuel₃, ∀ fuel ≥ fuel₃, t.fallback g.rules fuel = some mt := by
      cases words₁ with
      | nil =>
        refine ⟨none, fuel₁, fun fuel hf => ?_, by simp, by simp, by simp⟩
        unfold CsRep.fallback
        rw [a4 fuel hf]
        rfl
      | cons v words =>
        obtain ⟨rid, P, w, rfl, hc⟩ := a2 v (List.mem_cons_self ..)
        obtain ⟨t, mt, fuel₃, e1, e2, e3⟩ := Props.C55_fallback (Props.parserGrammar_linear hg) hc
        refine ⟨some mt, max fuel₁ fuel₃, fun fuel hf => ?_, fun t ht => (by cases ht; exact e3), by simp, fun v hv => ?_⟩
        · unfold CsRep.fallback
          rw [a4 fuel (by omega), Option.bind_some, untilNone_range]
          simp only [List.take_succ_cons, e1, Option.bind_some, hrules]
          rw [e2 fuel (by omega)]
          rfl
        · cases hv
          exact ⟨t, mt, rfl, e1, fuel₃, e2⟩
    refine ⟨fb, hfb2, fun g1 g2 g3 g4 => ?_, fun m hm => ?_⟩
    · rw [Option.isSome_iff_ne_none]
      exact fun h => a3 g1 g2 g3 g4 (by omega) (hfb3.2 h)
    obtain ⟨words, b1, b2, b3, fuel₃, b4⟩ := hcand m
    obtain ⟨p1, fuel₄, p2⟩ := hpar m
    have hrun : ∀ fuel ≥ fuel₃, R.generate o word fuel m = some ((List.range m).map fun k => words[k]?) ∧
        untilNone ((List.range m).map fun k => words[k]?) = words := by
      intro fuel hf
      refine ⟨b4 fuel hf, ?_⟩
      rw [untilNone_range, List.take_of_length_le b1]
    have hhead : words₁.head? = words.head? := by
      have := generate_take hm (a4 _ (Nat.le_max_left fuel₁ fuel₃)) (b4 _ (Nat.le_max_right fuel₁ fuel₃))
      obtain ⟨m, rfl⟩ : ∃ f, m = f + 1 := ⟨m - 1, by omega⟩
      rw [List.range_succ_eq_map (n := m)] at this
      simpa [List.head?_eq_getElem?] using this
    have k6 : filterMapP (toderiv R.rules) (o.limit words) = some (outs m) := by
      have := p2 _ (Nat.le_max_right fuel₃ fuel₄)
      obtain ⟨r1, r2⟩ := hrun _ (Nat.le_max_left fuel₃ fuel₄)
      unfold CsRep.parses at this
      rw [r1, Option.bind_some, r2] at this
      exact this
    obtain ⟨n, hn'⟩ := firstDeriv_spec 0 k6
    have hres : ∃ res fuel₅, DebugIs (outs m) fb (o.candidates = some 0) res ∧ ∀ fuel ≥ fuel₅, R.debug o word fuel m = some res := by
      cases hout : outs m with
      | cons t out =>
        refine ⟨.parse t n, fuel₃, rfl, fun fuel hf => ?_⟩
        obtain ⟨r1, r2⟩ := hrun fuel hf
        unfold CsRep.debug
        rw [r1, Option.bind_some, r2, hn', hout]
        rfl
      | nil =>
        by_cases hc0 : o.candidates = some 0
        · refine ⟨.noparse, fuel₃, ⟨rfl, .inr (by simp [hc0])⟩, fun fuel hf => ?_⟩
          obtain ⟨r1, r2⟩ := hrun fuel hf
          unfold CsRep.debug
          rw [r1, Option.bind_some, r2, hn', hout, limit_prefix, if_pos hc0]
          rfl
        · cases hwords : words with
          | nil =>
            refine ⟨.noparse, fuel₃, ⟨rfl, .inl (hfb3.1 ?_)⟩, fun fuel hf => ?_⟩
            · rw [← List.head?_eq_none_iff, hhead, hwords]
              rfl
            obtain ⟨r1, r2⟩ := hrun fuel hf
            have hl : o.limit ([] : List (List (Bracket BracketContent))) = [] := by
              unfold CsOptions.limit
              split <;> simp
            unfold CsRep.debug
            rw [r1, Option.bind_some, r2, hn', hout, hwords, hl]
            rfl
          | cons v words' =>
            obtain ⟨t, mt, e0, e1, fuel₅, e2⟩ := hfb4 v (by rw [hhead, hwords]; rfl)
            refine ⟨.fallback mt n, max fuel₃ fuel₅, ⟨rfl, e0, by simp [hc0]⟩, fun fuel hf => ?_⟩
            obtain ⟨r1, r2⟩ := hrun fuel (by omega)
            obtain ⟨l', hl'⟩ := limit_head (o := o) (x := v) (l := words') hc0
            unfold CsRep.debug
            rw [r1, Option.bind_some, r2, hn', hout, hwords, hl']
            simp only [List.head?_nil, e1, Option.bind_some, hrules]
            rw [e2 fuel (by omega)]
            rfl
    obtain ⟨res, fuel₅, d1, d2⟩ := hres
    exact ⟨outs m, res, ⟨ds m, p1⟩, fun g1 g2 g3 => ⟨ds m, p1, (hbest g1 g2 g3).1 m⟩, d1, max fuel₂ (max fuel₄ fuel₅),
      fun fuel hf => ⟨p2 fuel (by omega), hfb1 fuel (by omega), d2 fuel (by omega)⟩⟩

/-- If a call returns `None`, then there are only finitely many derivations in the chart. -/
theorem finite_of_none (hR : CsRep.new factorize order g width = some R) (ho : HashOrder order) (hfac : Factorizes factorize)
    (hg : ParserGrammar g.rules g.init) (hw : Props.FactorsLeOne factorize (indexed g.rules))
    (hpre : Preterminals g.rules) (hcyc : VariableCyclesLower factorize g.rules) {word : List T} (hn0 : 0 < word.length)
    (hn : word.length ≤ 255) {o : CsOptions W} (hb0 : 0 < o.beam.getD R.generator.states) (hs : o.beam.getD R.generator.states ≤ 65535) {mask : List Bool}
    (hmask : R.masks.build word = some mask) {chart : DenseChart W}
    (hchart : fillChart R.generator word (o.beam.getD R.generator.states) o.delta R.estimates mask = some chart) {fuel m : Nat}
    {cands : List (Option (List (Bracket BracketContent)))} (hgen : R.generate o word fuel m = some cands) (hnone : none ∈ cands) :
    ∃ ts : List (BinTree × W), ∀ t w, ChartDerives (buGrammar R.generator mask) (fun i j q => ∃ w, chart.getWeight i j q = some (some w)) 0 word.length
      R.generator.initial t w → (t, w) ∈ ts := by
  unfold CsRep.new at hR
  split at hR
  swap
  · cases hR
  split at hR
  swap
  · cases hR
  split at hR
  swap
  · cases hR
  rename_i _ _ A masks hA hmk
  change CsAutomaton.fromGrammar factorize (indexed g.rules) g.init = some A at hA
  rw [Option.map_eq_some_iff] at hR
  obtain ⟨outs, houts, rfl⟩ := hR
  simp only at hs hb0
  have hlen : ∀ w n, (factorize w n).length = n := fun w n => (hfac w n).1
  have hi := initial_lt hA hg hlen
  have hle := Props.leOne_of_factors hA hw
  obtain ⟨mask', hm1, hml, hm3⟩ : ∃ mask, masks.build word = some mask ∧ mask.length = A.brackets.length ∧
      ∀ k : Nat, mask[k]? = some true → DerivesOver g.rules word g.init := by
    obtain ⟨st, ps, h1, hnd, h3, h4, hbr, h6, _, h7⟩ := Props.C42_tables hA
    obtain ⟨mask, hm1, hm2, hm3, hm4⟩ := mask_spec hlen h1 h3 ho hg hmk word
    exact ⟨mask, hm1, by rw [hm2, hbr, List.length_map], hm3⟩
  simp only at hmask hchart
  have hc := hchart
  rw [hm1, Option.some.injEq] at hmask
  subst hmask
  obtain ⟨ts, words, k0, k1, k2, k3, k3', k4, fuel₀, k5⟩ : Enumerates A chart mask' word.length m := by
    obtain ⟨st, ps, h1, h2, _⟩ := CsAutomaton.fromGrammar_rep hA
    obtain ⟨hget, hbest⟩ := fillChart_best h2.buWF hn hc (hle.chains mask')
      fun i q rid a v hi hq hr => Props.C44_terminals hA hn hc (terminalDet_of hA hg hpre mask') hi hq hr
    exact enumerates_cycles h1 h2 hi hml hget hbest (cyclesLower_of hA hcyc mask') hn0 hn m
  refine ⟨ts, fun t w ht => (k3' t w ht).resolve_right fun h => ?_⟩
  unfold CsRep.generate at hgen
  simp only [hm1, hc] at hgen
  have e := KIter.run_mono (Nat.le_max_right fuel₀ fuel) m hgen
  rw [k5 _ (Nat.le_max_left ..), Option.some.injEq] at e
  rw [← e, List.mem_map] at hnone
  obtain ⟨x, hx, hx'⟩ := hnone
  rw [List.getElem?_eq_none_iff, ← k4.length_eq, h.1] at hx'
  exact absurd (List.mem_range.1 hx) (by omega)

end

end Rustomata
