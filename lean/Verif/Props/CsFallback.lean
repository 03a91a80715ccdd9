import Verif.Proofs.CsFallback
import Verif.Props.CsParse
import Verif.Props.Pmcfg

/-!
# C55: fallback derivations

`CowDerivation::new`, `CowDerivation::fallback`, the second component of `with_fallback`, and `debug`.
-/

namespace Rustomata
open Spec

section
variable {N T W : Type _} [Zero W]

theorem fallbackLoop_mono {rec rec' : List (Nat × CowNode) → GornTree (PMCFGRule N T W) → List Nat → Option (GornTree (PMCFGRule N T W))} {pos : List Nat}
    (h : ∀ g t p t', rec g t p = some t' → rec' g t p = some t') : ∀ (groups : List (List (Nat × CowNode))) (idx : Nat) (tree tree' : GornTree (PMCFGRule N T W)),
    fallbackLoop rec pos idx groups tree = some tree' → fallbackLoop rec' pos idx groups tree = some tree'
  | [], _, _, _, hl => hl
  | g :: groups, idx, tree, tree', hl => by
    rw [fallbackLoop] at hl ⊢
    split at hl
    · rename_i hg
      rw [if_pos hg]
      exact fallbackLoop_mono h groups _ _ _ hl
    · rename_i hg
      rw [if_neg hg]
      split at hl
      · cases hl
      · rename_i t₁ ht
        rw [h _ _ _ _ ht]
        exact fallbackLoop_mono h groups _ _ _ hl

theorem fallbackVec_mono {rules : List (PMCFGRule N T W)} : ∀ (fuel : Nat) (gs : List (Nat × CowNode)) (tree : GornTree (PMCFGRule N T W)) (pos : List Nat)
    (tree' : GornTree (PMCFGRule N T W)), fallbackVec rules fuel gs tree pos = some tree' → fallbackVec rules (fuel + 1) gs tree pos = some tree'
  | 0, _, _, _, _, h => by cases h
  | fuel + 1, gs, tree, pos, tree', h => by
    rw [fallbackVec] at h
    rw [fallbackVec]
    split at h
    · cases h
    · cases h
    · rename_i j rid r rs hroots
      split at h
      · cases h
      · rename_i re root hm
        split at h
        · cases h
        · rename_i groups hg
          split at h
          · cases h
          · rename_i t₁ ht
            rw [fallbackLoop_mono (fun g t p t' => fallbackVec_mono fuel g t p t') groups _ _ _ ht]
            exact h

theorem fallback_mono {rules : List (PMCFGRule N T W)} {fuel fuel' : Nat} (hf : fuel ≤ fuel') {t : CowNode} {m : GornTree (PMCFGRule N T W)}
    (h : t.fallback rules fuel = some m) : t.fallback rules fuel' = some m := by
  induction hf with
  | refl => exact h
  | step _ ih => exact fallbackVec_mono _ _ _ _ _ ih

end

section
variable {N T W : Type _} {rules : List (PMCFGRule N T W)}

theorem exists_numbers {A : N} {d : DTree (PMCFGRule N T W)} {v : List (List T)} (h : Derives rules A d v) : ∃ e, Numbers rules e d := by
  refine derives_induct (P := fun _ d _ => ∃ e, Numbers rules e d) (fun r ds args v hr hl1 hl2 hch _ => ?_) h
  obtain ⟨rid, hrid⟩ := List.getElem?_of_mem hr
  obtain ⟨es, hes⟩ := exists_forall₂ (R := fun d e => Numbers rules e d) ds fun d hd => by
    obtain ⟨i, hi⟩ := List.getElem?_of_mem hd
    have hlt := (List.getElem?_eq_some_iff.1 hi).1
    exact (hch i _ d _ (List.getElem?_eq_getElem (by omega)) hi (List.getElem?_eq_getElem (by omega))).2
  refine ⟨.node rid es, numbers_node.2 ⟨hrid, hes.length_eq.symm, fun i e d h1 h2 => ?_⟩⟩
  obtain ⟨l1, e1⟩ := List.getElem?_eq_some_iff.1 h1
  obtain ⟨l2, e2⟩ := List.getElem?_eq_some_iff.1 h2
  have := (List.forall₂_iff_get.1 hes).2 i l2 l1
  simp only [List.get_eq_getElem, e1, e2] at this
  exact this

theorem firstDeriv_spec {R : Type _} {rules : List R} : ∀ {words : List (List (Bracket BracketContent))} {out : List (GornTree R)} (n : Nat),
    filterMapP (toderiv rules) words = some out → ∃ k, firstDeriv rules words n = some (out.head?, k)
  | [], _, n, h => by cases h; exact ⟨n, rfl⟩
  | v :: words, out, n, h => by
    rw [filterMapP] at h
    rw [firstDeriv]
    split at h
    · cases h
    · rename_i hv
      rw [hv]
      exact firstDeriv_spec (n + 1) h
    · rename_i y hv
      rw [Option.map_eq_some_iff] at h
      obtain ⟨out', _, rfl⟩ := h
      rw [hv]
      exact ⟨n + 1, rfl⟩

theorem filterMapP_ne_nil {X Y : Type _} {f : X → Option (Option Y)} {l : List X} {out : List Y} (h : filterMapP f l = some out) (hne : out ≠ []) : l ≠ [] := by
  rintro rfl
  cases h
  exact hne rfl

end

section
variable {N T W : Type _} [DecidableEq N] [DecidableEq T] [LinearOrderedCommMonoidWithZero W] [NoZeroDivisors W] {factorize : W → Nat → List W}
  {order : Nat → List Nat → List Nat} {g : Lcfrs N T W} {width : Nat} {R : CsRep N T W}

/-- The candidates of a sentence. -/
theorem candidates_spec (hR : CsRep.new factorize order g width = some R) (ho : HashOrder order) (hfac : Factorizes factorize)
    (hg : ParserGrammar g.rules g.init) (hw : Props.FactorsLeOne factorize (indexed g.rules))
    (hpre : Preterminals g.rules) (hcyc : NoVariableCycle g.rules) {word : List T} (hn0 : 0 < word.length)
    (hn : word.length ≤ 255) {o : CsOptions W} (hb0 : 0 < o.beam.getD R.generator.states) (hs : o.beam.getD R.generator.states ≤ 65535) :
    R.rules = g.rules ∧ ∃ words : List (List (Bracket BracketContent)),
      (∀ v ∈ words, ∃ rid P w, v = compWord rid 0 P ∧ CompDerives factorize (indexed g.rules) g.init 0 rid P word w) ∧
      ∃ fuel₀, ∀ m, ∀ fuel ≥ fuel₀, R.generate o word fuel m = some ((List.range m).map fun k => words[k]?) := by
  unfold CsRep.new at hR
  split at hR
  swap
  · cases hR
  split at hR
  swap
  · cases hR
  split at hR
  swap
  · cases hR
  rename_i _ _ A masks hA hmk
  change CsAutomaton.fromGrammar factorize (indexed g.rules) g.init = some A at hA
  rw [Option.map_eq_some_iff] at hR
  obtain ⟨outs, houts, rfl⟩ := hR
  simp only at hs hb0
  have hlen : ∀ w n, (factorize w n).length = n := fun w n => (hfac w n).1
  have hi := initial_lt hA hg hlen
  obtain ⟨st, ps, h1, hnd, h3, h4, hbr, h6, _, h7⟩ := Props.C42_tables hA
  obtain ⟨mask, hm1, hm2, hm3, hm4⟩ := mask_spec hlen h1 h3 ho hg hmk word
  have hml : mask.length = A.brackets.length := by rw [hm2, hbr, List.length_map]
  obtain ⟨chart, hc⟩ := Props.C42_total hA hw hi houts (beam := o.beam.getD A.states) (delta := o.delta) hml hn hb0 hs
  have hsound := fun t w => chart_sound (t := t) (w := w) hA hg hpre hm3 hn hc hi
  obtain ⟨hget, hbest⟩ : _ ∧ _ := by
    obtain ⟨st, ps, h1, h2, _⟩ := CsAutomaton.fromGrammar_rep hA
    exact fillChart_best h2.buWF hn hc ((Props.leOne_of_factors hA hw).chains mask)
      fun i q rid a v hi hq hr => Props.C44_terminals hA hn hc (terminalDet_of hA hg hpre mask) hi hq hr
  obtain ⟨ts, words, k1, k2, k3, k4, fuel₀, k5⟩ : EnumeratesAll A chart mask word.length := by
    obtain ⟨st, ps, h1, h2, _⟩ := CsAutomaton.fromGrammar_rep hA
    exact enumeratesAll h1 h2 hi hml hget hbest (noChainCycle_of hA hcyc mask) hn0 hn
  refine ⟨rfl, words, fun v hv => ?_, fuel₀, fun m fuel hf => ?_⟩
  · obtain ⟨x, hx, hv⟩ := forall₂_mem_right k4 hv
    obtain ⟨rid, P, c1, c2, _⟩ := Props.derives_compDerives hA (indexed_ids _) (hsound _ _ ((k3 x).1 hx))
    rw [hv, Option.some.injEq] at c2
    exact ⟨rid, P, _, c2, c1⟩
  · unfold CsRep.generate
    simp only [hm1, hc]
    exact k5 m fuel hf

end

end Rustomata

namespace Rustomata.Props
open Spec

section
variable {N T W : Type _} [CommMonoid W] [Zero W] {factorize : W → Nat → List W} {rules : List (PMCFGRule N T W)} {init A : N}

/-- **C55** For linear rules and each bracket word of the context-free approximation from a nonterminal: `CowDerivation::new` and `fallback` do not panic and return a
derivation of the word that is spelled, with merged rules, also if the bracket word is not the encoding of a derivation. -/
theorem C55_fallback (hl : ∀ r ∈ rules, (varsOf r.composition).Nodup) {rid : Nat} {P : Parts} {u : List T} {w : W}
    (h : CompDerives factorize (indexed rules) A 0 rid P u w) :
    ∃ t m fuel₀, CowNode.new (compWord rid 0 P) = some t ∧ (∀ fuel ≥ fuel₀, t.fallback rules fuel = some m) ∧ FallbackOf rules A u m := by
  obtain ⟨m, hm, hc, rfl, rfl, rfl⟩ := exists_cowItem h
  obtain ⟨d, h1, h2, h3⟩ := fallbackVec_spec hl (Parts.depth m.parts + 1) A [m] (by simp) (by simp) (by simpa using hm) (by simp)
  obtain ⟨t, e, o1, o2, o3⟩ := h1 [] []
  rw [List.map_singleton, hc] at e
  refine ⟨_, t, Parts.depth m.parts + 1, CowNode.new_compWord .., fun fuel hf => fallback_mono hf e, o1 (by simp [GornTree.Sorted]), d, fun p => ?_, ?_, h3⟩
  · have := o2 p
    rw [List.nil_append] at this
    rw [this]
    exact Option.or_none ..
  · have e2 : groupTuple [m] (([m].map fun m => m.comp + 1).foldl max 0) = [m.word] := by
      simp [groupTuple, hc]
    rw [e2] at h2
    exact h2

/-- **C55** The value of the tree of a fallback is the word. -/
theorem C55_evaluate {u : List T} {m : GornTree (PMCFGRule N T W)} (h : FallbackOf rules A u m) : evaluate (toTerm m).1 = some [u.map VarT.t] := by
  obtain ⟨h1, d, h2, h3, _⟩ := h
  have hd := h3 (m.map Prod.snd) fun p r hp => by
    rw [← h2] at hp
    exact List.mem_map.2 ⟨_, GornTree.mem_of_get hp, rfl⟩
  exact C37_evaluate_derivation hd m h1 h2

end

section
variable {N T W : Type _} [DecidableEq N] [DecidableEq T] [LinearOrderedCommMonoidWithZero W] {factorize : W → Nat → List W}
  {order : Nat → List Nat → List Nat} {g : Lcfrs N T W} {width : Nat} {R : CsRep N T W}

omit [DecidableEq N] [DecidableEq T] [LinearOrderedCommMonoidWithZero W] in
theorem parserGrammar_linear (hg : ParserGrammar g.rules g.init) : ∀ r ∈ g.rules, (varsOf r.composition).Nodup := by
  obtain ⟨_, _, _, h⟩ := hg.lcfrs
  exact fun r hr => (h r hr).1

/-- **C55** for all grammars in normal form and all options: the fallback that is returned is a derivation with merged rules of some sentence with the same number of
words. -/
theorem C55_length (hR : CsRep.new factorize order g width = some R) (hg : ParserGrammar g.rules g.init)
    {word : List T} (hn : word.length ≤ 255) {o : CsOptions W} {fuel : Nat} {t : GornTree (PMCFGRule N T W)}
    (ht : R.fallback o word fuel = some (some t)) : ∃ u, FallbackOf g.rules g.init u t ∧ u.length = word.length := by
  unfold CsRep.new at hR
  split at hR
  swap
  · cases hR
  split at hR
  swap
  · cases hR
  split at hR
  swap
  · cases hR
  rename_i A masks hA hmk
  change CsAutomaton.fromGrammar factorize (indexed g.rules) g.init = some A at hA
  rw [Option.map_eq_some_iff] at hR
  obtain ⟨outs, houts, rfl⟩ := hR
  unfold CsRep.fallback at ht
  rw [Option.bind_eq_some_iff] at ht
  obtain ⟨vs, hvs, ht⟩ := ht
  split at ht
  · cases ht
  rename_i v vs' hvv
  have hv : some v ∈ vs := mem_untilNone (by rw [hvv]; exact List.mem_cons_self ..)
  unfold CsRep.generate at hvs
  split at hvs
  · cases hvs
  split at hvs
  · cases hvs
  rename_i mask hmask _ chart hchart
  obtain ⟨tr, w, h1, h2⟩ := C44_sound hA hn hvs hv
  obtain ⟨_, u, h3, h4⟩ := chartDerives_word h1
  have h5 := h4 [] [] rfl
  rw [List.nil_append, List.append_nil] at h5
  have hu : u.length = word.length := by omega
  rw [← hu] at h5
  obtain ⟨rid, P, c1, c2, _⟩ := derives_compDerives hA (indexed_ids _) h5
  rw [h2, Option.some.injEq] at c2
  subst c2
  obtain ⟨t', m, fuel₀, e1, e2, e3⟩ := C55_fallback (parserGrammar_linear hg) c1
  rw [e1, Option.bind_some, Option.map_eq_some_iff] at ht
  obtain ⟨m', hm', e4⟩ := ht
  rw [Option.some.injEq] at e4
  subst e4
  have := fallback_mono (Nat.le_max_left fuel fuel₀) hm'
  rw [e2 _ (Nat.le_max_right ..), Option.some.injEq] at this
  subst this
  exact ⟨u, e3, hu⟩

/-- **C55** for grammars whose nonterminals with terminal rules are preterminals, and all options: the fallback that is returned is a derivation with merged rules of
the sentence. -/
theorem C55_sentence_partial (hR : CsRep.new factorize order g width = some R) (ho : HashOrder order) (hfac : Factorizes factorize)
    (hg : ParserGrammar g.rules g.init) (hpre : Preterminals g.rules)
    {word : List T} (hn : word.length ≤ 255) {o : CsOptions W} {fuel : Nat} {t : GornTree (PMCFGRule N T W)}
    (ht : R.fallback o word fuel = some (some t)) : FallbackOf g.rules g.init word t := by
  unfold CsRep.new at hR
  split at hR
  swap
  · cases hR
  split at hR
  swap
  · cases hR
  split at hR
  swap
  · cases hR
  rename_i A masks hA hmk
  change CsAutomaton.fromGrammar factorize (indexed g.rules) g.init = some A at hA
  rw [Option.map_eq_some_iff] at hR
  obtain ⟨outs, houts, rfl⟩ := hR
  have hlen : ∀ w n, (factorize w n).length = n := fun w n => (hfac w n).1
  have hi := initial_lt hA hg hlen
  obtain ⟨st, ps, h1, hnd, h3, h4, hbr, h6, _, h7⟩ := Props.C42_tables hA
  obtain ⟨mask, hm1, hm2, hm3, hm4⟩ := mask_spec hlen h1 h3 ho hg hmk word
  unfold CsRep.fallback at ht
  rw [Option.bind_eq_some_iff] at ht
  obtain ⟨vs, hvs, ht⟩ := ht
  split at ht
  · cases ht
  rename_i v vs' hvv
  have hv : some v ∈ vs := mem_untilNone (by rw [hvv]; exact List.mem_cons_self ..)
  unfold CsRep.generate at hvs
  simp only [hm1] at hvs
  split at hvs
  · cases hvs
  rename_i chart hchart
  obtain ⟨tr, w, h1, h2⟩ := C44_sound hA hn hvs hv
  obtain ⟨rid, P, c1, c2, _⟩ := derives_compDerives hA (indexed_ids _) (chart_sound hA hg hpre hm3 hn hchart hi h1)
  rw [h2, Option.some.injEq] at c2
  subst c2
  obtain ⟨t', m, fuel₀, e1, e2, e3⟩ := C55_fallback (parserGrammar_linear hg) c1
  rw [e1, Option.bind_some, Option.map_eq_some_iff] at ht
  obtain ⟨m', hm', e4⟩ := ht
  rw [Option.some.injEq] at e4
  subst e4
  have := fallback_mono (Nat.le_max_left fuel fuel₀) hm'
  rw [e2 _ (Nat.le_max_right ..), Option.some.injEq] at this
  subst this
  exact e3

/-- **C55** for grammars whose nonterminals with terminal rules are preterminals, without cycles of components that consist of one variable, and all beams and
thresholds: the second result of `with_fallback` is a derivation with merged rules of the sentence, and without pruning it exists if the sentence has a derivation. -/
theorem C55_with_fallback_partial [NoZeroDivisors W] (hR : CsRep.new factorize order g width = some R) (ho : HashOrder order) (hfac : Factorizes factorize)
    (hg : ParserGrammar g.rules g.init) (hw : FactorsLeOne factorize (indexed g.rules)) (hpre : Preterminals g.rules)
    (hcyc : NoVariableCycle g.rules) {word : List T} (hn0 : 0 < word.length) (hn : word.length ≤ 255) {o : CsOptions W}
    (hb0 : 0 < o.beam.getD R.generator.states) (hb : o.beam.getD R.generator.states ≤ 65535) :
    ∃ ot fuel₀, (∀ fuel ≥ fuel₀, R.fallback o word fuel = some ot) ∧ (∀ t, ot = some t → FallbackOf g.rules g.init word t) ∧
      (FactorsNeZero factorize g.rules → R.generator.states ≤ o.beam.getD R.generator.states → o.delta = 0 → (∃ d, Derives g.rules g.init d [word]) → ot.isSome) := by
  obtain ⟨hrules, words, h1, fuel₀, h2⟩ := candidates_spec hR ho hfac hg hw hpre hcyc hn0 hn hb0 hb
  cases words with
  | nil =>
    refine ⟨none, fuel₀, fun fuel hf => ?_, (fun t ht => by cases ht), fun g1 g2 g3 ⟨d, hd⟩ => ?_⟩
    · unfold CsRep.fallback
      rw [h2 1 fuel hf]
      rfl
    · obtain ⟨out, _, k2, m₀, fuel₁, k3⟩ := parses_spec hR ho hfac hg hw hpre hcyc hn0 hn (o := ⟨none, o.beam, o.delta⟩) hb0 hb
      obtain ⟨ds, ⟨_, _, _, k4⟩, k5⟩ := k2 g1 g2 g3
      obtain ⟨e, he⟩ := exists_numbers hd
      have k6 := (k3 m₀ (max fuel₀ fuel₁) (Nat.le_max_right ..)).2 rfl (le_refl _)
      have k7 := h2 m₀ (max fuel₀ fuel₁) (Nat.le_max_left ..)
      unfold CsRep.parses at k6
      rw [show R.generate ⟨none, o.beam, o.delta⟩ word (max fuel₀ fuel₁) m₀ = R.generate o word (max fuel₀ fuel₁) m₀ from rfl, k7, Option.bind_some,
        untilNone_range] at k6
      simp only [List.take_nil, CsOptions.limit, filterMapP, Option.some.injEq] at k6
      subst k6
      rw [List.forall₂_nil_right_iff] at k4
      subst k4
      cases k5 e d ⟨he, hd⟩
  | cons v words =>
    obtain ⟨rid, P, w, rfl, hc⟩ := h1 v (List.mem_cons_self ..)
    obtain ⟨t, m, fuel₁, e1, e2, e3⟩ := C55_fallback (parserGrammar_linear hg) hc
    refine ⟨some m, max fuel₀ fuel₁, fun fuel hf => ?_, (fun t ht => by cases ht; exact e3), fun _ _ _ _ => rfl⟩
    unfold CsRep.fallback
    rw [h2 1 fuel (by omega), Option.bind_some, untilNone_range]
    simp only [List.take_succ_cons, e1, Option.bind_some, hrules]
    rw [e2 fuel (by omega)]
    rfl

/-- What `debug` reports for a sentence whose derivations are `out`. -/
def DebugSpec (rules : List (PMCFGRule N T W)) (init : N) (word : List T) (out : List (GornTree (PMCFGRule N T W))) : DebugResult N T W → Prop
  | .parse t _ => out.head? = some t
  | .fallback t _ => out = [] ∧ FallbackOf rules init word t
  | .noparse => out = []

/-- **C55** For the grammars of `C55_with_fallback_partial` and without pruning: `debug` reports the first (that is, a best) derivation of the sentence if there is one,
and otherwise a derivation with merged rules or nothing. -/
theorem C55_debug_partial [NoZeroDivisors W] (hR : CsRep.new factorize order g width = some R) (ho : HashOrder order) (hfac : Factorizes factorize)
    (hg : ParserGrammar g.rules g.init) (hw : FactorsLeOne factorize (indexed g.rules)) (h0 : FactorsNeZero factorize g.rules) (hpre : Preterminals g.rules)
    (hcyc : NoVariableCycle g.rules) (hs : R.generator.states ≤ 65535) {word : List T} (hn0 : 0 < word.length) (hn : word.length ≤ 255) {o : CsOptions W}
    (hcand : o.candidates = none) (hb : o.beam = none) (hd : o.delta = 0) :
    ∃ out, Parses g.rules g.init word out ∧ ∃ res m₀ fuel₀, DebugSpec g.rules g.init word out res ∧
      ∀ m ≥ m₀, ∀ fuel ≥ fuel₀, R.debug o word fuel m = some res := by
  have hpos : 0 < R.generator.states := by
    unfold CsRep.new at hR
    split at hR
    swap
    · cases hR
    split at hR
    swap
    · cases hR
    split at hR
    swap
    · cases hR
    rename_i A masks hA hmk
    rw [Option.map_eq_some_iff] at hR
    obtain ⟨outs, houts, rfl⟩ := hR
    exact Nat.zero_lt_of_lt (initial_lt hA hg fun w n => (hfac w n).1)
  have hb1 : 0 < o.beam.getD R.generator.states := by rw [hb]; exact hpos
  have hb2 : o.beam.getD R.generator.states ≤ 65535 := by rw [hb]; exact hs
  obtain ⟨hrules, words, h1, fuel₀, h2⟩ := candidates_spec hR ho hfac hg hw hpre hcyc hn0 hn hb1 hb2
  obtain ⟨out, _, k2, m₀, fuel₁, k3⟩ := parses_spec hR ho hfac hg hw hpre hcyc hn0 hn hb1 hb2
  have hp := k2 h0 (by rw [hb]; exact le_refl _) hd
  refine ⟨out, hp, ?_⟩
  have k6 := (k3 (max m₀ words.length) (max fuel₀ fuel₁) (Nat.le_max_right ..)).2 hcand (Nat.le_max_left ..)
  unfold CsRep.parses at k6
  rw [h2 _ (max fuel₀ fuel₁) (Nat.le_max_left ..), Option.bind_some, untilNone_range, List.take_of_length_le (Nat.le_max_right ..)] at k6
  simp only [CsOptions.limit, hcand, hrules] at k6
  obtain ⟨n, hn⟩ := firstDeriv_spec 0 k6
  have hrun : ∀ m ≥ words.length, ∀ fuel ≥ fuel₀, R.generate o word fuel m = some ((List.range m).map fun k => words[k]?) ∧
      o.limit (untilNone ((List.range m).map fun k => words[k]?)) = words := by
    intro m hm fuel hf
    refine ⟨h2 m fuel hf, ?_⟩
    rw [untilNone_range, List.take_of_length_le hm]
    simp only [CsOptions.limit, hcand]
  cases out with
  | cons t out =>
    refine ⟨.parse t n, words.length, fuel₀, rfl, fun m hm fuel hf => ?_⟩
    unfold CsRep.debug
    obtain ⟨r1, r2⟩ := hrun m hm fuel hf
    rw [r1, Option.bind_some, r2, hrules, hn]
    rfl
  | nil =>
    cases words with
    | nil =>
      refine ⟨.noparse, 0, fuel₀, rfl, fun m hm fuel hf => ?_⟩
      unfold CsRep.debug
      obtain ⟨r1, r2⟩ := hrun m (by simp) fuel hf
      rw [r1, Option.bind_some, r2, hrules, hn]
      rfl
    | cons v words =>
      obtain ⟨rid, P, w, rfl, hc⟩ := h1 v (List.mem_cons_self ..)
      obtain ⟨t, m, fuel₂, e1, e2, e3⟩ := C55_fallback (parserGrammar_linear hg) hc
      refine ⟨.fallback m n, words.length + 1, max fuel₀ fuel₂, ⟨rfl, e3⟩, fun m hm fuel hf => ?_⟩
      unfold CsRep.debug
      obtain ⟨r1, r2⟩ := hrun m (by simpa using hm) fuel (by omega)
      rw [r1, Option.bind_some, r2, hrules, hn]
      simp only [List.head?_nil, e1, Option.bind_some]
      rw [e2 fuel (by omega)]
      rfl

end

/-- The claim **C55** for the grammars that fulfil a condition: for all grammars in normal form, the second result of `with_fallback` is a derivation with merged rules
of the sentence. -/
def C55_claim_for (ok : ∀ {N T W : Type}, List (PMCFGRule N T W) → Prop) : Prop :=
  ∀ (N T W : Type) [DecidableEq N] [DecidableEq T] [LinearOrderedCommMonoidWithZero W] [NoZeroDivisors W] (factorize : W → Nat → List W)
    (order : Nat → List Nat → List Nat) (g : Lcfrs N T W) (width : Nat) (R : CsRep N T W) (word : List T) (fuel : Nat) (t : GornTree (PMCFGRule N T W)),
    CsRep.new factorize order g width = some R → HashOrder order → Factorizes factorize → ParserGrammar g.rules g.init →
    FactorsLeOne factorize (indexed g.rules) → FactorsNeZero factorize g.rules → ok g.rules → R.generator.states ≤ 65535 →
    0 < word.length → word.length ≤ 255 → R.fallback .default word fuel = some (some t) → FallbackOf g.rules g.init word t

/-- The full claim **C55**. -/
def C55_claim : Prop := C55_claim_for fun _ => True

/-- **C55** holds for the condition of the theorem. -/
theorem C55_claim_partial : C55_claim_for Preterminals := by
  intro N T W _ _ _ _ factorize order g width R word fuel t hR ho hfac hg _ _ hpre _ _ hn ht
  exact C55_sentence_partial hR ho hfac hg hpre hn ht

namespace C55Example

/-- `S → A₀ B A₁ D`, `A → (C, D)`, `A → (D, C)`, `B → 8`, `C → 6`, `D → 7`. -/
def g : Lcfrs Nat Nat Nat :=
  ⟨[⟨0, [1, 2, 4], [[.var 0 0, .var 1 0, .var 0 1, .var 2 0]], 1⟩, ⟨1, [3, 4], [[.var 0 0], [.var 1 0]], 1⟩, ⟨1, [3, 4], [[.var 1 0], [.var 0 0]], 1⟩,
    ⟨2, [], [[.t 8]], 1⟩, ⟨3, [], [[.t 6]], 1⟩, ⟨4, [], [[.t 7]], 1⟩], 0⟩

/-- The result of `debug`, with the rules by their nonterminals and compositions; 100 is added to the number of candidates for a fallback, 1000 is a panic. -/
def debug (word : List Nat) : Nat × List (List Nat × List Nat × Composition Nat) :=
  ((CsRep.new C45Example.factorize (fun _ l => l.dedup) g 5).bind fun R => (R.debug .default word 40 10).map fun
    | .parse t n => (n, t.map fun x => (x.1, x.2.head :: x.2.tail, x.2.composition))
    | .fallback t n => (n + 100, t.map fun x => (x.1, x.2.head :: x.2.tail, x.2.composition))
    | .noparse => (0, [])).getD (1000, [])

end C55Example

open C55Example in
/-- A sentence with a derivation. -/
example : debug [6, 8, 7, 7] = (1, [([], [0, 1, 2, 4], [[.var 0 0, .var 1 0, .var 0 1, .var 2 0]]), ([0], [1, 3, 4], [[.var 0 0], [.var 1 0]]),
    ([0, 0], [3], [[.t 6]]), ([0, 1], [4], [[.t 7]]), ([1], [2], [[.t 8]]), ([2], [4], [[.t 7]])]) := by
  decide +kernel

open C55Example in
/-- A sentence without a derivation but with a candidate that uses both rules for `A`; the rules are merged to the rule `A → (C, C)`. -/
example : debug [6, 8, 6, 7] = (101, [([], [0, 1, 2, 4], [[.var 0 0, .var 1 0, .var 0 1, .var 2 0]]), ([0], [1, 3, 3], [[.var 0 0], [.var 1 0]]),
    ([0, 0], [3], [[.t 6]]), ([0, 1], [3], [[.t 6]]), ([1], [2], [[.t 8]]), ([2], [4], [[.t 7]])]) := by
  decide +kernel

open C55Example in
/-- A sentence without a candidate. -/
example : debug [8, 6, 6, 7] = (0, []) := by decide +kernel

open C54Witness in
/-- **C55** is violated by nonterminals with rules for several terminals: for the rules `S → a` and `S → b` and the sentence `a`, the fallback is `S → b`. -/
theorem C55_lexicon_violated : ¬ C55_claim := by
  intro h
  have hdef : ((CsRep.new C45Example.factorize (fun _ l => l.dedup) lexicon 5).bind fun R => (R.fallback .default [7] 10).map fun o =>
      o.map fun t => (t.get []).map fun r => r.composition) = some (some (some [[.t 8]])) := by decide +kernel
  rw [Option.bind_eq_some_iff] at hdef
  obtain ⟨R, hR, hdef⟩ := hdef
  rw [Option.map_eq_some_iff] at hdef
  obtain ⟨o, ho, hdef⟩ := hdef
  rw [Option.map_eq_some_iff] at hdef
  obtain ⟨t, rfl, hdef⟩ := hdef
  rw [Option.map_eq_some_iff] at hdef
  obtain ⟨r, hr, hroot⟩ := hdef
  have hs : R.generator.states ≤ 65535 := by
    have := states_lexicon
    rw [hR] at this
    simpa using this
  obtain ⟨_, d, hd, hder, _⟩ := h Nat Nat Nat _ _ lexicon 5 R [7] 10 t hR hashOrder C45Example.factorizes lexicon_grammar
    (by unfold FactorsLeOne; decide) (by unfold FactorsNeZero; decide) trivial hs (by simp) (by simp) ho
  have hder := hder (t.map Prod.snd) fun p r hp => by
    rw [← hd] at hp
    exact List.mem_map.2 ⟨_, GornTree.mem_of_get hp, rfl⟩
  obtain ⟨r', h1, h2, ds, args, rfl, _, h3⟩ := derives_inv hder
  have := hd []
  rw [hr] at this
  cases this
  rw [hroot] at h3
  simp [compose, substAll, subst] at h3

end Rustomata.Props
