import Verif.Proofs.CsCommandStream
import Verif.Props.CsCommandAny
import Verif.Props.CsExtractCycles
import Verif.Props.CsStream

/-!
# C92: the commands for grammars with cycles and arbitrary terminal rules
-/

namespace Rustomata.Props
open Spec

section
variable {N T W : Type _} [DecidableEq N] [DecidableEq T] [LinearOrderedCommMonoidWithZero W] [NoZeroDivisors W] {factorize : W → Nat → List W}
  {order : Nat → List Nat → List Nat} {g : Lcfrs N T W} {width : Nat} {R : CsRep N T W}

omit [NoZeroDivisors W] in
/-- **C92** With a limit of the number of candidates, the search ends, if cycles lower the weights. -/
theorem C92_limit (hR : CsRep.new factorize order g width = some R) (ho : HashOrder order) (hfac : Factorizes factorize)
    (hg : ParserGrammar g.rules g.init) (hw : FactorsLeOne factorize (indexed g.rules))
    (hcyc : VariableCyclesLower factorize g.rules) {word : List T} (hn : word.length ≤ 255) {o : CsOptions W}
    (hb0 : 0 < o.beam.getD R.generator.states) (hb : o.beam.getD R.generator.states ≤ 65535) {c : Nat} (hc : o.candidates = some c) (k : Nat) :
    Ends R o word k := by
  rcases Nat.eq_zero_or_pos word.length with h0 | hn0
  · rw [List.eq_nil_of_length_eq_zero h0]
    exact C87_empty hR ho hfac hg hw hb0 hb k
  obtain ⟨_, out, _, fuel₀, h⟩ := C91_pruned hR ho hfac hg hw hcyc hn0 hn hb0 hb (c + 1)
  have h := h fuel₀ (le_refl _)
  obtain ⟨cands, h'⟩ := generate_of_parses h
  exact ⟨c + 1, fuel₀, cands, out, h', h, .inr (.inr ⟨c, hc, by omega⟩)⟩

omit [NoZeroDivisors W] in
/-- **C92** Without cycles, the search ends, also if there are fewer derivations than demanded. -/
theorem C92_acyclic (hR : CsRep.new factorize order g width = some R) (ho : HashOrder order) (hfac : Factorizes factorize)
    (hg : ParserGrammar g.rules g.init) (hw : FactorsLeOne factorize (indexed g.rules)) (hcyc : NoVariableCycle g.rules) {word : List T} (hn : word.length ≤ 255)
    {o : CsOptions W} (hb0 : 0 < o.beam.getD R.generator.states) (hb : o.beam.getD R.generator.states ≤ 65535) (k : Nat) :
    Ends R o word k := by
  rcases Nat.eq_zero_or_pos word.length with h0 | hn0
  · rw [List.eq_nil_of_length_eq_zero h0]
    exact C87_empty hR ho hfac hg hw hb0 hb k
  · obtain ⟨_, words, _, fuel₁, h2⟩ := candidates_each hR ho (fun w n => (hfac w n).1) hg hw hcyc hn0 hn hb0 hb
    obtain ⟨_, out, _, fuel₀, p⟩ := C91_pruned hR ho hfac hg hw (C91_no_cycle hcyc).1 hn0 hn hb0 hb (words.length + 1)
    refine ⟨words.length + 1, max fuel₀ fuel₁, _, out, h2 _ _ (Nat.le_max_right ..), p _ (Nat.le_max_left ..), .inr (.inl ?_)⟩
    rw [List.mem_map]
    exact ⟨words.length, List.mem_range.2 (by omega), by simp⟩

/-- **C92** If there are `k` derivations, then the search for `k` derivations ends, if there is no pruning and no limit and the repetitions of cycles vanish. -/
theorem C92_enough (hR : CsRep.new factorize order g width = some R) (ho : HashOrder order) (hfac : Factorizes factorize)
    (hg : ParserGrammar g.rules g.init) (hw : FactorsLeOne factorize (indexed g.rules)) (h0 : FactorsNeZero factorize g.rules)
    (hcyc : VariableCyclesLower factorize g.rules) (hvan : VariableCyclesVanish factorize g.rules) (hs : R.generator.states ≤ 65535) {word : List T}
    (hn : word.length ≤ 255) {o : CsOptions W} (hb : o.beam = none) (hd : o.delta = 0) (hc : o.candidates = none) {k : Nat}
    (hk : AtLeast g.rules g.init word k) : Ends R o word k := by
  have hpos := states_pos hR hfac hg
  rcases Nat.eq_zero_or_pos word.length with hn0 | hn0
  · rw [List.eq_nil_of_length_eq_zero hn0]
    exact C87_empty hR ho hfac hg hw (by rw [hb]; exact hpos) (by rw [hb]; exact hs) k
  obtain ⟨ds, out, h1, h2⟩ := parses_stream hR ho hfac hg hw hcyc hn0 hn (o := o) (by rw [hb]; exact hpos) (by rw [hb]; exact hs)
  have h3 := h2 inferInstance h0 (by rw [hb]; exact le_refl _) hd hc hvan
  obtain ⟨es, rfl, hnd, hes⟩ := hk
  obtain ⟨M, hM⟩ : ∃ M, ∀ m ≥ M, ∀ x ∈ es, x ∈ ds m := by
    clear hnd
    induction es with
    | nil => exact ⟨0, fun m _ x hx => by cases hx⟩
    | cons x es ih =>
      obtain ⟨M, hM⟩ := ih fun e d h => hes e d (List.mem_cons_of_mem _ h)
      obtain ⟨M', hM'⟩ := h3 x.1 x.2 (hes x.1 x.2 List.mem_cons_self).1 (hes x.1 x.2 List.mem_cons_self).2
      refine ⟨max M M', fun m hm y hy => ?_⟩
      rcases List.mem_cons.1 hy with rfl | hy
      · exact hM' m (by omega)
      · exact hM m (by omega) y hy
  obtain ⟨⟨_, p4⟩, fuel₀, p5⟩ := h1 M
  have p5 := p5 fuel₀ (le_refl _)
  obtain ⟨cands, h'⟩ := generate_of_parses p5
  refine ⟨M, fuel₀, cands, out M, h', p5, .inl ?_⟩
  rw [← p4.length_eq]
  exact (List.subperm_of_subset hnd (fun x hx => hM M (le_refl _) x hx)).length_le

/-- The tree is the derivation. -/
def TreeOf {R : Type _} (d : DTree R) (t : GornTree R) : Prop := t.Sorted ∧ ∀ p, t.get p = d.at? p

/-- **C92** If the search for `k` derivations ends, then the results are determined: the first `k` results do not depend on the number of further calls; they are derivations
of sentences with the same number of words; without pruning and limit (and if the repetitions of cycles vanish), each derivation of the sentence is among them if there are
fewer than `k` results. -/
theorem C92_results (hR : CsRep.new factorize order g width = some R) (ho : HashOrder order) (hfac : Factorizes factorize)
    (hg : ParserGrammar g.rules g.init) (hw : FactorsLeOne factorize (indexed g.rules))
    (hcyc : VariableCyclesLower factorize g.rules) {word : List T} (hn : word.length ≤ 255) {o : CsOptions W}
    (hb0 : 0 < o.beam.getD R.generator.states) (hb : o.beam.getD R.generator.states ≤ 65535) {k : Nat} (hend : Ends R o word k) :
    ∃ ds out, ParsedLength g.rules g.init word ds out ∧
      (FactorsNeZero factorize g.rules → R.generator.states ≤ o.beam.getD R.generator.states → o.delta = 0 → o.candidates = none →
        VariableCyclesVanish factorize g.rules → out.length < k → ∀ d, Derives g.rules g.init d [word] → ∃ t ∈ out, TreeOf d t) ∧
      ∃ m₀, ∀ m ≥ m₀, ∃ fuel₀, ∀ fuel ≥ fuel₀, ∃ out', R.parses o word fuel m = some out' ∧ out'.take k = out.take k := by
  obtain ⟨m₀, fuel, out₀, s1, s2⟩ := ends_stable hend
  obtain ⟨fb, _, _, ds, outs, hres, hfair⟩ := parser_results_stream hR ho hfac hg hw hcyc hn hb0 hb
  obtain ⟨r1, res, _, fuel₁, r3⟩ := hres (max m₀ 1) (Nat.le_max_right ..)
  have e1 := s2 _ (Nat.le_max_left m₀ 1) _ _ (r3 fuel₁ (le_refl _)).1
  refine ⟨ds (max m₀ 1), outs (max m₀ 1), r1, fun g1 g2 g3 hc hvan hlt d hd => ?_, max m₀ 1, fun m hm => ?_⟩
  · obtain ⟨e, he⟩ := exists_numbers hd
    obtain ⟨M, hM⟩ := hfair g1 g2 g3 hc hvan e d he hd
    have hmem := hM (max M (max m₀ 1)) (Nat.le_max_left ..)
    obtain ⟨h1, res', _, fuel₂, h4⟩ := hres (max M (max m₀ 1)) (by omega)
    have e2 := s2 (max M (max m₀ 1)) (by omega) _ _ (h4 fuel₂ (le_refl _)).1
    have hl : out₀.length < k := by
      have := congrArg List.length e1.1
      rw [List.length_take, List.length_take] at this
      omega
    obtain ⟨t, ht, ht'⟩ := forall₂_mem_left h1.2 hmem
    rw [e2.2 hl, ← e1.2 hl] at ht
    exact ⟨t, ht, ht'⟩
  · obtain ⟨_, res', _, fuel₂, r4⟩ := hres m (by omega)
    refine ⟨fuel₂, fun fuel hf => ⟨outs m, (r4 fuel hf).1, ?_⟩⟩
    rw [e1.1]
    exact (s2 m (by omega) _ _ (r4 fuel hf).1).1

end

section
variable {N W : Type _} [DecidableEq N] [LinearOrderedCommMonoidWithZero W] [NoZeroDivisors W] {factorize : W → Nat → List W}
  {order : Nat → List Nat → List Nat} {g : Lcfrs N (List Nat) W} {width : Nat} {R : CsRep N (List Nat) W}

/-- The text for a line, for grammars with cycles and arbitrary terminal rules: the results are derivations of sentences with the same number of words; without pruning and
limit, each derivation of the sentence is among them if there are fewer than demanded; the fallback is a derivation with merged rules and exists, without pruning, if the
sentence has a derivation. -/
def LineAnswerStream (factorize : W → Nat → List W) (g : Lcfrs N (List Nat) W) (R : CsRep N (List Nat) W) (o : CsOptions W) (a : ParseArgs) (showN : N → List Nat)
    (sentence names : List (List Nat)) (id : Nat) (text : List Nat) : Prop :=
  ∃ ds out fb, ParsedLength g.rules g.init sentence ds out ∧ (∀ t, fb = some t → ∃ u, FallbackOf g.rules g.init u t ∧ u.length = sentence.length) ∧
    (FactorsNeZero factorize g.rules → R.generator.states ≤ o.beam.getD R.generator.states → o.delta = 0 →
      (o.candidates = none → VariableCyclesVanish factorize g.rules → out.length < (if a.debug then 1 else a.k) →
        ∀ d, Derives g.rules g.init d [sentence] → ∃ t ∈ out, TreeOf d t) ∧
      (¬ (a.debug ∧ o.candidates = some 0) → (∃ d, Derives g.rules g.init d [sentence]) → fb.isSome)) ∧
    AnswerTextEach showN a out fb sentence names id text

/-- **C92** If the search for the demanded number of derivations ends, then the command prints what it should print for the line, also for grammars with cycles and arbitrary
terminal rules. -/
theorem C92_line (hR : CsRep.new factorize order g width = some R) (ho : HashOrder order) (hfac : Factorizes factorize)
    (hg : ParserGrammar g.rules g.init) (hw : FactorsLeOne factorize (indexed g.rules))
    (hcyc : VariableCyclesLower factorize g.rules) {o : CsOptions W}
    (hb0 : 0 < o.beam.getD R.generator.states) (hb : o.beam.getD R.generator.states ≤ 65535)
    (a : ParseArgs) (showN : N → List Nat) {i : Nat} {line : List Nat} {id : Nat} {ws sentence names : List (List Nat)} (hl : LineOf a.withLines i line id ws)
    (ht : TagsOf a.withPos ws sentence names) (hn : sentence.length ≤ 255) (hend : Ends R o sentence (if a.debug then 1 else a.k))
    (hroot : sentence.length = 1 → NoTerminalRoot g.rules g.init) :
    ∃ text, LineAnswerStream factorize g R o a showN sentence names id text ∧
      ∃ m₀, ∀ m ≥ m₀, ∃ fuel₀, ∀ fuel ≥ fuel₀, R.lineOutput o a showN fuel m line i = some text := by
  obtain ⟨ds, out, p1, p2, m₀, p3⟩ := C92_results hR ho hfac hg hw hcyc hn hb0 hb hend
  obtain ⟨fb, q1, q2, ds', outs, q3, _⟩ := parser_results_stream hR ho hfac hg hw hcyc hn hb0 hb
  have hout : ∀ t ∈ out, ∃ s, toNegra showN (fun w => w) t id (if a.withPos then some names else none) = some s ∧
      ExportSame showN t.get a.withPos sentence.length names id (s ++ [10]) := fun t ht' => by
    obtain ⟨⟨e, d⟩, hx, r3, r4⟩ := forall₂_mem_right p1.2 ht'
    obtain ⟨_, u, r5, r6⟩ := p1.1 e d hx
    exact export_same showN (tagsOf_names ht).1 id r6 fun _ hl he => export_of_derivation_names showN hg r3 r4 r5 (fun h => hroot (r6.symm.trans h)) hl he id
  have hfb : ∀ t, fb = some t → ∃ s, toNegra showN (fun w => w) t id (if a.withPos then some names else none) = some s ∧
      ExportSame showN t.get a.withPos sentence.length names id (s ++ [10]) := fun t ht' => by
    obtain ⟨u, r5, r6⟩ := q1 t ht'
    exact export_same showN (tagsOf_names ht).1 id r6 fun _ hl he => export_of_fallback_names showN hg r5 (fun h => hroot (r6.symm.trans h)) hl he id
  obtain ⟨text, fb', t1, t2, t3⟩ := line_text_by (R := R) (o := o) (E := fun t b => ExportSame showN t.get a.withPos sentence.length names id b) a showN hl ht hout hfb
    (o.candidates = some 0)
  refine ⟨text, ⟨ds, out, fb', p1, fun t h => ?_, fun g1 g2 g3 => ⟨p2 g1 g2 g3, fun h1 h2 => ?_⟩, t2⟩, max m₀ 1, fun m hm => ?_⟩
  · rcases t1 with rfl | ⟨rfl, _⟩
    · exact q1 t h
    · cases h
  · rcases t1 with rfl | ⟨_, h3, h4⟩
    · exact q2 g1 g2 g3 h2
    · exact absurd ⟨h3, by simpa using h4⟩ h1
  · obtain ⟨fuel₁, p4⟩ := p3 m (by omega)
    obtain ⟨_, res, r1, fuel₂, r2⟩ := q3 m (by omega)
    refine ⟨max fuel₁ fuel₂, fun fuel hf => ?_⟩
    obtain ⟨out'', s1, s2⟩ := p4 fuel (by omega)
    obtain ⟨s3, s4, s5⟩ := r2 fuel (by omega)
    rw [s3, Option.some.injEq] at s1
    subst s1
    exact t3 fuel m _ res s2 s3 s4 s5 r1

/-- **C92** for whole texts. -/
theorem C92_command (hR : CsRep.new factorize order g width = some R) (ho : HashOrder order) (hfac : Factorizes factorize)
    (hg : ParserGrammar g.rules g.init) (hw : FactorsLeOne factorize (indexed g.rules))
    (hcyc : VariableCyclesLower factorize g.rules) {o : CsOptions W}
    (hb0 : 0 < o.beam.getD R.generator.states) (hb : o.beam.getD R.generator.states ≤ 65535)
    (a : ParseArgs) (showN : N → List Nat) {text : List Nat} {ls : List (List Nat)} (hls : LinesOf ls text)
    (hform : ∀ i line, ls[i]? = some line → ∃ id ws sentence names, LineOf a.withLines i line id ws ∧ TagsOf a.withPos ws sentence names ∧ sentence.length ≤ 255 ∧
      Ends R o sentence (if a.debug then 1 else a.k) ∧ (sentence.length = 1 → NoTerminalRoot g.rules g.init)) :
    ∃ answers : List (List Nat), answers.length = ls.length ∧
      (∀ (i : Nat) line answer, ls[i]? = some line → answers[i]? = some answer → ∃ id ws sentence names, LineOf a.withLines i line id ws ∧
        TagsOf a.withPos ws sentence names ∧ LineAnswerStream factorize g R o a showN sentence names id answer) ∧
      ∃ m₀, ∀ m ≥ m₀, ∃ fuel₀, ∀ fuel ≥ fuel₀, R.parseCommand o a showN fuel m text = some answers.flatten := by
  have hmem : ∀ x ∈ ls.zipIdx, ∃ y, (∃ id ws sentence names, LineOf a.withLines x.2 x.1 id ws ∧ TagsOf a.withPos ws sentence names ∧
      LineAnswerStream factorize g R o a showN sentence names id y) ∧
      ∃ m₀, ∀ m ≥ m₀, ∃ fuel₀, ∀ fuel ≥ fuel₀, R.lineOutput o a showN fuel m x.1 x.2 = some y := by
    rintro ⟨line, i⟩ hx
    have hx := List.mem_zipIdx_iff_getElem?.1 hx
    obtain ⟨id, ws, sentence, names, h1, h2, h3, h4, h7⟩ := hform i line hx
    obtain ⟨y, h5, h6⟩ := C92_line hR ho hfac hg hw hcyc hb0 hb a showN h1 h2 h3 h4 h7
    exact ⟨y, ⟨id, ws, sentence, names, h1, h2, h5⟩, h6⟩
  obtain ⟨answers, hans⟩ := exists_forall₂ _ hmem
  refine ⟨answers, ?_, ?_, ?_⟩
  · rw [← hans.length_eq, List.length_zipIdx]
  · intro i line answer h1 h2
    obtain ⟨hlt, h2⟩ := List.getElem?_eq_some_iff.1 h2
    have hlt' : i < ls.zipIdx.length := hans.length_eq ▸ hlt
    have h3 := (List.forall₂_iff_get.1 hans).2 i hlt' hlt
    obtain ⟨hlt'', h1⟩ := List.getElem?_eq_some_iff.1 h1
    simp only [List.get_eq_getElem, List.getElem_zipIdx, h1, h2, Nat.zero_add] at h3
    exact h3.1
  · have hbound : ∃ m₀, ∀ m ≥ m₀, ∃ fuel₀, ∀ fuel ≥ fuel₀, List.Forall₂ (fun x y => R.lineOutput o a showN fuel m x.1 x.2 = some y) ls.zipIdx answers := by
      generalize ls.zipIdx = l at hans
      clear hmem hform hls
      induction hans with
      | nil => exact ⟨0, fun _ _ => ⟨0, fun _ _ => .nil⟩⟩
      | cons h _ ih =>
        obtain ⟨_, m₁, h1⟩ := h
        obtain ⟨m₂, h2⟩ := ih
        refine ⟨max m₁ m₂, fun m hm => ?_⟩
        obtain ⟨f₁, h1⟩ := h1 m (le_trans (le_max_left _ _) hm)
        obtain ⟨f₂, h2⟩ := h2 m (le_trans (le_max_right _ _) hm)
        exact ⟨max f₁ f₂, fun fuel hf => .cons (h1 fuel (le_trans (le_max_left _ _) hf)) (h2 fuel (le_trans (le_max_right _ _) hf))⟩
    obtain ⟨m₀, h⟩ := hbound
    refine ⟨m₀, fun m hm => ?_⟩
    obtain ⟨fuel₀, h⟩ := h m hm
    refine ⟨fuel₀, fun fuel hf => ?_⟩
    unfold CsRep.parseCommand
    rw [lines_iff.2 hls, mapM_some_iff.2 (h fuel hf)]
    rfl

end

/-- **C92** for grammars with probabilities in which no cycle has the weight one: each line is answered for which the number of candidates is limited, or which has the
demanded number of derivations (without pruning). -/
theorem C92_probabilities {N : Type _} [DecidableEq N] {order : Nat → List Nat → List Nat} {width : Nat} {g : Lcfrs N (List Nat) NNReal} {R : CsRep N (List Nat) NNReal}
    (hR : CsRep.new logFactorize order g width = some R) (ho : HashOrder order) (hg : ParserGrammar g.rules g.init) (hp : Probabilities g.rules)
    (hcyc : ∀ A c, ¬ VariablePath logFactorize g.rules A c A c 1) {o : CsOptions NNReal} (hb0 : 0 < o.beam.getD R.generator.states)
    (hb : o.beam.getD R.generator.states ≤ 65535) (a : ParseArgs) (showN : N → List Nat) {text : List Nat} {ls : List (List Nat)} (hls : LinesOf ls text)
    (hform : ∀ i line, ls[i]? = some line → ∃ id ws sentence names, LineOf a.withLines i line id ws ∧ TagsOf a.withPos ws sentence names ∧ sentence.length ≤ 255 ∧
      ((∃ c, o.candidates = some c) ∨ (o.beam = none ∧ o.delta = 0 ∧ o.candidates = none ∧ AtLeast g.rules g.init sentence (if a.debug then 1 else a.k))) ∧
      (sentence.length = 1 → NoTerminalRoot g.rules g.init)) :
    AnswersEventually (LineAnswerStream logFactorize g R o a showN) a ls fun fuel m => R.parseCommand o a showN fuel m text := by
  obtain ⟨hlow, hvan⟩ := C81_probability_cycles hp hcyc
  obtain ⟨hw, h0⟩ := probabilities_factors hp
  refine C92_command hR ho C67_factorize hg hw hlow hb0 hb a _ hls fun i line hi => ?_
  obtain ⟨id, ws, sentence, names, k1, k2, k3, k4, k5⟩ := hform i line hi
  refine ⟨id, ws, sentence, names, k1, k2, k3, ?_, k5⟩
  rcases k4 with ⟨c, hc⟩ | ⟨q1, q2, q3, q4⟩
  · exact C92_limit hR ho C67_factorize hg hw hlow k3 hb0 hb hc _
  · refine C92_enough hR ho C67_factorize hg hw h0 hlow hvan ?_ k3 q1 q2 q3 q4
    rw [q1] at hb
    exact hb

section
variable {order : Nat → List Nat → List Nat} {cs cd : Codec (List Nat)} {cw : Codec NNReal}
  {lexOrder : DiscoLexer (List Nat) (List Nat) NNReal → DiscoLexer (List Nat) (List Nat) NNReal} {sxlen : Nat}

/-- **C92** `extract` with rules and a lexicon of disco-dop, and `parse` with the result, for grammars with cycles: if all left-hand sides are productive, then each sentence is
answered for which the number of candidates is limited, or which has the demanded number of derivations (without pruning). -/
theorem C92_lexer (ho : HashOrder order) {lines lexLines : List (List Nat)} {l : List (DiscoDeriv (List Nat) × List (List Bool) × NNReal)}
    {ll : List (List Nat × List (List Nat × NNReal))} (h : List.Forall₂ (fun s y => ConstituentText cd cw y.1 y.2.1 y.2.2 s) lines l)
    (hlx : List.Forall₂ (fun s y => LexiconText cd cd cw y.1 y.2 s) lexLines ll) {s t : List Nat} (hs : FileText lines s) (ht : FileText lexLines t) {root : List Nat}
    (hi : cd.read (ascii ['R', 'O', 'O', 'T']) = some root)
    {lex : List (List Nat × List Nat × NNReal)} (hlex : lex = ll.flatMap fun y => y.2.map fun z => (y.1, z.1, z.2))
    (hroot : (∃ x ∈ l, x.1.lhs = root) ∨ ∃ x ∈ lex, x.2.1 = root)
    (hclosed : ∀ x ∈ l, ∀ A ∈ discoRhs x.1, (∃ y ∈ l, y.1.lhs = A) ∨ ∃ y ∈ lex, y.2.1 = A) (hf : SameFanout l (fun A => ∃ x ∈ lex, x.2.1 = A) root)
    (hl : ∀ x ∈ l, x.2.2 ≠ 0) (hl' : ∀ x ∈ lex, x.2.2 ≠ 0) (hprod : ∀ x ∈ l, Productive l (fun A => ∃ x ∈ lex, x.2.1 = A) x.1.lhs) (hsx : sxlen ≤ 255) :
    ∃ (G : Lcfrs (List Nat) (List Nat) NNReal) (R : CsRep (List Nat) (List Nat) NNReal),
      DescribedBy l lex root G ∧ FactorsNeZero logFactorize G.rules ∧ VariableCyclesVanish logFactorize G.rules ∧
      extract logFactorize order cs cd cw lexOrder (.lexer s t) sxlen = some R ∧
      ∀ (o : CsOptions NNReal) (a : ParseArgs) (text : List Nat) (ls : List (List Nat)), 0 < o.beam.getD R.generator.states → o.beam.getD R.generator.states ≤ 65535 →
        LinesOf ls text →
        (∀ i line, ls[i]? = some line → ∃ id ws sentence names, LineOf a.withLines i line id ws ∧ TagsOf a.withPos ws sentence names ∧ sentence.length ≤ 255 ∧
          ((∃ c, o.candidates = some c) ∨ (o.beam = none ∧ o.delta = 0 ∧ o.candidates = none ∧ AtLeast G.rules G.init sentence (if a.debug then 1 else a.k))) ∧
          (sentence.length = 1 → ∀ x ∈ lex, x.2.1 ≠ root)) →
        AnswersEventually (LineAnswerStream logFactorize G R o a fun A => A) a ls
          fun fuel m => extractParse logFactorize order cs cd cw lexOrder (.lexer s t) sxlen o a fuel m text := by
  have hread := constituents_read h hs
  have hgood := constituents_good h
  have hread' := lexicon_read hlx ht
  rw [← hlex] at hread'
  obtain ⟨G, hG, hd⟩ := fromDiscodop_described (cd := cd) (l := l) (lex := lex) hgood hi
  have hgram : extractGrammar cs cd cw lexOrder (.lexer s t) = some G := by
    rw [extractGrammar, hread, hread', ← hG]
    rfl
  have hpg := described_grammar hd hgood hf hroot hclosed
  have hp := described_probabilities hd hl hl'
  obtain ⟨R, hR⟩ := C67_new (order := order) hpg hp hsx
  have hex : extract logFactorize order cs cd cw lexOrder (.lexer s t) sxlen = some R := by rw [extract, hgram]; exact hR
  obtain ⟨hcyc, _, hvan⟩ := C88_cycles hd hl hl' hprod
  refine ⟨G, R, hd, (probabilities_factors hp).2, hvan, hex, fun o a text ls hb0 hb hls hform => ?_⟩
  have hrun : (fun fuel m => extractParse logFactorize order cs cd cw lexOrder (.lexer s t) sxlen o a fuel m text) = fun fuel m => R.parseCommand o a (fun A => A) fuel m text := by
    funext fuel m
    rw [extractParse, hex]
    rfl
  rw [hrun]
  refine C92_probabilities hR ho hpg hp hcyc hb0 hb a _ hls fun i line hl => ?_
  obtain ⟨id, ws, sentence, names, k1, k2, k3, k4, k5⟩ := hform i line hl
  refine ⟨id, ws, sentence, names, k1, k2, k3, k4, fun hlen r hr he a ha => ?_⟩
  obtain ⟨d1, R₁, R₂, d2, d3, d4⟩ := hd
  rw [d2] at hr
  rcases List.mem_append.1 hr with hr | hr
  · obtain ⟨x, _, _, _, e3, _⟩ := forall₂_mem_right d3 hr
    exact (C47_linear e3).1 [.t a] (by rw [ha]; simp) a (List.mem_singleton.2 rfl)
  · obtain ⟨x, hx, e1, _⟩ := forall₂_mem_right d4 hr
    exact k5 hlen x hx (by rw [← e1, he, d1])

/-- **C92** `extract` with the text of an LCFRS in normal form with probabilities in which no cycle has the weight one, and `parse` with the result. -/
theorem C92_plain (ho : HashOrder order) {G : Lcfrs (List Nat) (List Nat) NNReal} {s : List Nat} (hs : GrammarFile cs (PmcfgRuleReads cs cs cw) [G.init] G.rules s)
    (hg : ParserGrammar G.rules G.init) (hp : Probabilities G.rules) (hcyc : ∀ A c, ¬ VariablePath logFactorize G.rules A c A c 1) (hsx : sxlen ≤ 255) :
    ∃ R : CsRep (List Nat) (List Nat) NNReal, extract logFactorize order cs cd cw lexOrder (.plain s) sxlen = some R ∧
      ∀ (o : CsOptions NNReal) (a : ParseArgs) (text : List Nat) (ls : List (List Nat)), 0 < o.beam.getD R.generator.states → o.beam.getD R.generator.states ≤ 65535 →
        LinesOf ls text →
        (∀ i line, ls[i]? = some line → ∃ id ws sentence names, LineOf a.withLines i line id ws ∧ TagsOf a.withPos ws sentence names ∧ sentence.length ≤ 255 ∧
          ((∃ c, o.candidates = some c) ∨ (o.beam = none ∧ o.delta = 0 ∧ o.candidates = none ∧ AtLeast G.rules G.init sentence (if a.debug then 1 else a.k))) ∧
          (sentence.length = 1 → NoTerminalRoot G.rules G.init)) →
        AnswersEventually (LineAnswerStream logFactorize G R o a fun A => A) a ls
          fun fuel m => extractParse logFactorize order cs cd cw lexOrder (.plain s) sxlen o a fuel m text := by
  have hgram : extractGrammar cs cd cw lexOrder (.plain s) = some G := by
    rw [extractGrammar, C65_lcfrs.2 hs]
    rfl
  obtain ⟨R, hR⟩ := C67_new (order := order) hg hp hsx
  have hex : extract logFactorize order cs cd cw lexOrder (.plain s) sxlen = some R := by rw [extract, hgram]; exact hR
  refine ⟨R, hex, fun o a text ls hb0 hb hls hform => ?_⟩
  have hrun : (fun fuel m => extractParse logFactorize order cs cd cw lexOrder (.plain s) sxlen o a fuel m text) = fun fuel m => R.parseCommand o a (fun A => A) fuel m text := by
    funext fuel m
    rw [extractParse, hex]
    rfl
  rw [hrun]
  exact C92_probabilities hR ho hg hp hcyc hb0 hb a _ hls hform

end

namespace C92Example
open C86Example C88Example

/-- `a A 2` and `b A 1`: two words for one tag. -/
noncomputable def words : List (List Nat × List (List Nat × NNReal)) := [([97], [([65], ((2 : Nat) : NNReal))]), ([98], [([65], ((1 : Nat) : NNReal))])]

theorem wordsText : List.Forall₂ (fun s y => LexiconText str str num y.1 y.2 s) [ascii "a A 2".toList, ascii "b A 1".toList] words := by
  have hn : ∀ n s, Digits s → digitsValue s = n → CountText num (n : NNReal) s := fun n s h1 h2 => .number h1 (by rw [← h2]; rfl)
  have ht : ∀ s, Bare s → Token str s s := fun s h => ⟨h, rfl⟩
  exact .cons (.line (ht [97] ⟨by decide, by decide⟩) gap (.last (ht [65] ⟨by decide, by decide⟩) gap (hn 2 [50] ⟨by decide, by decide⟩ (by decide))))
    (.cons (.line (ht [98] ⟨by decide, by decide⟩) gap (.last (ht [65] ⟨by decide, by decide⟩) gap (hn 1 [49] ⟨by decide, by decide⟩ (by decide)))) .nil)

theorem cyclic_productive' : ∀ x ∈ cyclic, Productive cyclic (fun A => ∃ x ∈ words.flatMap fun y => y.2.map fun z => (y.1, z.1, z.2), x.2.1 = A) x.1.lhs := by
  have ht : Productive cyclic (fun A => ∃ x ∈ words.flatMap fun y => y.2.map fun z => (y.1, z.1, z.2), x.2.1 = A) [65] := .tag (by simp [words])
  have hr := Productive.rule (l := cyclic) (tags := fun A => ∃ x ∈ words.flatMap fun y => y.2.map fun z => (y.1, z.1, z.2), x.2.1 = A)
    (x := (.chain root [65], [[false]], ((1 : Nat) : NNReal))) (by simp [cyclic]) (by simpa [discoRhs] using ht)
  have hX := Productive.rule (l := cyclic) (tags := fun A => ∃ x ∈ words.flatMap fun y => y.2.map fun z => (y.1, z.1, z.2), x.2.1 = A)
    (x := (.chain [88] root, [[false]], ((1 : Nat) : NNReal))) (by simp [cyclic]) (by simpa [discoRhs, DiscoDeriv.lhs] using hr)
  intro x hx
  simp only [cyclic, List.mem_cons, List.not_mem_nil, or_false] at hx
  rcases hx with rfl | rfl | rfl
  · exact hr
  · exact hr
  · exact hX

end C92Example

open C86Example C88Example C92Example in
/-- The hypotheses of `C92_lexer` can be fulfilled by a grammar with a cycle and two words for one tag. -/
example : ∃ R, extract logFactorize (fun _ l => l.dedup) str str num id
    (.lexer ([10].intercalate cyclicLines) ([10].intercalate [ascii "a A 2".toList, ascii "b A 1".toList])) 5 = some R := by
  obtain ⟨_, R, _, _, _, h, _⟩ := C92_lexer (cs := str) (order := fun _ l => l.dedup) (lexOrder := id) (sxlen := 5) C54Witness.hashOrder cyclic_text wordsText (Or.inl rfl)
    (Or.inl rfl) (root := root) rfl rfl (Or.inl ⟨_, List.mem_cons_self, rfl⟩) (by
      simp only [cyclic, words]
      simp [discoRhs, DiscoDeriv.lhs]) (by
      refine ⟨fun _ => 1, rfl, fun _ _ => rfl, fun x hx => ?_⟩
      simp only [cyclic, List.mem_cons, List.not_mem_nil, or_false] at hx
      rcases hx with rfl | rfl | rfl <;> exact ⟨by decide, by decide, by decide⟩) (by simp [cyclic]) (by simp [words]) cyclic_productive' (by decide)
  exact ⟨R, h⟩

/-- The commands with rational numbers as weights: `ROOT X 0 1`, `ROOT A 0 1`, `X ROOT 0 1`, `a A 2`, `b A 1`; with the word `b`, the tree for the word `a` is printed. -/
example : extractParse C86Example.factorize (fun _ l => l.dedup) C86Example.str C86Example.str ImportExample.num id
    (.lexer (ascii "ROOT X 0 1\nROOT A 0 1\nX ROOT 0 1\n".toList) (ascii "a A 2\nb A 1\n".toList)) 5 .default ⟨2, false, false, false, false⟩ 60 4 (ascii "b".toList) =
    some (ascii "#BOS 0\na\tA\t--\t--\t0\n#EOS 0\n#BOS 0\nb\tA\t--\t--\t0\n#EOS 0\n".toList) := by
  decide +kernel

end Rustomata.Props
