import Verif.Proofs.CsEnds
import Verif.Props.CsCommand
import Verif.Props.CsAny

/-!
# Property C87: when the command `csparsing parse` ends for a sentence
-/

namespace Rustomata.Props
open Spec

section
variable {N T W : Type _} [DecidableEq N] [DecidableEq T] [LinearOrderedCommMonoidWithZero W] [NoZeroDivisors W] {factorize : W → Nat → List W}
  {order : Nat → List Nat → List Nat} {g : Lcfrs N T W} {width : Nat} {R : CsRep N T W}

/-- If some calls end, then the bracket words and the derivations are known. -/
theorem generate_of_parses {o : CsOptions W} {word : List T} {fuel m : Nat} {out : List (GornTree (PMCFGRule N T W))} (h : R.parses o word fuel m = some out) :
    ∃ cands, R.generate o word fuel m = some cands := by
  unfold CsRep.parses at h
  rw [Option.bind_eq_some_iff] at h
  obtain ⟨c, h, _⟩ := h
  exact ⟨c, h⟩

/-- **C87** The empty sentence has no bracket words. -/
theorem C87_empty (hR : CsRep.new factorize order g width = some R) (ho : HashOrder order) (hfac : Factorizes factorize)
    (hg : ParserGrammar g.rules g.init) (hw : FactorsLeOne factorize (indexed g.rules)) {o : CsOptions W}
    (hb0 : 0 < o.beam.getD R.generator.states) (hb : o.beam.getD R.generator.states ≤ 65535) (k : Nat) : Ends R o [] k := by
  have hgen := candidates_empty hR ho (fun w n => (hfac w n).1) hg hw hb0 hb
  refine ⟨1, 1, _, [], hgen 1 0, ?_, .inr (.inl (by simp))⟩
  unfold CsRep.parses
  rw [hgen 1 0, Option.bind_some]
  have : o.limit (untilNone (List.replicate 1 (none : Option (List (Bracket BracketContent))))) = [] := by
    unfold CsOptions.limit
    split <;> simp [untilNone]
  rw [this]
  rfl

/-- **C87** With a limit of the number of candidates, the enumeration ends, if cycles lower the weights. -/
theorem C87_limit (hR : CsRep.new factorize order g width = some R) (ho : HashOrder order) (hfac : Factorizes factorize)
    (hg : ParserGrammar g.rules g.init) (hw : FactorsLeOne factorize (indexed g.rules)) (hpre : Preterminals g.rules)
    (hcyc : VariableCyclesLower factorize g.rules) {word : List T} (hn : word.length ≤ 255) {o : CsOptions W}
    (hb0 : 0 < o.beam.getD R.generator.states) (hb : o.beam.getD R.generator.states ≤ 65535) {c : Nat} (hc : o.candidates = some c) (k : Nat) :
    Ends R o word k := by
  rcases Nat.eq_zero_or_pos word.length with h0 | hn0
  · rw [List.eq_nil_of_length_eq_zero h0]
    exact C87_empty hR ho hfac hg hw hb0 hb k
  obtain ⟨out, _, fuel₀, h⟩ := C81_pruned hR ho hfac hg hw hpre hcyc hn0 hn hb0 hb (c + 1)
  have h := h fuel₀ (le_refl _)
  obtain ⟨cands, h'⟩ := generate_of_parses h
  exact ⟨c + 1, fuel₀, cands, out, h', h, .inr (.inr ⟨c, hc, by omega⟩)⟩

/-- **C87** Without cycles, the enumeration ends, also if there are fewer derivations than demanded. -/
theorem C87_acyclic (hR : CsRep.new factorize order g width = some R) (ho : HashOrder order) (hfac : Factorizes factorize)
    (hg : ParserGrammar g.rules g.init) (hw : FactorsLeOne factorize (indexed g.rules)) (hpre : Preterminals g.rules)
    (hcyc : NoVariableCycle g.rules) {word : List T} (hn : word.length ≤ 255) {o : CsOptions W}
    (hb0 : 0 < o.beam.getD R.generator.states) (hb : o.beam.getD R.generator.states ≤ 65535) (k : Nat) :
    Ends R o word k := by
  rcases Nat.eq_zero_or_pos word.length with h0 | hn0
  · rw [List.eq_nil_of_length_eq_zero h0]
    exact C87_empty hR ho hfac hg hw hb0 hb k
  · obtain ⟨all, out, fb, res, _, _, _, _, _, _, m₀, fuel₀, p7⟩ := parser_results hR ho hfac hg hw hpre hcyc hn hb0 hb
    obtain ⟨_, words, _, fuel₁, h2⟩ := candidates_spec hR ho hfac hg hw hpre hcyc hn0 hn hb0 hb
    refine ⟨max m₀ (words.length + 1), max fuel₀ fuel₁, _, out, h2 _ _ (Nat.le_max_right ..), (p7 _ (Nat.le_max_left ..) _ (Nat.le_max_left ..)).1, .inr (.inl ?_)⟩
    rw [List.mem_map]
    exact ⟨words.length, List.mem_range.2 (by omega), by simp⟩

/-- **C87** If there are `k` derivations, then the search for `k` derivations ends, if there is no pruning and no limit and the repetitions of cycles vanish. -/
theorem C87_enough (hR : CsRep.new factorize order g width = some R) (ho : HashOrder order) (hfac : Factorizes factorize)
    (hg : ParserGrammar g.rules g.init) (hw : FactorsLeOne factorize (indexed g.rules)) (h0 : FactorsNeZero factorize g.rules) (hpre : Preterminals g.rules)
    (hcyc : VariableCyclesLower factorize g.rules) (hvan : VariableCyclesVanish factorize g.rules) (hs : R.generator.states ≤ 65535) {word : List T}
    (hn : word.length ≤ 255) {o : CsOptions W} (hb : o.beam = none) (hd : o.delta = 0) (hc : o.candidates = none) {k : Nat}
    (hk : AtLeast g.rules g.init word k) : Ends R o word k := by
  have hpos := states_pos hR hfac hg
  rcases Nat.eq_zero_or_pos word.length with h0 | hn0
  · rw [List.eq_nil_of_length_eq_zero h0]
    exact C87_empty hR ho hfac hg hw (by rw [hb]; exact hpos) (by rw [hb]; exact hs) k
  obtain ⟨ds, out, h1, h2⟩ := parses_cycles hR ho hfac hg hw hpre hcyc hn0 hn (o := o) (by rw [hb]; exact hpos) (by rw [hb]; exact hs)
  have h3 := (h2 h0 (by rw [hb]; exact le_refl _) hd).2 hc hvan
  obtain ⟨es, rfl, hnd, hes⟩ := hk
  obtain ⟨M, hM⟩ : ∃ M, ∀ m ≥ M, ∀ x ∈ es, x ∈ ds m := by
    clear hnd
    induction es with
    | nil => exact ⟨0, fun m _ x hx => by cases hx⟩
    | cons x es ih =>
      obtain ⟨M, hM⟩ := ih fun e d h => hes e d (List.mem_cons_of_mem _ h)
      obtain ⟨M', hM'⟩ := h3 x.1 x.2 (hes x.1 x.2 List.mem_cons_self).1 (hes x.1 x.2 List.mem_cons_self).2
      refine ⟨max M M', fun m hm y hy => ?_⟩
      rcases List.mem_cons.1 hy with rfl | hy
      · exact hM' m (by omega)
      · exact hM m (by omega) y hy
  obtain ⟨⟨_, _, _, p4⟩, fuel₀, p5⟩ := h1 M
  have p5 := p5 fuel₀ (le_refl _)
  obtain ⟨cands, h'⟩ := generate_of_parses p5
  refine ⟨M, fuel₀, cands, out M, h', p5, .inl ?_⟩
  rw [← p4.length_eq]
  exact (List.subperm_of_subset hnd (fun x hx => hM M (le_refl _) x hx)).length_le

/-- **C87** If the search for `k` derivations ends, then the results are determined: the first `k` results do not depend on the number of further calls, they are the best
derivations if there is no pruning, and all derivations if there are fewer than `k` and there is no limit (and the repetitions of cycles vanish). -/
theorem C87_results (hR : CsRep.new factorize order g width = some R) (ho : HashOrder order) (hfac : Factorizes factorize)
    (hg : ParserGrammar g.rules g.init) (hw : FactorsLeOne factorize (indexed g.rules)) (hpre : Preterminals g.rules)
    (hcyc : VariableCyclesLower factorize g.rules) {word : List T} (hn : word.length ≤ 255) {o : CsOptions W}
    (hb0 : 0 < o.beam.getD R.generator.states) (hb : o.beam.getD R.generator.states ≤ 65535) {k : Nat} (hend : Ends R o word k) :
    ∃ out, ParsesSome g.rules g.init word out ∧
      (FactorsNeZero factorize g.rules → R.generator.states ≤ o.beam.getD R.generator.states → o.delta = 0 →
        BestParses g.rules g.init word out ∧
        (o.candidates = none → VariableCyclesVanish factorize g.rules → out.length < k → Parses g.rules g.init word out)) ∧
      ∃ m₀, ∀ m ≥ m₀, ∃ fuel₀, ∀ fuel ≥ fuel₀, ∃ out', R.parses o word fuel m = some out' ∧ out'.take k = out.take k := by
  obtain ⟨m₀, fuel, out₀, s1, s2⟩ := ends_stable hend
  obtain ⟨fb, _, _, hres⟩ := parser_results_cycles hR ho hfac hg hw hpre hcyc hn hb0 hb
  obtain ⟨out, res, r1, r2, _, fuel₁, r3⟩ := hres (max m₀ 1) (Nat.le_max_right ..)
  have e1 := s2 _ (Nat.le_max_left m₀ 1) _ _ (r3 fuel₁ (le_refl _)).1
  refine ⟨out, r1, fun g1 g2 g3 => ⟨r2 g1 g2 g3, fun hc hvan hlt => ?_⟩, max m₀ 1, fun m hm => ?_⟩
  · rcases Nat.eq_zero_or_pos word.length with h0 | hn0
    · obtain rfl := List.eq_nil_of_length_eq_zero h0
      have hnone : ∀ d, ¬ Derives g.rules g.init d [([] : List T)] := fun d hd => not_derivesOver_nil hg.normal _ ⟨d, _, hd, by simp⟩
      obtain ⟨ds, h⟩ := r1
      exact ⟨ds, h, fun e d h => absurd h.2 (hnone d)⟩
    obtain ⟨ds, outs, h1, h2⟩ := parses_cycles hR ho hfac hg hw hpre hcyc hn0 hn hb0 hb
    have h3 := (h2 g1 g2 g3).2 hc hvan
    -- all later results are the same
    have hout : ∀ m ≥ max m₀ 1, outs m = out := by
      intro m hm
      obtain ⟨fuel₂, h4⟩ := (h1 m).2
      have e2 := s2 m (by omega) _ _ (h4 fuel₂ (le_refl _))
      have hl : out₀.length < k := by
        have := congrArg List.length e1.1
        rw [List.length_take, List.length_take] at this
        omega
      rw [e2.2 hl, e1.2 hl]
    have hbound : ∀ es : List (DTree Nat × DTree (PMCFGRule N T W)), es.Nodup → (∀ e d, (e, d) ∈ es → Numbers g.rules e d ∧ Derives g.rules g.init d [word]) →
        ∃ m ≥ max m₀ 1, es ⊆ ds m := by
      intro es _ hes
      obtain ⟨M, hM⟩ : ∃ M, ∀ m ≥ M, ∀ x ∈ es, x ∈ ds m := by
        induction es with
        | nil => exact ⟨0, fun m _ x hx => by cases hx⟩
        | cons x es ih =>
          obtain ⟨M, hM⟩ := ih (by simp_all) fun e d h => hes e d (List.mem_cons_of_mem _ h)
          obtain ⟨M', hM'⟩ := h3 x.1 x.2 (hes x.1 x.2 List.mem_cons_self).1 (hes x.1 x.2 List.mem_cons_self).2
          refine ⟨max M M', fun m hm y hy => ?_⟩
          rcases List.mem_cons.1 hy with rfl | hy
          · exact hM' m (by omega)
          · exact hM m (by omega) y hy
      exact ⟨max M (max m₀ 1), Nat.le_max_right .., fun x hx => hM _ (Nat.le_max_left ..) x hx⟩
    classical
    obtain ⟨n, ⟨es, rfl, hnd, hes⟩, hmax⟩ : ∃ n, AtLeast g.rules g.init word n ∧ ∀ n' > n, ¬ AtLeast g.rules g.init word n' := by
      have hb' : ∀ n, AtLeast g.rules g.init word n → n ≤ out.length := by
        rintro n ⟨es, rfl, hnd, hes⟩
        obtain ⟨m, hm, hsub⟩ := hbound es hnd hes
        have := (h1 m).1.2.2.2.length_eq
        rw [hout m hm] at this
        rw [← this]
        exact (List.subperm_of_subset hnd hsub).length_le
      refine ⟨Nat.findGreatest (AtLeast g.rules g.init word) out.length, ?_, fun n' h h' => ?_⟩
      · exact Nat.findGreatest_spec (m := 0) (by omega) ⟨[], rfl, by simp, by simp⟩
      · exact Nat.findGreatest_is_greatest h (hb' n' h') h'
    obtain ⟨m, hm, hsub⟩ := hbound es hnd hes
    refine ⟨ds m, by rw [← hout m hm]; exact (h1 m).1, fun e d hed => hsub ?_⟩
    by_contra hne
    refine hmax (es.length + 1) (by omega) ⟨(e, d) :: es, rfl, List.nodup_cons.2 ⟨hne, hnd⟩, fun e' d' h => ?_⟩
    rcases List.mem_cons.1 h with h | h
    · cases h
      exact hed
    · exact hes e' d' h
  · obtain ⟨out', res', _, _, _, fuel₂, r4⟩ := hres m (by omega)
    refine ⟨fuel₂, fun fuel hf => ⟨out', (r4 fuel hf).1, ?_⟩⟩
    rw [e1.1]
    exact (s2 m (by omega) _ _ (r4 fuel hf).1).1

end

section
variable {N W : Type _} [DecidableEq N] [LinearOrderedCommMonoidWithZero W] [NoZeroDivisors W] {factorize : W → Nat → List W}
  {order : Nat → List Nat → List Nat} {g : Lcfrs N (List Nat) W} {width : Nat} {R : CsRep N (List Nat) W}

/-- The text for a sentence, where `E` is what the text for a tree should be: the texts for the demanded number of trees, or the text for the fallback, or `no`. -/
def AnswerBy (E : GornTree (PMCFGRule N (List Nat) W) → List Nat → Prop) (a : ParseArgs) (trees : List (GornTree (PMCFGRule N (List Nat) W)))
    (fb : Option (GornTree (PMCFGRule N (List Nat) W))) (no text : List Nat) : Prop :=
  let shown := trees.take (if a.debug then 1 else a.k)
  (shown ≠ [] ∧ ∃ bs, List.Forall₂ E shown bs ∧ text = bs.flatten) ∨ (shown = [] ∧ (a.fallback ∨ a.debug) ∧ ∃ t, fb = some t ∧ E t text) ∨
  (shown = [] ∧ (¬ (a.fallback ∨ a.debug) ∨ fb = none) ∧ text = no)

omit [NoZeroDivisors W] in
/-- The text for a line depends only on the first results of the parser and the fallback. -/
theorem line_text_by {o : CsOptions W} (a : ParseArgs) (showN : N → List Nat) {i : Nat} {line : List Nat} {id : Nat} {ws sentence names : List (List Nat)}
    (hl : LineOf a.withLines i line id ws) (ht : TagsOf a.withPos ws sentence names) {out : List (GornTree (PMCFGRule N (List Nat) W))}
    {fb : Option (GornTree (PMCFGRule N (List Nat) W))} {E : GornTree (PMCFGRule N (List Nat) W) → List Nat → Prop}
    (hout : ∀ t ∈ out, ∃ s, toNegra showN (fun w => w) t id (if a.withPos then some names else none) = some s ∧ E t (s ++ [10]))
    (hfb : ∀ t, fb = some t → ∃ s, toNegra showN (fun w => w) t id (if a.withPos then some names else none) = some s ∧
      E t (s ++ [10])) (none0 : Bool) :
    ∃ text fb', (fb' = fb ∨ fb' = none ∧ a.debug = true ∧ none0 = true) ∧ AnswerBy E a out fb' (noparseText a.withPos sentence names id) text ∧
      ∀ fuel m out' res, out'.take (if a.debug then 1 else a.k) = out.take (if a.debug then 1 else a.k) → R.parses o sentence fuel m = some out' →
        R.fallback o sentence fuel = some fb → R.debug o sentence fuel m = some res → DebugIs out' fb none0 res →
        R.lineOutput o a showN fuel m line i = some text := by
  have hline : ∀ fuel m, R.lineOutput o a showN fuel m line i =
      (R.sentenceOutput o a showN fuel m id sentence (if a.withPos then some names else none)).map List.flatten := fun fuel m => by
    unfold CsRep.lineOutput
    rw [splitLine_iff.2 hl]
    simp only
    rw [splitPos_iff.2 ⟨names, ht, rfl⟩]
  simp only [hline]
  have hno := noparse_text ht id
  by_cases hd : a.debug = true
  · -- the debug mode
    simp only [hd, if_true]
    have hrun : ∀ fuel m res, R.debug o sentence fuel m = some res →
        R.sentenceOutput o a showN fuel m id sentence (if a.withPos then some names else none) = match (generalizing := false) some res with
        | none => none
        | some (.parse t _) => (toNegra showN (fun w => w) t id (if a.withPos then some names else none)).map fun s => [s ++ [10]]
        | some (.fallback t _) => (toNegra showN (fun w => w) t id (if a.withPos then some names else none)).map fun s => [s ++ [10]]
        | some .noparse => some [noparse (fun w => w) sentence id (if a.withPos then some names else none) ++ [10]] := fun fuel m res h => by
      unfold CsRep.sentenceOutput
      rw [if_pos hd, h]
      cases res <;> rfl
    cases out with
    | cons t out =>
      obtain ⟨s, e1, e2⟩ := hout t List.mem_cons_self
      refine ⟨s ++ [10], fb, .inl rfl, ?_, fun fuel m out' res h1 _ _ h2 h3 => ?_⟩
      · unfold AnswerBy
        rw [if_pos hd]
        exact .inl ⟨by simp, [s ++ [10]], .cons e2 .nil, by simp⟩
      · cases out' with
        | nil => simp at h1
        | cons t' out' =>
          simp only [List.take_succ_cons, List.take_zero, List.cons.injEq, and_true] at h1
          subst h1
          rw [hrun _ _ _ h2]
          cases res with
          | parse t'' n =>
            have h3 : some t' = some t'' := h3
            cases h3
            simp [e1]
          | fallback t'' n => exact absurd h3.1 (by simp)
          | noparse => exact absurd h3.1 (by simp)
    | nil =>
      have hnil : ∀ out' : List (GornTree (PMCFGRule N (List Nat) W)), out'.take 1 = ([] : List (GornTree (PMCFGRule N (List Nat) W))).take 1 → out' = [] := by
        intro out' h
        cases out' with
        | nil => rfl
        | cons _ _ => simp at h
      have hparse : ∀ {t : GornTree (PMCFGRule N (List Nat) W)} {n : Nat}, ¬ DebugIs [] fb none0 (.parse t n) := fun h => by
        have h : none = some _ := h
        cases h
      by_cases hc : none0 = true
      · refine ⟨noparseText a.withPos sentence names id, none, .inr ⟨rfl, trivial, hc⟩, .inr (.inr ⟨List.take_nil, .inr rfl, rfl⟩), fun fuel m out' res h1 _ _ h2 h3 => ?_⟩
        obtain rfl := hnil _ h1
        rw [hrun _ _ _ h2]
        cases res with
        | parse t n => exact absurd h3 hparse
        | fallback t n => exact absurd (hc.symm.trans h3.2.2) (by simp)
        | noparse => simp [hno]
      · cases fb with
        | none =>
          refine ⟨noparseText a.withPos sentence names id, none, .inl rfl, .inr (.inr ⟨List.take_nil, .inr rfl, rfl⟩), fun fuel m out' res h1 _ _ h2 h3 => ?_⟩
          obtain rfl := hnil _ h1
          rw [hrun _ _ _ h2]
          cases res with
          | parse t n => exact absurd h3 hparse
          | fallback t n => exact absurd h3.2.1 (by simp)
          | noparse => simp [hno]
        | some t =>
          obtain ⟨s, e1, e2⟩ := hfb t rfl
          refine ⟨s ++ [10], some t, .inl rfl, .inr (.inl ⟨List.take_nil, .inr hd, t, rfl, e2⟩), fun fuel m out' res h1 _ _ h2 h3 => ?_⟩
          obtain rfl := hnil _ h1
          rw [hrun _ _ _ h2]
          cases res with
          | parse t n => exact absurd h3 hparse
          | fallback t' n =>
            obtain ⟨_, h4, _⟩ := h3
            cases h4
            simp [e1]
          | noparse =>
            rcases h3.2 with h | h
            · cases h
            · exact absurd h hc
  · -- the k best trees
    simp only [if_neg hd]
    obtain ⟨bs, hbs⟩ : ∃ bs, List.Forall₂ (fun t b => (toNegra showN (fun w => w) t id (if a.withPos then some names else none)).map (fun s => s ++ [10]) = some b ∧
        E t b) (out.take a.k) bs := by
      refine exists_forall₂ _ fun t ht' => ?_
      obtain ⟨s, e1, e2⟩ := hout t (List.mem_of_mem_take ht')
      exact ⟨s ++ [10], by rw [e1]; rfl, e2⟩
    have hmap : ((out.take a.k).mapM fun t => (toNegra showN (fun w => w) t id (if a.withPos then some names else none)).map fun s => s ++ [10]) = some bs := by
      rw [mapM_some_iff]
      exact hbs.imp fun t b h => h.1
    have hrun : ∀ fuel m out', out'.take a.k = out.take a.k → R.parses o sentence fuel m = some out' → R.fallback o sentence fuel = some fb →
        R.sentenceOutput o a showN fuel m id sentence (if a.withPos then some names else none) = match (generalizing := false) bs with
        | s :: ss => some (s :: ss)
        | [] =>
          if a.fallback then
            match (generalizing := false) fb with
            | some t => (toNegra showN (fun w => w) t id (if a.withPos then some names else none)).map fun s => [s ++ [10]]
            | none => some [noparse (fun w => w) sentence id (if a.withPos then some names else none) ++ [10]]
          else some [noparse (fun w => w) sentence id (if a.withPos then some names else none) ++ [10]] := fun fuel m out' h1 h2 h3 => by
      unfold CsRep.sentenceOutput
      rw [if_neg hd, h2, h3]
      simp only [h1, hmap]
      cases bs <;> rfl
    have hans : ∀ {fb text}, (out.take a.k ≠ [] ∧ ∃ bs, List.Forall₂ (fun t b => E t b) (out.take a.k) bs ∧ text = bs.flatten) ∨
        (out.take a.k = [] ∧ (a.fallback ∨ a.debug) ∧ ∃ t, fb = some t ∧ E t text) ∨
        (out.take a.k = [] ∧ (¬ (a.fallback ∨ a.debug) ∨ fb = none) ∧ text = noparseText a.withPos sentence names id) →
        AnswerBy E a out fb (noparseText a.withPos sentence names id) text := fun h => by
      unfold AnswerBy
      rw [if_neg hd]
      exact h
    cases bs with
    | cons s ss =>
      refine ⟨(s :: ss).flatten, fb, .inl rfl, hans (.inl ⟨fun h => ?_, s :: ss, hbs.imp fun t b h => h.2, rfl⟩), fun fuel m out' res h1 h2 h3 _ _ => ?_⟩
      · rw [h] at hbs
        cases hbs
      · rw [hrun _ _ _ h1 h2 h3]
        rfl
    | nil =>
      rw [List.forall₂_nil_right_iff] at hbs
      by_cases hf' : a.fallback = true
      · cases hfbt : fb with
        | some t =>
          obtain ⟨s, e1, e2⟩ := hfb t hfbt
          refine ⟨s ++ [10], some t, .inl rfl, hans (.inr (.inl ⟨hbs, .inl hf', t, rfl, e2⟩)), fun fuel m out' res h1 h2 h3 _ _ => ?_⟩
          rw [hrun _ _ _ h1 h2 (hfbt ▸ h3)]
          simp [hf', hfbt, e1]
        | none =>
          refine ⟨noparseText a.withPos sentence names id, none, .inl rfl, hans (.inr (.inr ⟨hbs, .inr rfl, rfl⟩)), fun fuel m out' res h1 h2 h3 _ _ => ?_⟩
          rw [hrun _ _ _ h1 h2 (hfbt ▸ h3)]
          simp [hf', hfbt, hno]
      · refine ⟨noparseText a.withPos sentence names id, fb, .inl rfl, hans (.inr (.inr ⟨hbs, .inl (fun h => h.elim hf' hd), rfl⟩)), fun fuel m out' res h1 h2 h3 _ _ => ?_⟩
        rw [hrun _ _ _ h1 h2 h3]
        simp [hf', hno]

omit [NoZeroDivisors W] in
/-- The text for a line depends only on the first results of the parser and the fallback. -/
theorem line_text {o : CsOptions W} (a : ParseArgs) (showN : N → List Nat) {i : Nat} {line : List Nat} {id : Nat} {ws sentence names : List (List Nat)}
    (hl : LineOf a.withLines i line id ws) (ht : TagsOf a.withPos ws sentence names) {out : List (GornTree (PMCFGRule N (List Nat) W))}
    {fb : Option (GornTree (PMCFGRule N (List Nat) W))}
    (hout : ∀ t ∈ out, ∃ s, toNegra showN (fun w => w) t id (if a.withPos then some names else none) = some s ∧ ExportOf showN t.get sentence names id (s ++ [10]))
    (hfb : ∀ t, fb = some t → ∃ s, toNegra showN (fun w => w) t id (if a.withPos then some names else none) = some s ∧
      ExportOf showN t.get sentence names id (s ++ [10])) (none0 : Bool) :
    ∃ text fb', (fb' = fb ∨ fb' = none ∧ a.debug = true ∧ none0 = true) ∧ AnswerText showN a out fb' sentence names id text ∧
      ∀ fuel m out' res, out'.take (if a.debug then 1 else a.k) = out.take (if a.debug then 1 else a.k) → R.parses o sentence fuel m = some out' →
        R.fallback o sentence fuel = some fb → R.debug o sentence fuel m = some res → DebugIs out' fb none0 res →
        R.lineOutput o a showN fuel m line i = some text :=
  line_text_by (E := fun t b => ExportOf showN t.get sentence names id b) a showN hl ht hout hfb none0

/-- The text for a line is as it should be, for grammars with cycles: the results are derivations of the sentence in the order of their weights; without pruning they are
the best ones, and all of them if there are fewer than demanded and there is no limit of the number of candidates; the fallback is a derivation with merged rules and
exists, without pruning, if the sentence has a derivation. -/
def LineAnswerCycles (factorize : W → Nat → List W) (g : Lcfrs N (List Nat) W) (R : CsRep N (List Nat) W) (o : CsOptions W) (a : ParseArgs) (showN : N → List Nat)
    (sentence names : List (List Nat)) (id : Nat) (text : List Nat) : Prop :=
  ∃ out fb, ParsesSome g.rules g.init sentence out ∧ (∀ t, fb = some t → FallbackOf g.rules g.init sentence t) ∧
    (FactorsNeZero factorize g.rules → R.generator.states ≤ o.beam.getD R.generator.states → o.delta = 0 →
      BestParses g.rules g.init sentence out ∧
      (o.candidates = none → VariableCyclesVanish factorize g.rules → out.length < (if a.debug then 1 else a.k) → Parses g.rules g.init sentence out) ∧
      (¬ (a.debug ∧ o.candidates = some 0) → (∃ d, Derives g.rules g.init d [sentence]) → fb.isSome)) ∧
    AnswerText showN a out fb sentence names id text

/-- **C87** If the search for the demanded number of derivations ends, then the command prints what it should print for the line, also for grammars with cycles. -/
theorem C87_line (hR : CsRep.new factorize order g width = some R) (ho : HashOrder order) (hfac : Factorizes factorize)
    (hg : ParserGrammar g.rules g.init) (hw : FactorsLeOne factorize (indexed g.rules)) (hpre : Preterminals g.rules)
    (hcyc : VariableCyclesLower factorize g.rules) (hroot : NoTerminalRoot g.rules g.init) {o : CsOptions W}
    (hb0 : 0 < o.beam.getD R.generator.states) (hb : o.beam.getD R.generator.states ≤ 65535)
    (a : ParseArgs) (showN : N → List Nat) {i : Nat} {line : List Nat} {id : Nat} {ws sentence names : List (List Nat)} (hl : LineOf a.withLines i line id ws)
    (ht : TagsOf a.withPos ws sentence names) (hn : sentence.length ≤ 255) (hend : Ends R o sentence (if a.debug then 1 else a.k)) :
    ∃ text, LineAnswerCycles factorize g R o a showN sentence names id text ∧
      ∃ m₀, ∀ m ≥ m₀, ∃ fuel₀, ∀ fuel ≥ fuel₀, R.lineOutput o a showN fuel m line i = some text := by
  obtain ⟨out, p1, p2, m₀, p3⟩ := C87_results hR ho hfac hg hw hpre hcyc hn hb0 hb hend
  obtain ⟨fb, q1, q2, q3⟩ := parser_results_cycles hR ho hfac hg hw hpre hcyc hn hb0 hb
  have hout : ∀ t ∈ out, ∃ s, toNegra showN (fun w => w) t id (if a.withPos then some names else none) = some s ∧
      ExportOf showN t.get sentence names id (s ++ [10]) := fun t ht' => by
    obtain ⟨ds, _, _, r1, r2⟩ := p1
    obtain ⟨⟨e, d⟩, hx, r3, r4⟩ := forall₂_mem_right r2 ht'
    exact export_of_derivation showN hg hroot r3 r4 (r1 e d hx).2 ht id
  obtain ⟨text, fb', t1, t2, t3⟩ := line_text (R := R) (o := o) a showN hl ht hout (fun t ht' => export_of_fallback showN hg hroot (q1 t ht') ht id) (o.candidates = some 0)
  refine ⟨text, ⟨out, fb', p1, fun t h => ?_, fun g1 g2 g3 => ⟨(p2 g1 g2 g3).1, (p2 g1 g2 g3).2, fun h1 h2 => ?_⟩, t2⟩, max m₀ 1, fun m hm => ?_⟩
  · rcases t1 with rfl | ⟨rfl, _⟩
    · exact q1 t h
    · cases h
  · rcases t1 with rfl | ⟨_, h3, h4⟩
    · exact q2 g1 g2 g3 h2
    · exact absurd ⟨h3, by simpa using h4⟩ h1
  · obtain ⟨fuel₁, p4⟩ := p3 m (by omega)
    obtain ⟨out', res, _, _, r1, fuel₂, r2⟩ := q3 m (by omega)
    refine ⟨max fuel₁ fuel₂, fun fuel hf => ?_⟩
    obtain ⟨out'', s1, s2⟩ := p4 fuel (by omega)
    obtain ⟨s3, s4, s5⟩ := r2 fuel (by omega)
    rw [s3, Option.some.injEq] at s1
    subst s1
    exact t3 fuel m out' res s2 s3 s4 s5 r1

/-- **C87** for whole texts. -/
theorem C87_command (hR : CsRep.new factorize order g width = some R) (ho : HashOrder order) (hfac : Factorizes factorize)
    (hg : ParserGrammar g.rules g.init) (hw : FactorsLeOne factorize (indexed g.rules)) (hpre : Preterminals g.rules)
    (hcyc : VariableCyclesLower factorize g.rules) (hroot : NoTerminalRoot g.rules g.init) {o : CsOptions W}
    (hb0 : 0 < o.beam.getD R.generator.states) (hb : o.beam.getD R.generator.states ≤ 65535)
    (a : ParseArgs) (showN : N → List Nat) {text : List Nat} {ls : List (List Nat)} (hls : LinesOf ls text)
    (hform : ∀ i line, ls[i]? = some line → ∃ id ws sentence names, LineOf a.withLines i line id ws ∧ TagsOf a.withPos ws sentence names ∧ sentence.length ≤ 255 ∧
      Ends R o sentence (if a.debug then 1 else a.k)) :
    ∃ answers : List (List Nat), answers.length = ls.length ∧
      (∀ (i : Nat) line answer, ls[i]? = some line → answers[i]? = some answer → ∃ id ws sentence names, LineOf a.withLines i line id ws ∧
        TagsOf a.withPos ws sentence names ∧ LineAnswerCycles factorize g R o a showN sentence names id answer) ∧
      ∃ m₀, ∀ m ≥ m₀, ∃ fuel₀, ∀ fuel ≥ fuel₀, R.parseCommand o a showN fuel m text = some answers.flatten := by
  have hmem : ∀ x ∈ ls.zipIdx, ∃ y, (∃ id ws sentence names, LineOf a.withLines x.2 x.1 id ws ∧ TagsOf a.withPos ws sentence names ∧
      LineAnswerCycles factorize g R o a showN sentence names id y) ∧
      ∃ m₀, ∀ m ≥ m₀, ∃ fuel₀, ∀ fuel ≥ fuel₀, R.lineOutput o a showN fuel m x.1 x.2 = some y := by
    rintro ⟨line, i⟩ hx
    have hx := List.mem_zipIdx_iff_getElem?.1 hx
    obtain ⟨id, ws, sentence, names, h1, h2, h3, h4⟩ := hform i line hx
    obtain ⟨y, h5, h6⟩ := C87_line hR ho hfac hg hw hpre hcyc hroot hb0 hb a showN h1 h2 h3 h4
    exact ⟨y, ⟨id, ws, sentence, names, h1, h2, h5⟩, h6⟩
  obtain ⟨answers, hans⟩ := exists_forall₂ _ hmem
  refine ⟨answers, ?_, ?_, ?_⟩
  · rw [← hans.length_eq, List.length_zipIdx]
  · intro i line answer h1 h2
    obtain ⟨hlt, h2⟩ := List.getElem?_eq_some_iff.1 h2
    have hlt' : i < ls.zipIdx.length := hans.length_eq ▸ hlt
    have h3 := (List.forall₂_iff_get.1 hans).2 i hlt' hlt
    obtain ⟨hlt'', h1⟩ := List.getElem?_eq_some_iff.1 h1
    simp only [List.get_eq_getElem, List.getElem_zipIdx, h1, h2, Nat.zero_add] at h3
    exact h3.1
  · have hbound : ∃ m₀, ∀ m ≥ m₀, ∃ fuel₀, ∀ fuel ≥ fuel₀, List.Forall₂ (fun x y => R.lineOutput o a showN fuel m x.1 x.2 = some y) ls.zipIdx answers := by
      generalize ls.zipIdx = l at hans
      clear hmem hform hls
      induction hans with
      | nil => exact ⟨0, fun _ _ => ⟨0, fun _ _ => .nil⟩⟩
      | cons h _ ih =>
        obtain ⟨_, m₁, h1⟩ := h
        obtain ⟨m₂, h2⟩ := ih
        refine ⟨max m₁ m₂, fun m hm => ?_⟩
        obtain ⟨f₁, h1⟩ := h1 m (le_trans (le_max_left _ _) hm)
        obtain ⟨f₂, h2⟩ := h2 m (le_trans (le_max_right _ _) hm)
        exact ⟨max f₁ f₂, fun fuel hf => .cons (h1 fuel (le_trans (le_max_left _ _) hf)) (h2 fuel (le_trans (le_max_right _ _) hf))⟩
    obtain ⟨m₀, h⟩ := hbound
    refine ⟨m₀, fun m hm => ?_⟩
    obtain ⟨fuel₀, h⟩ := h m hm
    refine ⟨fuel₀, fun fuel hf => ?_⟩
    unfold CsRep.parseCommand
    rw [lines_iff.2 hls, mapM_some_iff.2 (h fuel hf)]
    rfl

end

/-! ### The search does not always end -/

/-- The claim **C87** for the grammars that fulfil a condition: for all grammars in normal form whose weights are at most one and not zero, in which each nonterminal with a
terminal rule has only rules for this terminal, and whose cycles lower the weights, and for all sentences of at most 255 words, the search for the first derivation without
pruning and without limit ends. -/
def C87_claim_for (ok : ∀ {N T W : Type}, List (PMCFGRule N T W) → Prop) : Prop :=
  ∀ (N T W : Type) [DecidableEq N] [DecidableEq T] [LinearOrderedCommMonoidWithZero W] [NoZeroDivisors W] (factorize : W → Nat → List W)
    (order : Nat → List Nat → List Nat) (g : Lcfrs N T W) (width : Nat) (R : CsRep N T W) (word : List T),
    CsRep.new factorize order g width = some R → HashOrder order → Factorizes factorize → ParserGrammar g.rules g.init →
    FactorsLeOne factorize (indexed g.rules) → FactorsNeZero factorize g.rules → Preterminals g.rules → VariableCyclesLower factorize g.rules →
    VariableCyclesVanish factorize g.rules → ok g.rules → R.generator.states ≤ 65535 → word.length ≤ 255 → Ends R .default word 1

/-- The full claim **C87**. -/
def C87_claim : Prop := C87_claim_for fun _ => True

/-- **C87** holds for grammars without cycles of components that consist of one variable. -/
theorem C87_claim_partial : C87_claim_for fun rules => NoVariableCycle rules := by
  intro N T W _ _ _ _ factorize order g width R word hR ho hfac hg hw h0 hpre _ _ hcyc hs hn
  exact C87_acyclic hR ho hfac hg hw hpre hcyc hn (o := .default) (states_pos hR hfac hg) hs 1

namespace C87Witness
open C81Example (Z half factorize)

/-- `S → X B` with `x₀ x₁ y`, `X → A B` and `X → B A` with `(x, y)`, `X → X B` with `(x₀, x₁ y)` and weight 1/2, `A → a`, `B → b`. -/
def g : Lcfrs Nat Nat Z := ⟨[⟨0, [1, 3], [[.var 0 0, .var 0 1, .var 1 0]], 1⟩, ⟨1, [2, 3], [[.var 0 0], [.var 1 0]], 1⟩, ⟨1, [3, 2], [[.var 0 0], [.var 1 0]], 1⟩,
  ⟨1, [1, 3], [[.var 0 0], [.var 0 1, .var 1 0]], half⟩, ⟨2, [], [[.t 7]], 1⟩, ⟨3, [], [[.t 8]], 1⟩], 0⟩

theorem grammar : ParserGrammar g.rules g.init where
  lcfrs := ⟨fun A => if A = 1 then some 2 else if A = 0 ∨ A = 2 ∨ A = 3 then some 1 else none, by
    refine ⟨fun A f => ?_, rfl, fun r hr => ?_⟩
    · match A with
      | 0 => simp [g, eq_comm]
      | 1 => simp [g, eq_comm]
      | 2 => simp [g, eq_comm]
      | 3 => simp [g, eq_comm]
      | A + 4 => simp [g]
    · simp only [g, List.mem_cons, List.not_mem_nil, or_false] at hr
      rcases hr with rfl | rfl | rfl | rfl | rfl | rfl
      · refine ⟨by decide, fun i j => ?_⟩
        match i with
        | 0 => simp [varsOf]; omega
        | 1 => simp [varsOf]
        | i + 2 => simp [varsOf]
      · refine ⟨by decide, fun i j => ?_⟩
        match i with
        | 0 => simp [varsOf]
        | 1 => simp [varsOf]
        | i + 2 => simp [varsOf]
      · refine ⟨by decide, fun i j => ?_⟩
        match i with
        | 0 => simp [varsOf]
        | 1 => simp [varsOf]
        | i + 2 => simp [varsOf]
      · refine ⟨by decide, fun i j => ?_⟩
        match i with
        | 0 => simp [varsOf]; omega
        | 1 => simp [varsOf]
        | i + 2 => simp [varsOf]
      · exact ⟨by decide, fun i j => by simp [varsOf]⟩
      · exact ⟨by decide, fun i j => by simp [varsOf]⟩⟩
  normal := by simp [NormalForm, g]
  closed := by simp [g]

theorem leOne : FactorsLeOne factorize (indexed g.rules) := by unfold FactorsLeOne; decide
theorem neZero : FactorsNeZero factorize g.rules := by unfold FactorsNeZero; decide

/-- The only cycle. -/
theorem path {A B c j : Nat} {v : Z} (h : VariablePath factorize g.rules A c B j v) : A = 1 ∧ (B = 2 ∨ B = 3 ∨ c = 0 ∧ B = 1 ∧ j = 0 ∧ ∃ n : Nat, v = half ^ (n + 1)) := by
  have key : ∀ r ∈ g.rules, ∀ (c i j B : Nat) f, r.composition[c]? = some [.var i j] → r.tail[i]? = some B → (factorize r.weight r.composition.length)[c]? = some f →
      r.head = 1 ∧ (B = 2 ∨ B = 3 ∨ c = 0 ∧ B = 1 ∧ j = 0 ∧ f = half) := by
    intro r hr c i j B f hc hB hf
    simp only [g, List.mem_cons, List.not_mem_nil, or_false] at hr
    rcases hr with rfl | rfl | rfl | rfl | rfl | rfl
    · match c with
      | 0 => simp at hc
      | c + 1 => simp at hc
    all_goals
      match c with
      | 0 =>
        simp at hc
        try
          obtain ⟨rfl, rfl⟩ := hc
          simp [factorize] at hB hf
          simp [← hB, hf]
      | 1 =>
        simp at hc
        try
          obtain ⟨rfl, rfl⟩ := hc
          simp at hB
          simp [← hB]
      | c + 2 => simp at hc
  induction h with
  | one hr h1 h2 hf =>
    obtain ⟨e1, e2⟩ := key _ hr _ _ _ _ _ h1 h2 hf
    refine ⟨e1, ?_⟩
    rcases e2 with e2 | e2 | ⟨e2, e3, e4, e5⟩
    · exact .inl e2
    · exact .inr (.inl e2)
    · exact .inr (.inr ⟨e2, e3, e4, 0, by rw [e5, pow_one]⟩)
  | cons hr h1 h2 hf _ ih =>
    obtain ⟨e1, e2⟩ := key _ hr _ _ _ _ _ h1 h2 hf
    refine ⟨e1, ?_⟩
    rcases e2 with e2 | e2 | ⟨e2, e3, e4, e5⟩
    · rw [ih.1] at e2; cases e2
    · rw [ih.1] at e2; cases e2
    · rcases ih.2 with h | h | ⟨_, h1, h2, n, h3⟩
      · exact .inl h
      · exact .inr (.inl h)
      · exact .inr (.inr ⟨e2, h1, h2, n + 1, by rw [e5, h3, ← pow_succ']⟩)

theorem half_lt : half < 1 := by decide
theorem half_pow (n : Nat) : half ^ (n + 1) < 1 := pow_lt_one₀ zero_le half_lt (by omega)

theorem lower : VariableCyclesLower factorize g.rules := by
  intro A c v x h hx
  obtain ⟨rfl, h | h | ⟨_, _, _, n, rfl⟩⟩ := path h
  · cases h
  · cases h
  · exact mul_lt_of_lt_one_left (zero_lt_iff.2 hx) (half_pow n)

theorem vanish : VariableCyclesVanish factorize g.rules := by
  intro A c v x y h hx
  obtain ⟨rfl, h | h | ⟨_, _, _, n, rfl⟩⟩ := path h
  · cases h
  · cases h
  · have hne : half ^ (n + 1) ≠ 0 := pow_ne_zero _ (by decide)
    obtain ⟨k, hk⟩ := MulArchimedean.arch (y * x⁻¹) ((one_lt_inv₀ (zero_lt_iff.2 hne)).2 (half_pow n))
    have h1 : y ≤ ((half ^ (n + 1))⁻¹) ^ k * x := by
      calc y = y * x⁻¹ * x := by rw [inv_mul_cancel_right₀ hx]
        _ ≤ _ := mul_le_mul_left hk x
    have h2 : (half ^ (n + 1)) ^ k * y ≤ x := by
      calc (half ^ (n + 1)) ^ k * y ≤ (half ^ (n + 1)) ^ k * (((half ^ (n + 1))⁻¹) ^ k * x) := mul_le_mul_right h1 _
        _ = x := by rw [← mul_assoc, inv_pow, mul_inv_cancel₀ (pow_ne_zero _ hne), one_mul]
    refine ⟨k + 1, ?_⟩
    rw [pow_succ', mul_assoc]
    exact lt_of_le_of_lt (mul_le_mul_right h2 _) (mul_lt_of_lt_one_left (zero_lt_iff.2 hx) (half_pow n))

/-- Each tuple from `S`, `X` and `A` has one `a`. -/
theorem count_seven {A : Nat} {d : DTree (PMCFGRule Nat Nat Z)} {v : List (List Nat)} (h : Derives g.rules A d v) :
    v.length = (if A = 1 then 2 else 1) ∧ v.flatten.count 7 = if A = 3 then 0 else 1 := by
  refine derives_induct (P := fun A _ v => v.length = (if A = 1 then 2 else 1) ∧ v.flatten.count 7 = if A = 3 then 0 else 1) (fun r ds args v hr hl1 hl2 hch hv => ?_) h
  have harg : ∀ (i A : Nat), r.tail[i]? = some A → ∃ u, args[i]? = some u ∧ u.length = (if A = 1 then 2 else 1) ∧ u.flatten.count 7 = if A = 3 then 0 else 1 := by
    intro i A hA
    have hlt := (List.getElem?_eq_some_iff.1 hA).1
    obtain ⟨u, hu⟩ : ∃ u, args[i]? = some u := ⟨_, List.getElem?_eq_getElem (by omega)⟩
    obtain ⟨d, hd⟩ : ∃ d, ds[i]? = some d := ⟨_, List.getElem?_eq_getElem (by omega)⟩
    exact ⟨u, hu, (hch i A d u hA hd hu).2⟩
  have one : ∀ (i A : Nat), r.tail[i]? = some A → A ≠ 1 → ∃ x, args[i]? = some [x] ∧ x.count 7 = if A = 3 then 0 else 1 := by
    intro i A hA hne
    obtain ⟨u, h1, h2, h3⟩ := harg i A hA
    rw [if_neg hne, List.length_eq_one_iff] at h2
    obtain ⟨x, rfl⟩ := h2
    exact ⟨x, h1, by simpa using h3⟩
  have two : ∀ (i : Nat), r.tail[i]? = some 1 → ∃ x y, args[i]? = some [x, y] ∧ x.count 7 + y.count 7 = 1 := by
    intro i hA
    obtain ⟨u, h1, h2, h3⟩ := harg i 1 hA
    rw [if_pos rfl, List.length_eq_two] at h2
    obtain ⟨x, y, rfl⟩ := h2
    exact ⟨x, y, h1, by simpa using h3⟩
  simp only [g, List.mem_cons, List.not_mem_nil, or_false] at hr
  rcases hr with rfl | rfl | rfl | rfl | rfl | rfl
  · obtain ⟨x, y, e0, f0⟩ := two 0 rfl
    obtain ⟨z, e1, f1⟩ := one 1 3 rfl (by decide)
    simp [compose, substAll, subst, e0, e1] at hv
    subst hv
    simp at f1 ⊢
    omega
  · obtain ⟨x, e0, f0⟩ := one 0 2 rfl (by decide)
    obtain ⟨z, e1, f1⟩ := one 1 3 rfl (by decide)
    simp [compose, substAll, subst, e0, e1] at hv
    subst hv
    simp at f0 f1 ⊢
    omega
  · obtain ⟨x, e0, f0⟩ := one 0 3 rfl (by decide)
    obtain ⟨z, e1, f1⟩ := one 1 2 rfl (by decide)
    simp [compose, substAll, subst, e0, e1] at hv
    subst hv
    simp at f0 f1 ⊢
    omega
  · obtain ⟨x, y, e0, f0⟩ := two 0 rfl
    obtain ⟨z, e1, f1⟩ := one 1 3 rfl (by decide)
    simp [compose, substAll, subst, e0, e1] at hv
    subst hv
    simp at f1 ⊢
    omega
  · simp [compose, substAll, subst] at hv
    subst hv
    simp
  · simp [compose, substAll, subst] at hv
    subst hv
    simp

/-- The tables of the automaton, the mask and the chart for the sentence `a a b`. -/
theorem tables : ((CsRep.new factorize (fun _ l => l.dedup) g 5).bind fun R => (R.masks.build [7, 7, 8]).bind fun mask =>
    (fillChart R.generator [7, 7, 8] R.generator.states 0 R.estimates mask).map fun c =>
      decide (R.generator.states = 6 ∧ R.generator.initial = 0 ∧ mask = List.replicate 10 true) && decide (R.generator.buUnaries[1]? = some [⟨6, half, 1⟩]) &&
        decide (R.generator.buUnaries[5]? = some [⟨2, 1, 1⟩, ⟨5, 1, 2⟩]) && decide (R.generator.buBinaries[1]? = some [⟨0, 2, 1, 3⟩]) &&
        decide (R.generator.buBinaries[3]? = some [⟨1, 4, 1, 0⟩]) && decide (R.generator.buInitials.get 7 = some [⟨8, 1, 5⟩]) &&
        decide (R.generator.buInitials.get 8 = some [⟨9, 1, 4⟩]) &&
        [(0, 1, 1), (0, 1, 5), (1, 2, 2), (1, 2, 5), (2, 3, 4), (0, 2, 3)].all fun x => match c.getWeight x.1 x.2.1 x.2.2 with | some (some _) => true | _ => false) =
      some true := by decide +kernel

/-- Infinitely many derivations. -/
def chain : Nat → BinTree
  | 0 => .unary 2 (.nullary 8)
  | n + 1 => .unary 6 (chain n)

theorem chain_inj : ∀ {n m : Nat}, chain n = chain m → n = m
  | 0, 0, _ => rfl
  | 0, m + 1, h => by simp [chain] at h
  | n + 1, 0, h => by simp [chain] at h
  | n + 1, m + 1, h => by
    simp only [chain, BinTree.unary.injEq, true_and] at h
    rw [chain_inj h]

theorem not_ends {R : CsRep Nat Nat Z} (hR : CsRep.new factorize (fun _ l => l.dedup) g 5 = some R) {k : Nat} (hk : 0 < k) : ¬ Ends R .default [7, 7, 8] k := by
  rintro ⟨m, fuel, cands, out, h1, h2, h3⟩
  have ht := tables
  rw [hR, Option.bind_some, Option.bind_eq_some_iff] at ht
  obtain ⟨mask, hm, ht⟩ := ht
  rw [Option.map_eq_some_iff] at ht
  obtain ⟨c, hc, ht⟩ := ht
  simp only [Bool.and_eq_true, decide_eq_true_eq] at ht
  obtain ⟨⟨⟨⟨⟨⟨⟨⟨t1, t2, t3⟩, t4⟩, t5⟩, t6⟩, t7⟩, t8⟩, t9⟩, t10⟩ := ht
  have hb0 : 0 < (CsOptions.default : CsOptions Z).beam.getD R.generator.states := by rw [t1]; decide
  have hb : (CsOptions.default : CsOptions Z).beam.getD R.generator.states ≤ 65535 := by rw [t1]; decide
  rcases h3 with h3 | h3 | ⟨_, h3, _⟩
  · -- there are no derivations
    obtain ⟨out', ⟨ds, _, _, h4, h5⟩, fuel₀, h6⟩ := C81_pruned hR C54Witness.hashOrder C83Example.factorizes grammar leOne (by simp [Preterminals, g]) lower
      (word := [7, 7, 8]) (by simp) (by simp) hb0 hb m
    have e := (C81_prefix (le_refl m) h2 (h6 fuel₀ (le_refl _))).length_le
    rw [← h5.length_eq] at e
    cases ds with
    | nil => exact absurd (le_trans h3 e) (by simp; omega)
    | cons x ds =>
      have := (count_seven (h4 x.1 x.2 List.mem_cons_self).2).2
      simp [g] at this
  · -- there are infinitely many bracket words
    obtain ⟨ts, hts⟩ := finite_of_none hR C54Witness.hashOrder C83Example.factorizes grammar leOne (by simp [Preterminals, g]) lower (word := [7, 7, 8]) (by simp) (by simp)
      hb0 hb hm hc h1 h3
    subst t3
    simp only [List.all_cons, List.all_nil, Bool.and_true, Bool.and_eq_true] at t10
    have hin : ∀ {i j q : Nat}, (match c.getWeight i j q with | some (some _) => true | _ => false) = true → ∃ w, c.getWeight i j q = some (some w) := by
      intro i j q h
      split at h
      · rename_i w hw
        exact ⟨w, hw⟩
      · cases h
    have hchain : ∀ n, ∃ w, ChartDerives (buGrammar R.generator (List.replicate 10 true)) (fun i j q => ∃ w, c.getWeight i j q = some (some w)) 0 1 1 (chain n) w := by
      intro n
      induction n with
      | zero => exact ⟨_, .unary ⟨rfl, _, t5, List.mem_cons_self⟩ (hin t10.2.1) (.nullary (a := 7) (w := 1) ⟨rfl, _, t8, List.mem_cons_self⟩)⟩
      | succ n ih =>
        obtain ⟨w, ih⟩ := ih
        exact ⟨_, .unary ⟨rfl, _, t4, List.mem_cons_self⟩ (hin t10.1) ih⟩
    have hall : ∀ n, ∃ w, (BinTree.binary 1 2 (.binary 0 1 (chain n) (.unary 5 (.nullary 8))) (.nullary 9), w) ∈ ts := by
      intro n
      obtain ⟨w, hw⟩ := hchain n
      suffices h : ∃ w, ChartDerives (buGrammar R.generator (List.replicate 10 true)) (fun i j q => ∃ w, c.getWeight i j q = some (some w)) 0 3 0
          (.binary 1 2 (.binary 0 1 (chain n) (.unary 5 (.nullary 8))) (.nullary 9)) w by
        obtain ⟨w, h⟩ := h
        exact ⟨w, hts _ _ (t2 ▸ h)⟩
      refine ⟨_, .binary (by decide) (by decide) ⟨rfl, _, t7, List.mem_cons_self⟩ (hin t10.2.2.2.2.2) (hin t10.2.2.2.2.1) (.binary (by decide) (by decide) ⟨rfl, _, t6, List.mem_cons_self⟩
        (hin t10.1) (hin t10.2.2.1) hw (.unary (w := 1) ⟨rfl, _, t5, by simp⟩ (hin t10.2.2.2.1) (.nullary (a := 7) (w := 1) ⟨rfl, _, t8, List.mem_cons_self⟩)))
        (.nullary (a := 8) (w := 1) ⟨rfl, _, t9, List.mem_cons_self⟩)⟩
    choose w hw using hall
    have hnd : ((List.range (ts.length + 1)).map fun n => (BinTree.binary 1 2 (.binary 0 1 (chain n) (.unary 5 (.nullary 8))) (.nullary 9), w n)).Nodup := by
      refine List.Nodup.map (fun a b h => ?_) List.nodup_range
      simp only [Prod.mk.injEq, BinTree.binary.injEq, true_and, and_true] at h
      exact chain_inj h.1
    have := (List.subperm_of_subset hnd (fun x hx => by
      obtain ⟨n, _, rfl⟩ := List.mem_map.1 hx
      exact hw n)).length_le
    simp at this
  · cases h3

end C87Witness

open C87Witness in
/-- **C87** is violated for grammars with cycles: for the sentence `a a b`, which has no derivation, there are infinitely many bracket words, so that the search for a
derivation does not end, neither in the debug mode nor otherwise. -/
theorem C87_cycle_violated : ¬ C87_claim := by
  intro h
  obtain ⟨R, hR⟩ := C54_new_total grammar C83Example.factorizes leOne (order := fun _ l => l.dedup) (width := 5) (by decide)
  have ht := tables
  rw [hR, Option.bind_some, Option.bind_eq_some_iff] at ht
  obtain ⟨mask, hm, ht⟩ := ht
  rw [Option.map_eq_some_iff] at ht
  obtain ⟨c, hc, ht⟩ := ht
  simp only [Bool.and_eq_true, decide_eq_true_eq] at ht
  obtain ⟨⟨⟨⟨⟨⟨⟨⟨t1, _⟩, _⟩, _⟩, _⟩, _⟩, _⟩, _⟩, _⟩ := ht
  exact not_ends hR (by decide) (h Nat Nat C81Example.Z _ _ g 5 R [7, 7, 8] hR C54Witness.hashOrder C83Example.factorizes grammar leOne neZero (by simp [Preterminals, g]) lower vanish
    trivial (by rw [t1]; decide) (by simp))

namespace C87Example
open C87Witness
open C81Example (Z half factorize)

/-- The first bracket words for the sentence `a a b`, none of which is a derivation. -/
example : ((CsRep.new factorize (fun _ l => l.dedup) g 5).bind fun R => (R.generate .default [7, 7, 8] 30 4).bind fun vs => (R.parses .default [7, 7, 8] 30 4).map fun out =>
    (vs.map fun v => v.map List.length, out.length)) = some ([some 28, some 32, some 36, some 40], 0) := by decide +kernel

/-- The sentence `a b b` has a derivation, which is found with the first bracket word. -/
example : ((CsRep.new factorize (fun _ l => l.dedup) g 5).bind fun R => (R.parses .default [7, 8, 8] 30 1).map List.length) = some 1 := by decide +kernel

def rA : PMCFGRule Nat Nat Z := ⟨2, [], [[.t 7]], 1⟩
def rB : PMCFGRule Nat Nat Z := ⟨3, [], [[.t 8]], 1⟩
def rX : PMCFGRule Nat Nat Z := ⟨1, [2, 3], [[.var 0 0], [.var 1 0]], 1⟩
def rS : PMCFGRule Nat Nat Z := ⟨0, [1, 3], [[.var 0 0, .var 0 1, .var 1 0]], 1⟩

/-- The hypotheses of the theorems can be fulfilled, also with a cycle. -/
example : (∃ v, VariablePath factorize g.rules 1 0 1 0 v) ∧ ∃ R, CsRep.new factorize (fun _ l => l.dedup) g 5 = some R ∧ Ends R .default [7, 8, 8] 1 := by
  refine ⟨⟨_, .one (r := ⟨1, [1, 3], [[.var 0 0], [.var 0 1, .var 1 0]], half⟩) (i := 0) (by simp [g]) rfl rfl rfl⟩, ?_⟩
  obtain ⟨R, hR⟩ := C54_new_total grammar C83Example.factorizes leOne (order := fun _ l => l.dedup) (width := 5) (by decide)
  have ht := tables
  rw [hR, Option.bind_some, Option.bind_eq_some_iff] at ht
  obtain ⟨mask, hm, ht⟩ := ht
  rw [Option.map_eq_some_iff] at ht
  obtain ⟨c, hc, ht⟩ := ht
  simp only [Bool.and_eq_true, decide_eq_true_eq] at ht
  obtain ⟨⟨⟨⟨⟨⟨⟨⟨t1, _⟩, _⟩, _⟩, _⟩, _⟩, _⟩, _⟩, _⟩ := ht
  have hA : Derives g.rules 2 (.node rA []) [[7]] := .node (r := rA) (by simp [g, rA]) .nil rfl
  have hB : Derives g.rules 3 (.node rB []) [[8]] := .node (r := rB) (by simp [g, rB]) .nil rfl
  have hX : Derives g.rules 1 (.node rX [.node rA [], .node rB []]) [[7], [8]] :=
    .node (r := rX) (by simp [g, rX]) (.cons hA (.cons hB .nil)) rfl
  have hS : Derives g.rules 0 (.node rS [.node rX [.node rA [], .node rB []], .node rB []]) [[7, 8, 8]] :=
    .node (r := rS) (by simp [g, rS]) (.cons hX (.cons hB .nil)) rfl
  obtain ⟨e, he⟩ := exists_numbers hS
  exact ⟨R, hR, C87_enough hR C54Witness.hashOrder C83Example.factorizes grammar leOne neZero (by simp [Preterminals, g]) lower vanish (by rw [t1]; decide)
    (by simp) rfl rfl rfl ⟨[(e, _)], rfl, by simp, fun e' d' h => by
      simp only [List.mem_singleton, Prod.mk.injEq] at h
      obtain ⟨rfl, rfl⟩ := h
      exact ⟨he, hS⟩⟩⟩

end C87Example

end Rustomata.Props
