import Verif.Proofs.CsMain

/-!
# Property C54: the Chomsky-Schützenberger parser
-/

namespace Rustomata

theorem inNormalForm_of {N T W : Type _} {g : Lcfrs N T W} (h : Spec.NormalForm g.rules) : g.inNormalForm = true := by
  unfold Lcfrs.inNormalForm
  rw [List.all_eq_true]
  intro r hr
  obtain ⟨_, h2, h3⟩ := h r hr
  rw [Bool.and_eq_true]
  constructor
  · rw [List.all_eq_true]
    intro c hc
    simpa using h2 c hc
  · rcases h3 with ⟨a, h3⟩ | h3
    · rw [h3]
      simp [VarT.isT]
    · rw [Bool.or_eq_true]
      refine .inl (List.all_eq_true.2 fun x hx => ?_)
      simp only [List.mem_flatMap, id_eq] at hx
      obtain ⟨c, hc, hx⟩ := hx
      obtain ⟨i, j, rfl⟩ := h3 c hc x hx
      rfl

section
open Spec
variable {N T W : Type _}

/-- The span of a derivation in a chart is also derived for a suitable word. -/
theorem chartDerives_word [Mul W] {G : BinGrammar T W} {inChart : Nat → Nat → Nat → Prop} {i j q : Nat} {t : BinTree} {w : W}
    (h : ChartDerives G inChart i j q t w) : i ≤ j ∧ ∃ u : List T, u.length = j - i ∧
      ∀ pre post : List T, pre.length = i → G.Derives (pre ++ u ++ post) (fun _ _ _ => True) i j q t w := by
  induction h with
  | @nullary i q rid a w hr =>
    refine ⟨by omega, [a], by simp, fun pre post hp => .nullary ?_ hr trivial⟩
    subst hp
    simp
  | unary hr _ _ ih =>
    obtain ⟨h1, u, h2, h3⟩ := ih
    exact ⟨h1, u, h2, fun pre post hp => .unary hr trivial (h3 pre post hp)⟩
  | @binary i m j q q₁ q₂ rid t₁ t₂ w w₁ w₂ him hmj hr _ _ _ _ ih₁ ih₂ =>
    obtain ⟨h1, u₁, h2, h3⟩ := ih₁
    obtain ⟨h1', u₂, h2', h3'⟩ := ih₂
    refine ⟨by omega, u₁ ++ u₂, by rw [List.length_append]; omega, fun pre post hp => .binary hr trivial ?_ ?_⟩
    · have := h3 pre (u₂ ++ post) hp
      simpa only [List.append_assoc] using this
    · have := h3' (pre ++ u₁) post (by rw [List.length_append]; omega)
      simpa only [List.append_assoc] using this

theorem mem_filterMapP {X Y : Type _} {f : X → Option (Option Y)} {l : List X} {out : List Y} (h : filterMapP f l = some out) {y : Y} (hy : y ∈ out) :
    ∃ x ∈ l, f x = some (some y) := by
  induction l generalizing out with
  | nil => cases h; cases hy
  | cons x l ih =>
    rw [filterMapP] at h
    split at h
    · cases h
    · obtain ⟨x', hx', h'⟩ := ih h hy
      exact ⟨x', List.mem_cons_of_mem _ hx', h'⟩
    · rename_i y' hxy
      rw [Option.map_eq_some_iff] at h
      obtain ⟨out', h1, rfl⟩ := h
      rw [List.mem_cons] at hy
      rcases hy with rfl | hy
      · exact ⟨x, List.mem_cons_self .., hxy⟩
      · obtain ⟨x', hx', h'⟩ := ih h1 hy
        exact ⟨x', List.mem_cons_of_mem _ hx', h'⟩

theorem mem_untilNone {X : Type _} {l : List (Option X)} {x : X} (h : x ∈ untilNone l) : some x ∈ l := by
  induction l with
  | nil => cases h
  | cons o l ih =>
    cases o with
    | none => cases h
    | some y =>
      rw [untilNone, List.mem_cons] at h
      rcases h with rfl | h
      · exact List.mem_cons_self ..
      · exact List.mem_cons_of_mem _ (ih h)

theorem mem_limit {X : Type _} {o : CsOptions W} {l : List X} {x : X} (h : x ∈ o.limit l) : x ∈ l := by
  unfold CsOptions.limit at h
  split at h
  · exact h
  · exact List.mem_of_mem_take h

end

end Rustomata

namespace Rustomata.Props
open Spec

section
variable {N T W : Type _} [DecidableEq N] [DecidableEq T] [LinearOrderedCommMonoidWithZero W] {factorize : W → Nat → List W}
  {order : Nat → List Nat → List Nat} {g : Lcfrs N T W} {width : Nat} {R : CsRep N T W}

/-- **C54** `CSRepresentation::new` does not panic for grammars in normal form with weights of at most one and widths of at most 255. -/
theorem C54_new_total (hg : ParserGrammar g.rules g.init) (hfac : Factorizes factorize) (hw : FactorsLeOne factorize (indexed g.rules)) (hwidth : width ≤ 255) :
    ∃ R, CsRep.new factorize order g width = some R := by
  obtain ⟨A, hA⟩ := fromGrammar_total (factorize := factorize) hg (rs := indexed g.rules) fun r hr => List.mem_of_getElem? (mem_indexed.1 hr)
  obtain ⟨fan, g1, g2, _⟩ := hg.lcfrs
  obtain ⟨r, hr, hh, _⟩ := (g1 g.init 1).1 g2
  obtain ⟨b, hb⟩ := C40_new_total (rules := g.rules) (init := g.init) order (fun r hr c hc => (hg.normal r hr).2.1 c hc) ⟨r, hr, hh⟩
  obtain ⟨outs, ho, _⟩ := C41_total hA hw (initial_lt hA hg fun w n => (hfac w n).1) width
  refine ⟨⟨A, outs, b, g.rules⟩, ?_⟩
  unfold CsRep.new
  rw [if_pos hwidth, if_pos (inNormalForm_of hg.normal)]
  change (match CsAutomaton.fromGrammar factorize (indexed g.rules) g.init, RuleMaskBuilder.new order g.rules g.init with
    | some A, some masks => (SxOutside.fromAutomaton A width).map fun estimates => (⟨A, estimates, masks, g.rules⟩ : CsRep N T W)
    | _, _ => none) = _
  simp only [hA, hb, ho, Option.map_some]

/-- **C54** for grammars in which each nonterminal with a terminal rule has only rules for this terminal, and in which there are no cycles of components that consist
of one variable. Without pruning, the parser returns the derivations of the sentence, each once, in the order of their weights, and then it stops; for a limit
of the number of candidates, and if the iterator is called less often, it returns the first derivations. -/
theorem C54_parses_partial [NoZeroDivisors W] (hR : CsRep.new factorize order g width = some R) (ho : HashOrder order) (hfac : Factorizes factorize)
    (hg : ParserGrammar g.rules g.init) (hw : FactorsLeOne factorize (indexed g.rules)) (h0 : FactorsNeZero factorize g.rules) (hpre : Preterminals g.rules)
    (hcyc : NoVariableCycle g.rules) (hs : R.generator.states ≤ 65535) {word : List T} (hn0 : 0 < word.length) (hn : word.length ≤ 255) {o : CsOptions W}
    (hb : o.beam = none) (hd : o.delta = 0) :
    ∃ out, Parses g.rules g.init word out ∧ ∃ m₀ fuel₀, ∀ m, ∀ fuel ≥ fuel₀,
      (∃ k, R.parses o word fuel m = some (out.take k)) ∧ (o.candidates = none → m₀ ≤ m → R.parses o word fuel m = some out) := by
  have hpos : 0 < R.generator.states := by
    unfold CsRep.new at hR
    split at hR
    swap
    · cases hR
    split at hR
    swap
    · cases hR
    split at hR
    swap
    · cases hR
    rename_i A masks hA hmk
    rw [Option.map_eq_some_iff] at hR
    obtain ⟨outs, houts, rfl⟩ := hR
    exact Nat.zero_lt_of_lt (initial_lt hA hg fun w n => (hfac w n).1)
  obtain ⟨out, _, h2, h3⟩ := parses_spec hR ho hfac hg hw hpre hcyc hn0 hn (o := o) (by rw [hb]; exact hpos) (by rw [hb]; exact hs)
  exact ⟨out, h2 h0 (by rw [hb]; exact le_refl _) hd, h3⟩

/-- **C54** with pruning: for all beams and all `delta`, the parser returns derivations of the sentence, each at most once, in the order of their weights. -/
theorem C54_pruned_partial [NoZeroDivisors W] (hR : CsRep.new factorize order g width = some R) (ho : HashOrder order) (hfac : Factorizes factorize)
    (hg : ParserGrammar g.rules g.init) (hw : FactorsLeOne factorize (indexed g.rules)) (hpre : Preterminals g.rules)
    (hcyc : NoVariableCycle g.rules) {word : List T} (hn0 : 0 < word.length) (hn : word.length ≤ 255) {o : CsOptions W}
    (hb0 : 0 < o.beam.getD R.generator.states) (hb : o.beam.getD R.generator.states ≤ 65535) :
    ∃ out, ParsesSome g.rules g.init word out ∧ ∃ m₀ fuel₀, ∀ m, ∀ fuel ≥ fuel₀,
      (∃ k, R.parses o word fuel m = some (out.take k)) ∧ (o.candidates = none → m₀ ≤ m → R.parses o word fuel m = some out) := by
  obtain ⟨out, h1, _, h3⟩ := parses_spec hR ho hfac hg hw hpre hcyc hn0 hn hb0 hb
  exact ⟨out, h1, h3⟩

/-- **C54** for all grammars in normal form and all options: each tree that is returned is a derivation of some sentence with the same number of words. (The lower
bound of the fuel is irrelevant.) -/
theorem C54_length (hR : CsRep.new factorize order g width = some R) (hfac : Factorizes factorize) (hg : ParserGrammar g.rules g.init)
    {word : List T} (hn : word.length ≤ 255) {o : CsOptions W} {fuel m : Nat} {out : List (GornTree (PMCFGRule N T W))}
    (hout : R.parses o word fuel m = some out) {t : GornTree (PMCFGRule N T W)} (ht : t ∈ out) :
    ∃ d u, t.Sorted ∧ (∀ p, t.get p = d.at? p) ∧ Derives g.rules g.init d [u] ∧ u.length = word.length := by
  unfold CsRep.new at hR
  split at hR
  swap
  · cases hR
  split at hR
  swap
  · cases hR
  split at hR
  swap
  · cases hR
  rename_i A masks hA hmk
  change CsAutomaton.fromGrammar factorize (indexed g.rules) g.init = some A at hA
  rw [Option.map_eq_some_iff] at hR
  obtain ⟨outs, houts, rfl⟩ := hR
  unfold CsRep.parses at hout
  rw [Option.bind_eq_some_iff] at hout
  obtain ⟨vs, hvs, hout⟩ := hout
  obtain ⟨v, hv, hvt⟩ := mem_filterMapP hout ht
  have hv := mem_untilNone (mem_limit hv)
  unfold CsRep.generate at hvs
  split at hvs
  · cases hvs
  split at hvs
  · cases hvs
  rename_i mask hmask _ chart hchart
  obtain ⟨tr, w, h1, h2⟩ := C44_sound hA hn hvs hv
  obtain ⟨_, u, h3, h4⟩ := chartDerives_word h1
  have h5 := h4 [] [] rfl
  rw [List.nil_append, List.append_nil] at h5
  have hu : u.length = word.length := by omega
  rw [← hu] at h5
  obtain ⟨rid, P, c1, c2, _⟩ := derives_compDerives hA (indexed_ids _) h5
  rw [h2, Option.some.injEq] at c2
  subst c2
  rcases C45_word_partial hg.lcfrs (fun r hr => (hg.normal r hr).1) hg.closed hfac c1 with ⟨e1, _⟩ | ⟨_, m, d, es, r, comp, e1, e2, e3, e4, _⟩
  · rw [e1] at hvt
    cases hvt
  · rw [e1, Option.some.injEq, Option.some.injEq] at hvt
    subst hvt
    exact ⟨d, u, e2, e3, e4, hu⟩

end

/-- The claim **C54** for the grammars that fulfil a condition: for all grammars in normal form whose weights are at most one and not zero and without cycles of
components that consist of one variable (such cycles give infinitely many derivations), and for all sentences of at most 255 words, the parser without pruning returns
the derivations of the sentence, each once, in the order of their weights, and then it stops. -/
def C54_claim_for (ok : ∀ {N T W : Type}, List (PMCFGRule N T W) → Prop) : Prop :=
  ∀ (N T W : Type) [DecidableEq N] [DecidableEq T] [LinearOrderedCommMonoidWithZero W] [NoZeroDivisors W] (factorize : W → Nat → List W)
    (order : Nat → List Nat → List Nat) (g : Lcfrs N T W) (width : Nat) (R : CsRep N T W) (word : List T),
    CsRep.new factorize order g width = some R → HashOrder order → Factorizes factorize → ParserGrammar g.rules g.init →
    FactorsLeOne factorize (indexed g.rules) → FactorsNeZero factorize g.rules → NoVariableCycle g.rules → ok g.rules → R.generator.states ≤ 65535 →
    0 < word.length → word.length ≤ 255 →
    ∃ out, Parses g.rules g.init word out ∧ ∃ m₀ fuel₀, ∀ m, ∀ fuel ≥ fuel₀,
      (∃ k, R.parses .default word fuel m = some (out.take k)) ∧ (m₀ ≤ m → R.parses .default word fuel m = some out)

/-- The full claim **C54**. -/
def C54_claim : Prop := C54_claim_for fun _ => True

/-- **C54** holds for the condition of the theorem. -/
theorem C54_claim_partial : C54_claim_for Preterminals := by
  intro N T W _ _ _ _ factorize order g width R word hR ho hfac hg hw h0 hcyc hpre hs hn0 hn
  obtain ⟨out, h1, m₀, fuel₀, h2⟩ := C54_parses_partial hR ho hfac hg hw h0 hpre hcyc hs hn0 hn (o := .default) rfl rfl
  exact ⟨out, h1, m₀, fuel₀, fun m fuel hf => ⟨(h2 m fuel hf).1, (h2 m fuel hf).2 rfl⟩⟩

/-- Each nonterminal has rules for at most one terminal. -/
def OneTerminal {N T W : Type _} (rules : List (PMCFGRule N T W)) : Prop :=
  ∀ r ∈ rules, ∀ a, r.composition = [[.t a]] → ∀ r' ∈ rules, r'.head = r.head → ∀ a', r'.composition = [[.t a']] → a' = a

section
variable {N T W : Type _} [DecidableEq N] [DecidableEq T] [Zero W] [One W] [Mul W] [LinearOrder W]

/-- The results do not depend on the bound. -/
theorem C54_deterministic {R : CsRep N T W} {o : CsOptions W} {word : List T} {fuel fuel' m : Nat} {out out' : List (GornTree (PMCFGRule N T W))}
    (h : R.parses o word fuel m = some out) (h' : R.parses o word fuel' m = some out') : out = out' := by
  unfold CsRep.parses at h h'
  rw [Option.bind_eq_some_iff] at h h'
  obtain ⟨vs, h1, h2⟩ := h
  obtain ⟨vs', h1', h2'⟩ := h'
  unfold CsRep.generate at h1 h1'
  split at h1
  · cases h1
  split at h1
  · cases h1
  rename_i mask hm _ chart hc
  simp only [hm, hc] at h1'
  have := C44_deterministic h1 h1'
  subst this
  rw [h2, Option.some.injEq] at h2'
  exact h2'

end

section
variable {N T W : Type _} [DecidableEq N] [DecidableEq T] [LinearOrderedCommMonoidWithZero W]

/-- A wrong result for one bound refutes the claim. -/
theorem C54_refute {rules : List (PMCFGRule N T W)} {init : N} {R : CsRep N T W} {word : List T} {fuel m : Nat}
    {res : List (GornTree (PMCFGRule N T W))} (hres : R.parses .default word fuel m = some res) {t : GornTree (PMCFGRule N T W)} (ht : t ∈ res)
    (hbad : ∀ d, Derives rules init d [word] → t.get [] ≠ d.at? [])
    (h : ∃ out, Parses rules init word out ∧ ∃ m₀ fuel₀, ∀ m, ∀ fuel ≥ fuel₀,
      (∃ k, R.parses .default word fuel m = some (out.take k)) ∧ (m₀ ≤ m → R.parses .default word fuel m = some out)) : False := by
  obtain ⟨out, ⟨ds, ⟨_, _, h1, h2⟩, _⟩, m₀, fuel₀, h3⟩ := h
  obtain ⟨⟨k, h4⟩, _⟩ := h3 m fuel₀ (le_refl _)
  have := C54_deterministic hres h4
  subst this
  obtain ⟨i, hi⟩ := List.getElem?_of_mem (List.mem_of_mem_take ht)
  obtain ⟨hlt, hi⟩ := List.getElem?_eq_some_iff.1 hi
  have hlt' : i < ds.length := by rw [h2.length_eq]; exact hlt
  have h5 := (List.forall₂_iff_get.1 h2).2 i hlt' hlt
  simp only [List.get_eq_getElem, hi] at h5
  exact hbad _ (h1 ds[i].1 ds[i].2 (List.getElem_mem _)).2 (h5.2 [])

end

namespace C54Witness

/-- `S → a`, `S → b`. -/
def lexicon : Lcfrs Nat Nat Nat := ⟨[⟨0, [], [[.t 7]], 1⟩, ⟨0, [], [[.t 8]], 1⟩], 0⟩

/-- `S → a`, `S → X X`, `X → b`. -/
def root : Lcfrs Nat Nat Nat := ⟨[⟨0, [], [[.t 7]], 1⟩, ⟨0, [1, 1], [[.var 0 0, .var 1 0]], 1⟩, ⟨1, [], [[.t 8]], 1⟩], 0⟩

/-- The rules at the roots of the first derivations, by their compositions. -/
def roots (g : Lcfrs Nat Nat Nat) (word : List Nat) : Option (List (Option (Composition Nat))) :=
  (CsRep.new C45Example.factorize (fun _ l => l.dedup) g 5).bind fun R => (R.parses .default word 10 2).map fun out =>
    out.map fun t => (t.get []).map fun r => r.composition

theorem lexicon_result : roots lexicon [7] = some [some [[.t 8]], some [[.t 7]]] := by decide +kernel
theorem root_result : roots root [8] = some [some [[.t 7]]] := by decide +kernel

theorem hashOrder : HashOrder fun _ l => l.dedup := fun _ l => ⟨l.nodup_dedup, by simp⟩

theorem lexicon_grammar : ParserGrammar lexicon.rules lexicon.init where
  lcfrs := ⟨fun A => if A = 0 then some 1 else none, by
    constructor
    · intro A f
      by_cases hA : A = 0
      · subst hA
        simp [lexicon, eq_comm]
      · simp only [hA, if_false, lexicon, List.mem_cons, List.not_mem_nil, or_false, exists_eq_or_imp, exists_eq_left]
        simp
        omega
    · simp [lexicon, varsOf]⟩
  normal := by simp [NormalForm, lexicon]
  closed := by simp [lexicon]

theorem root_grammar : ParserGrammar root.rules root.init where
  lcfrs := ⟨fun A => if A = 0 ∨ A = 1 then some 1 else none, by
    refine ⟨fun A f => ?_, rfl, fun r hr => ?_⟩
    · match A with
      | 0 => simp [root, eq_comm]
      | 1 => simp [root, eq_comm]
      | A + 2 => simp [root]
    · simp only [root, List.mem_cons, List.not_mem_nil, or_false] at hr
      rcases hr with rfl | rfl | rfl
      · exact ⟨by decide, fun i j => by simp [varsOf]⟩
      · refine ⟨by decide, fun i j => ?_⟩
        match i with
        | 0 => simp [varsOf]
        | 1 => simp [varsOf]
        | i + 2 => simp [varsOf]
      · exact ⟨by decide, fun i j => by simp [varsOf]⟩⟩
  normal := by simp [NormalForm, root]
  closed := by simp [root]

theorem wrong {g : Lcfrs Nat Nat Nat} {word : List Nat} {c : Composition Nat} {cs : List (Option (Composition Nat))} (h : roots g word = some cs) (hc : some c ∈ cs) :
    ∃ R res t, CsRep.new C45Example.factorize (fun _ l => l.dedup) g 5 = some R ∧ R.parses .default word 10 2 = some res ∧ t ∈ res ∧
      ∃ r, t.get [] = some r ∧ r.composition = c := by
  unfold roots at h
  rw [Option.bind_eq_some_iff] at h
  obtain ⟨R, hR, h⟩ := h
  rw [Option.map_eq_some_iff] at h
  obtain ⟨res, hres, rfl⟩ := h
  rw [List.mem_map] at hc
  obtain ⟨t, ht, hc⟩ := hc
  rw [Option.map_eq_some_iff] at hc
  obtain ⟨r, hr, rfl⟩ := hc
  exact ⟨R, res, t, hR, hres, ht, r, hr, rfl⟩

/-- The number of states. -/
theorem states_lexicon : ((CsRep.new C45Example.factorize (fun _ l => l.dedup) lexicon 5).map fun R => decide (R.generator.states ≤ 65535)) = some true := by
  decide +kernel
theorem states_root : ((CsRep.new C45Example.factorize (fun _ l => l.dedup) root 5).map fun R => decide (R.generator.states ≤ 65535)) = some true := by
  decide +kernel

end C54Witness

open C54Witness in
/-- **C54** is violated by nonterminals with rules for several terminals: the terminals of the rules are not compared to the sentence when derivations are
enumerated. For the rules `S → a` and `S → b` and the sentence `a`, both rules are returned. -/
theorem C54_lexicon_violated : ¬ C54_claim := by
  intro h
  obtain ⟨R, res, t, hR, hres, ht, r', hr', hroot⟩ := wrong (c := [[.t 8]]) lexicon_result (by simp)
  have hs : R.generator.states ≤ 65535 := by
    have := states_lexicon
    rw [hR] at this
    simpa using this
  refine C54_refute hres ht (fun d hd he => ?_) (h Nat Nat Nat _ _ lexicon 5 R [7] hR hashOrder C45Example.factorizes lexicon_grammar
    (by unfold FactorsLeOne; decide) (by unfold FactorsNeZero; decide) ⟨fun _ _ => 0, by simp [lexicon]⟩ trivial hs (by simp) (by simp))
  obtain ⟨r, h1, h2, ds, args, rfl, _, h3⟩ := derives_inv hd
  rw [hr'] at he
  cases he
  rw [hroot] at h3
  simp [compose, substAll, subst] at h3

open C54Witness in
/-- **C54** is violated even if each nonterminal has rules for at most one terminal: for sentences of one word, the rules of the initial nonterminal are
enumerated even if it is not in the chart. For the rules `S → a`, `S → X X`, `X → b` and the sentence `b`, the rule `S → a` is returned. -/
theorem C54_root_violated : ¬ C54_claim_for OneTerminal := by
  intro h
  obtain ⟨R, res, t, hR, hres, ht, r', hr', hroot⟩ := wrong (c := [[.t 7]]) root_result (by simp)
  have hs : R.generator.states ≤ 65535 := by
    have := states_root
    rw [hR] at this
    simpa using this
  refine C54_refute hres ht (fun d hd he => ?_) (h Nat Nat Nat _ _ root 5 R [8] hR hashOrder C45Example.factorizes root_grammar
    (by unfold FactorsLeOne; decide) (by unfold FactorsNeZero; decide) ⟨fun _ _ => 0, ?_⟩ ?_ hs (by simp) (by simp))
  · obtain ⟨r, h1, h2, ds, args, rfl, _, h3⟩ := derives_inv hd
    rw [hr'] at he
    cases he
    rw [hroot] at h3
    simp [compose, substAll, subst] at h3
  · intro r hr c i j B h1 h2
    simp only [root, List.mem_cons, List.not_mem_nil, or_false] at hr
    rcases hr with rfl | rfl | rfl
    · cases c <;> simp at h1
    · cases c <;> simp at h1
    · cases c <;> simp at h1
  · simp [OneTerminal, root]

namespace C54Example
open C45Example

def g : Lcfrs Nat Nat Nat := ⟨rules, 0⟩

theorem grammar : ParserGrammar g.rules g.init where
  lcfrs := lcfrs
  normal := by
    intro r hr
    simp only [g, rules, List.mem_cons, List.not_mem_nil, or_false] at hr
    rcases hr with rfl | rfl | rfl | rfl | rfl <;> simp
  closed := by unfold g; decide

theorem preterminals : Preterminals g.rules := by
  simp [Preterminals, g, rules]

theorem noVariableCycle : NoVariableCycle g.rules := by
  refine ⟨fun A _ => if A = 1 then 1 else 0, fun r hr c i j B h1 h2 => ?_⟩
  simp only [g, rules, List.mem_cons, List.not_mem_nil, or_false] at hr
  rcases hr with rfl | rfl | rfl | rfl | rfl
  · cases c <;> simp at h1
  · match c, i with
    | 0, 0 => cases h2; simp
    | 1, 0 => cases h2; simp
    | 0, 1 => cases h2; simp
    | 1, 1 => cases h2; simp
    | _, i + 2 => cases h2
    | c + 2, _ => cases h1
  · match c, i with
    | 0, 0 => cases h2; simp
    | 1, 0 => cases h2; simp
    | 0, 1 => cases h2; simp
    | 1, 1 => cases h2; simp
    | _, i + 2 => cases h2
    | c + 2, _ => cases h1
  · cases c <;> simp at h1
  · cases c <;> simp at h1

/-- The rules of the derivations, by their compositions. -/
def parses (word : List Nat) : Option (List (List (List Nat × Composition Nat))) :=
  (CsRep.new factorize (fun _ l => l.dedup) g 5).bind fun R => (R.parses .default word 30 10).map fun out =>
    out.map fun t => t.map fun x => (x.1, x.2.composition)

end C54Example

open C54Example in
/-- The hypotheses of the theorems hold for a grammar with discontinuous constituents. -/
example : ParserGrammar g.rules g.init ∧ Preterminals g.rules ∧ NoVariableCycle g.rules ∧ FactorsLeOne C45Example.factorize (indexed g.rules) ∧
    FactorsNeZero C45Example.factorize g.rules ∧ Factorizes C45Example.factorize ∧ HashOrder (fun _ l => l.dedup) :=
  ⟨grammar, preterminals, noVariableCycle, by unfold FactorsLeOne; decide, by unfold FactorsNeZero; decide, C45Example.factorizes, C54Witness.hashOrder⟩

open C54Example in
/-- The sentence has two derivations; two of the four candidates are inconsistent. -/
example : parses [7, 8, 7] = some
    [[([], [[.var 0 0, .var 1 0, .var 0 1]]), ([0], [[.var 1 0], [.var 0 0]]), ([0, 0], [[.t 7]]), ([0, 1], [[.t 7]]), ([1], [[.t 8]])],
     [([], [[.var 0 0, .var 1 0, .var 0 1]]), ([0], [[.var 0 0], [.var 1 0]]), ([0, 0], [[.t 7]]), ([0, 1], [[.t 7]]), ([1], [[.t 8]])]] := by
  decide +kernel

end Rustomata.Props
