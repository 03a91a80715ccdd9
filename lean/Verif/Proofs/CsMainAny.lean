import Verif.Proofs.CsMain
import Verif.Proofs.AnyWeights
import Verif.Proofs.CsKBestAnyKth
import Verif.Props.CsParse
import Verif.Spec.CsAny

/-!
# The parser returns all derivations of a sentence, for all terminal rules
-/

namespace Rustomata.Props
open Spec

section
variable {N T W : Type _} [DecidableEq N] [DecidableEq T] [One W] [Mul W] {factorize : W → Nat → List W}

/-- The bracket word of a derivation in the tables belongs to a derivation of the context-free approximation with other weights. -/
theorem derives_anyWeights {rules : List (PMCFGRule N T W)} {init : N} {A : CsAutomaton T W}
    (h : CsAutomaton.fromGrammar factorize (indexed rules) init = some A) (hlen : ∀ w n, (factorize w n).length = n) {filter : List Bool} {word : List T}
    {ok : Nat → Nat → Nat → Prop} {t : BinTree} {w : W} (hd : (buGrammar A filter).Derives word ok 0 word.length A.initial t w) :
    ∃ rid P w', @CompDerives N T W (constMonoid W).toMonoid firstFactor (indexed rules) init 0 rid P word w' ∧ treeWord A.brackets t = some (compWord rid 0 P) := by
  obtain ⟨st, ps, h1, h2, h3⟩ := CsAutomaton.fromGrammar_rep h
  have hlt := derives_state_lt h hd
  rw [h2.grammar] at hd
  have hst : st[A.initial]? = some (.non init 0) := by
    rcases h3 with h3 | ⟨h3, _⟩
    · exact h3
    · rw [show A.states = st.length from h2.len.1] at hlt
      omega
  have hf := grammarProds_forget hlen (indexed rules)
  rw [h1, Option.map_some] at hf
  obtain ⟨ps', h4, h5⟩ := Option.map_eq_some_iff.1 hf.symm
  letI := constMonoid W
  obtain ⟨w', hd'⟩ := @derives_forget N T W W _ (constMonoid W).toMul st ps ps' h5.symm filter word ok _ _ _ _ _ hd
  obtain ⟨rid, P, h6, h7⟩ := (derives_stateWord (factorize := firstFactor) h4 (indexed_ids _) hd' (le_refl _)).2 _ hst
  rw [seg_full] at h6
  refine ⟨rid, P, w', h6, ?_⟩
  rw [← h7, h2.brackets]
  have := congrArg (List.map Prod.snd) h5
  simp only [List.map_map] at this
  have e : ∀ l : List (CsProd N T W × TdBrackets), l.map (Prod.snd ∘ forgetProd) = l.map Prod.snd := fun l => rfl
  rw [e, e] at this
  rw [this]

end

end Rustomata.Props

namespace Rustomata
open Spec

section
variable {N T W : Type _} [DecidableEq N] [DecidableEq T] [One W]

omit [DecidableEq N] in
/-- `toderiv` for the bracket words of derivations of the context-free approximation, for weights without laws. -/
theorem word_anyWeights {rules : List (PMCFGRule N T W)} {init : N} (hg : ParserGrammar rules init) {rid : Nat} {P : Parts} {u : List T} {w : W}
    (h : @CompDerives N T W (constMonoid W).toMonoid firstFactor (indexed rules) init 0 rid P u w) :
    toderiv rules (compWord rid 0 P) = some none ∨ ∃ m d es r comp, toderiv rules (compWord rid 0 P) = some (some m) ∧ m.Sorted ∧ (∀ p, m.get p = d.at? p) ∧
      Derives rules init d [u] ∧ Numbers rules (.node rid es) d ∧ rules[rid]? = some r ∧ r.composition[0]? = some comp ∧ Encodes rules es comp P := by
  letI := constMonoid W
  rcases Props.C45_word_partial hg.lcfrs (fun r hr => (hg.normal r hr).1) hg.closed firstFactor_factorizes h with
    ⟨e1, _⟩ | ⟨_, m, d, es, r, comp, e1, e2, e3, e4, _, e6, e7, e8, e9⟩
  · exact .inl e1
  · exact .inr ⟨m, d, es, r, comp, e1, e2, e3, e4, e6, e7, e8, e9⟩

/-- Each derivation of the sentence has a derivation in the binarised grammar with the rules that the mask keeps, for weights without laws. -/
theorem derivation_anyWeights [Mul W] {order : Nat → List Nat → List Nat} {factorize : W → Nat → List W} (hlen : ∀ w n, (factorize w n).length = n)
    {rules : List (PMCFGRule N T W)} {init : N} {b : RuleMaskBuilder T} {st : List (CsState N)} {ps : List (CsProd N T W × TdBrackets)}
    (hps : grammarProds factorize (indexed rules) = some ps) (hst : ∀ p ∈ ps, ∀ s ∈ p.1.symbols, s ∈ st) (ho : HashOrder order) (hg : ParserGrammar rules init)
    (hb : RuleMaskBuilder.new order rules init = some b) {word : List T} {mask : List Bool} (hmask : b.build word = some mask)
    {d : DTree (PMCFGRule N T W)} (hder : Derives rules init d [word]) {rid : Nat} {es : List (DTree Nat)} (hnum : Numbers rules (.node rid es) d) :
    ∃ r comp P m q t w, rules[rid]? = some r ∧ r.composition[0]? = some comp ∧ Encodes rules es comp P ∧ toderiv rules (compWord rid 0 P) = some (some m) ∧
      st[q]? = some (.non init 0) ∧ (numGrammar st ps mask).Derives word (fun _ _ _ => True) 0 word.length q t w ∧
      treeWord (ps.map Prod.snd) t = some (compWord rid 0 P) := by
  have hf := grammarProds_forget hlen (indexed rules)
  rw [hps, Option.map_some] at hf
  obtain ⟨ps', h4, h5⟩ := Option.map_eq_some_iff.1 hf.symm
  have hst' : ∀ p ∈ ps', ∀ s ∈ p.1.symbols, s ∈ st := by
    intro p hp s hs
    obtain ⟨x, hx, he⟩ := List.mem_map.1 (h5 ▸ List.mem_map_of_mem (f := forgetProd) hp)
    refine hst x hx s ?_
    obtain ⟨p, b⟩ := p
    obtain ⟨x, b'⟩ := x
    simp only [forgetProd, Prod.mk.injEq] at he
    have he := he.1
    cases p <;> cases x <;> simp only [CsProd.forget, reduceCtorEq] at he <;> cases he <;> exact hs
  have hsnd : ps'.map Prod.snd = ps.map Prod.snd := by
    have := congrArg (List.map Prod.snd) h5
    simp only [List.map_map] at this
    exact this
  obtain ⟨mask', hm1, hm2, hm3, hm4⟩ := mask_spec firstFactor_length h4 hst' ho hg hb word
  rw [hmask, Option.some.injEq] at hm1
  subst hm1
  have key : ∃ r comp P m q t, ∃ w : W, rules[rid]? = some r ∧ r.composition[0]? = some comp ∧ Encodes rules es comp P ∧
      toderiv rules (compWord rid 0 P) = some (some m) ∧
      st[q]? = some (.non init 0) ∧ @BinGrammar.Derives T W (constMonoid W).toMul (numGrammar st ps' mask) word (fun _ _ _ => True) 0 word.length q t w ∧
      treeWord (ps'.map Prod.snd) t = some (compWord rid 0 P) := by
    letI := constMonoid W
    obtain ⟨r, comp, P, m, w, c1, c2, c3, c4, c5, c6, c7, c8⟩ :=
      Props.C45_derivation_partial (factorize := firstFactor) hg.lcfrs (fun r hr => (hg.normal r hr).1) firstFactor_factorizes hder hnum
    obtain ⟨u1, u2⟩ := Props.C40_derivation_kept hg hder
    classical
    let rs := (indexed rules).filter fun x => decide (∃ p, d.at? p = some x.2)
    have hkept : ∀ x ∈ rs, KeptRule firstFactor st ps' mask x := by
      rintro ⟨rid', r'⟩ hx
      rw [List.mem_filter, mem_indexed, decide_eq_true_eq] at hx
      obtain ⟨hx, p, hp⟩ := hx
      exact hm4 u1 rid' r' hx (u2 p r' hp).1 (u2 p r' hp).2
    have hat : ∀ p x, (DTree.node rid es).at? p = some x → ∀ r', (x, r') ∈ indexed rules → (x, r') ∈ rs := by
      intro p x hp r' hr'
      rw [List.mem_filter, decide_eq_true_eq]
      refine ⟨hr', p, ?_⟩
      rw [mem_indexed] at hr'
      have := hnum p
      rw [hp, Option.map_some, hr'] at this
      cases hd : d.at? p with
      | none => rw [hd] at this; cases this
      | some y =>
        rw [hd, Option.map_some, Option.some.injEq] at this
        exact this.symm
    have hcd : CompDerives firstFactor rs init 0 rid P word w := by
      obtain ⟨r', comp', f, w', e1, e2, e3, e4, e5, e6⟩ := c5
      refine ⟨r', comp', f, w', hat [] rid rfl _ e1, e2, e3, e4, fits_restrict e5 [] fun p x r'' hp hm => ?_, e6⟩
      exact hat p x (encodes_visits c3 rid p x hp).1 r'' hm
    have hsimple : ∀ r ∈ rs, ∀ (cid : Nat) c f, r.2.composition[cid]? = some c → (firstFactor r.2.weight r.2.composition.length)[cid]? = some f → SimpleComp c := by
      intro r hr cid c f hc hf
      rcases grammarProds_simple _ h4 r (List.mem_of_mem_filter hr) cid c f hc hf with h | ⟨h, vs, hvs⟩
      · exact .inl h
      · exact .inr ⟨h, forall₂_vars hvs⟩
    obtain ⟨q, t, q1, q2, q3⟩ := compDerives_derives hkept hsimple hcd
    exact ⟨r, comp, P, m, q, t, w, c1, c2, c3, c6, q1, q2, q3⟩
  obtain ⟨r, comp, P, m, q, t, w, c1, c2, c3, c6, q1, q2, q3⟩ := key
  obtain ⟨w', q2⟩ := @derives_forget N T W W (constMonoid W).toMul _ st ps' ps h5 mask word _ _ _ _ _ _ q2
  exact ⟨r, comp, P, m, q, t, w', c1, c2, c3, c6, q1, q2, hsnd ▸ q3⟩

end

section
variable {N T W : Type _} [DecidableEq N] [DecidableEq T] [RoundedWeight W] {factorize : W → Nat → List W}
  {order : Nat → List Nat → List Nat} {g : Lcfrs N T W} {R : CsRep N T W} {width : Nat}

/-- `ReadOff A rules init t d`: the derivation `d` is read off the candidate that is given by `t`. -/
def ReadOff (A : CsAutomaton T W) (rules : List (PMCFGRule N T W)) (init : N) (t : BinTree) (d : DTree (PMCFGRule N T W)) : Prop :=
  ∃ rid P es r comp u, treeWord A.brackets t = some (compWord rid 0 P) ∧ Derives rules init d [u] ∧ Numbers rules (.node rid es) d ∧ rules[rid]? = some r ∧
    r.composition[0]? = some comp ∧ Encodes rules es comp P

omit [DecidableEq N] [DecidableEq T] [RoundedWeight W] in
theorem pairwise_forall₂ {X Y : Type _} {R : X → Y → Prop} {S : X → X → Prop} {S' : Y → Y → Prop} {l : List X} {l' : List Y} (h : List.Forall₂ R l l')
    (hS : l.Pairwise S) (hi : ∀ a a' b b', R a b → R a' b' → S a a' → S' b b') : l'.Pairwise S' := by
  rw [List.pairwise_iff_getElem] at hS ⊢
  intro i j h1 h2 hij
  have hl := h.length_eq
  have hr := (List.forall₂_iff_get.1 h).2
  exact hi _ _ _ _ (hr i (by omega) h1) (hr j (by omega) h2) (hS i j (by omega) (by omega) hij)

/-- With candidates in some order, the parser returns derivations of sentences with the same number of words, without pruning all derivations of the sentence. -/
theorem parses_core (hR : CsRep.new factorize order g width = some R) (ho : HashOrder order) (hlen : ∀ w n, (factorize w n).length = n)
    (hg : ParserGrammar g.rules g.init) (hw : Props.FactorsLeOne factorize (indexed g.rules)) {word : List T} (hn0 : 0 < word.length)
    (hn : word.length ≤ 255) {o : CsOptions W} (hb0 : 0 < o.beam.getD R.generator.states) (hs : o.beam.getD R.generator.states ≤ 65535)
    {Q : DTree (PMCFGRule N T W) → DTree (PMCFGRule N T W) → Prop}
    (hE : ∀ A chart mask outs, CsAutomaton.fromGrammar factorize (indexed g.rules) g.init = some A → R.generator = A → A.initial < A.states →
      mask.length = A.brackets.length → fillChart A word (o.beam.getD A.states) o.delta outs mask = some chart →
      ∃ ts words, (ts.Pairwise fun t t' => ∀ d d', ReadOff A g.rules g.init t d → ReadOff A g.rules g.init t' d' → Q d d') ∧
        (∀ t, t ∈ ts ↔ ∃ w, ChartDerives (buGrammar A mask) (fun i j q => ∃ w, chart.getWeight i j q = some (some w)) 0 word.length A.initial t w) ∧
        List.Forall₂ (fun t v => treeWord A.brackets t = some v) ts words ∧
        ∃ fuel₀, ∀ m, ∀ fuel ≥ fuel₀, KIter.run A chart mask fuel word.length m KIter.new = some ((List.range m).map fun k => words[k]?)) :
    ∃ ds out, ParsedLength g.rules g.init word ds out ∧ (ds.map Prod.snd).Pairwise Q ∧
      (NoZeroDivisors W → FactorsNeZero factorize g.rules → R.generator.states ≤ o.beam.getD R.generator.states → o.delta = 0 →
        ∀ e d, Numbers g.rules e d ∧ Derives g.rules g.init d [word] → (e, d) ∈ ds) ∧
      ∃ m₀ fuel₀, ∀ m, ∀ fuel ≥ fuel₀,
      (∃ k, R.parses o word fuel m = some (out.take k)) ∧ (o.candidates = none → m₀ ≤ m → R.parses o word fuel m = some out) := by
  unfold CsRep.new at hR
  split at hR
  swap
  · cases hR
  split at hR
  swap
  · cases hR
  split at hR
  swap
  · cases hR
  rename_i _ _ A masks hA hmk
  change CsAutomaton.fromGrammar factorize (indexed g.rules) g.init = some A at hA
  rw [Option.map_eq_some_iff] at hR
  obtain ⟨outs, houts, rfl⟩ := hR
  simp only at hs hb0
  have hne : ∀ r ∈ g.rules, r.composition ≠ [] := fun r hr => (hg.normal r hr).1
  have hi := initial_lt hA hg hlen
  obtain ⟨st, ps, h1, hnd, h3, h4, hbr, h6, _, h7⟩ := Props.C42_tables hA
  have hin := h7 hi
  obtain ⟨mask, hm1, hm2, hm3, hm4⟩ := mask_spec hlen h1 h3 ho hg hmk word
  have hml : mask.length = A.brackets.length := by rw [hm2, hbr, List.length_map]
  obtain ⟨chart, hc⟩ := Props.C42_total hA hw hi houts (beam := o.beam.getD A.states) (delta := o.delta) hml hn hb0 hs
  obtain ⟨ts, words, kQ, k3, k4, fuel₀, k5⟩ := hE A chart mask outs hA rfl hi hml hc
  -- the derivation of a word
  let Y := DTree Nat × DTree (PMCFGRule N T W) × GornTree (PMCFGRule N T W)
  let Good : BinTree → List (Bracket BracketContent) → Option Y → Prop := fun x v o =>
    toderiv g.rules v = some (o.map fun y => y.2.2) ∧ ∃ rid P, v = compWord rid 0 P ∧ treeWord A.brackets x = some v ∧
      ∀ y, o = some y → (∀ p, y.2.2.get p = y.2.1.at? p) ∧ y.2.2.Sorted ∧ (∃ u, Derives g.rules g.init y.2.1 [u] ∧ u.length = word.length) ∧ Numbers g.rules y.1 y.2.1 ∧
        ∃ es r comp, y.1 = .node rid es ∧ g.rules[rid]? = some r ∧ r.composition[0]? = some comp ∧ Encodes g.rules es comp P
  have hgood : ∀ x ∈ ts.zip words, ∃ o, Good x.1 x.2 o := by
    rintro ⟨x, v⟩ hx
    obtain ⟨k, hk⟩ := List.getElem?_of_mem hx
    rw [List.getElem?_zip_eq_some] at hk
    obtain ⟨w, hcd⟩ := (k3 x).1 (List.mem_of_getElem? hk.1)
    obtain ⟨_, u, hu, hd⟩ := chartDerives_word hcd
    have hd := hd [] [] rfl
    rw [List.nil_append, List.append_nil] at hd
    have hu : u.length = word.length := by omega
    rw [← hu] at hd
    have hv : treeWord A.brackets x = some v := by
      obtain ⟨g1, e1⟩ := List.getElem?_eq_some_iff.1 hk.1
      obtain ⟨g2, e2⟩ := List.getElem?_eq_some_iff.1 hk.2
      have := (List.forall₂_iff_get.1 k4).2 k g1 g2
      simp only [List.get_eq_getElem, e1, e2] at this
      exact this
    obtain ⟨rid, P, _, c1, c2⟩ := Props.derives_anyWeights hA hlen hd
    rw [hv, Option.some.injEq] at c2
    subst c2
    rcases word_anyWeights hg c1 with e1 | ⟨m, d, es, r, comp, e1, e2, e3, e4, e6, e7, e8, e9⟩
    · exact ⟨none, e1, rid, P, rfl, hv, fun y hy => by cases hy⟩
    · exact ⟨some (.node rid es, d, m), e1, rid, P, rfl, hv, fun y hy => by
        cases hy
        exact ⟨e3, e2, ⟨u, e4, hu⟩, e6, es, r, comp, rfl, e7, e8, e9⟩⟩
  obtain ⟨os, hos⟩ := exists_forall₂ (R := fun (x : BinTree × List (Bracket BracketContent)) o => Good x.1 x.2 o) _ hgood
  have hlw := k4.length_eq
  have hwos : List.Forall₂ (fun v (o : Option Y) => toderiv g.rules v = some (o.map fun y => y.2.2)) words os := by
    rw [← List.map_snd_zip (l₁ := ts) (l₂ := words) (by omega), List.forall₂_map_left_iff]
    exact hos.imp fun x o h => h.1
  have hwos' : List.Forall₂ (fun v o => toderiv g.rules v = some o) words (os.map fun o => o.map fun y => y.2.2) := by
    rw [List.forall₂_map_right_iff]
    exact hwos
  have hone : ∀ y ∈ os.filterMap id, ∃ x v, Good x v (some y) := by
    intro y hy
    rw [List.mem_filterMap] at hy
    obtain ⟨o, hm, hy⟩ := hy
    simp only [id_eq] at hy
    subst hy
    obtain ⟨k, hk⟩ := List.getElem?_of_mem hm
    obtain ⟨hlt, hk⟩ := List.getElem?_eq_some_iff.1 hk
    have hr := (List.forall₂_iff_get.1 hos).2 k (hos.length_eq ▸ hlt) hlt
    simp only [List.get_eq_getElem, hk] at hr
    exact ⟨_, _, hr⟩
  have hres : ParsedLength g.rules g.init word ((os.filterMap id).map fun y => (y.1, y.2.1)) ((os.filterMap id).map fun y => y.2.2) := by
    constructor
    · intro e d hy
      rw [List.mem_map] at hy
      obtain ⟨y, hy, he⟩ := hy
      cases he
      obtain ⟨x, v, _, rid, P, _, _, e4⟩ := hone y hy
      obtain ⟨_, _, f3, f5, _⟩ := e4 y rfl
      exact ⟨f5, f3⟩
    · rw [List.forall₂_map_left_iff, List.forall₂_map_right_iff, List.forall₂_same]
      intro y hy
      obtain ⟨x, v, _, rid, P, _, _, e4⟩ := hone y hy
      obtain ⟨f1, f2, _⟩ := e4 y rfl
      exact ⟨f2, f1⟩
  have hpair : (((os.filterMap id).map fun y => (y.1, y.2.1)).map Prod.snd).Pairwise Q := by
    rw [List.map_map, List.pairwise_map, List.pairwise_filterMap]
    refine pairwise_forall₂ (S := fun x x' : BinTree × List (Bracket BracketContent) => ∀ d d', ReadOff A g.rules g.init x.1 d →
      ReadOff A g.rules g.init x'.1 d' → Q d d') hos ?_ ?_
    · rw [← List.pairwise_map (f := Prod.fst) (R := fun t t' => ∀ d d', ReadOff A g.rules g.init t d → ReadOff A g.rules g.init t' d' → Q d d'),
        List.map_fst_zip (by omega)]
      exact kQ
    · intro x x' o o' hx hx' hS y hy y' hy'
      refine hS _ _ ?_ ?_
      · obtain ⟨_, rid, P, rfl', hv, h⟩ := hx
        obtain ⟨_, _, ⟨u, f3, _⟩, f5, es, r, comp, f6, f7, f8, f9⟩ := h y hy
        exact ⟨rid, P, es, r, comp, u, rfl' ▸ hv, f3, f6 ▸ f5, f7, f8, f9⟩
      · obtain ⟨_, rid, P, rfl', hv, h⟩ := hx'
        obtain ⟨_, _, ⟨u, f3, _⟩, f5, es, r, comp, f6, f7, f8, f9⟩ := h y' hy'
        exact ⟨rid, P, es, r, comp, u, rfl' ▸ hv, f3, f6 ▸ f5, f7, f8, f9⟩
  refine ⟨_, _, hres, hpair, fun hz h0 hst hdel e d => ?_, words.length, fuel₀, fun m fuel hfuel => ?_⟩
  · rw [List.mem_map]
    rintro ⟨hnum, hder⟩
    obtain ⟨rid, es⟩ := e
    obtain ⟨r, comp, P, m, q, t, w, c1, c2, c3, c6, q1, q2, q3⟩ := derivation_anyWeights hlen h1 h3 ho hg hmk hm1 hder hnum
    have hq : q = A.initial := (List.getElem?_inj (List.getElem?_eq_some_iff.1 q1).1 hnd).1 (q1.trans hin.symm)
    subst hq
    rw [← h6] at q2
    rw [← hbr] at q3
    have hcd' : ChartDerives (buGrammar A mask) (fun i j q => ∃ w, chart.getWeight i j q = some (some w)) 0 word.length A.initial t w := by
      have hd' := Props.C41_no_parse_lost hA hw houts q2 (derives_ne_zero hA h0 q2)
      refine derives_chart (fun i j q t w hd => ?_) hd'
      obtain ⟨_, w', e, _⟩ := Props.C42_best_partial hA hn (hdel ▸ hc) hst ((Props.leOne_of_factors hA hw).chains mask) hd (derives_ne_zero hA h0 hd)
      exact ⟨w', e⟩
    obtain ⟨k, hk⟩ := List.getElem?_of_mem ((k3 t).2 ⟨w, hcd'⟩)
    obtain ⟨hlt, hk⟩ := List.getElem?_eq_some_iff.1 hk
    have hlo := hos.length_eq
    rw [List.length_zip] at hlo
    have hr := (List.forall₂_iff_get.1 hos).2 k (by rw [List.length_zip]; omega) (by omega)
    simp only [List.get_eq_getElem, List.getElem_zip, hk] at hr
    obtain ⟨e0, rid', P', e1, e2, e4⟩ := hr
    rw [e1, q3, Option.some.injEq] at e2
    obtain ⟨rfl, rfl⟩ := compWord_inj e2
    rw [e1, c6, Option.some.injEq] at e0
    cases ho' : os[k] with
    | none => rw [ho'] at e0; cases e0
    | some y =>
      obtain ⟨_, _, ⟨u, f3, _⟩, f5, es', r', comp', f6, f7, f8, f9⟩ := e4 y ho'
      refine ⟨y, ?_, ?_⟩
      · rw [List.mem_filterMap]
        exact ⟨os[k], List.getElem_mem _, by rw [ho']; rfl⟩
      · rw [c1, Option.some.injEq] at f7
        subst f7
        rw [c2, Option.some.injEq] at f8
        subst f8
        rw [f6] at f5
        obtain ⟨rfl, rfl⟩ := encodes_numbers hg.lcfrs hne f3 hder f5 hnum c1 c2 f9 c3
        rw [f6]
  · have hgen : (⟨A, outs, masks, g.rules⟩ : CsRep N T W).generate o word fuel m = some ((List.range m).map fun k => words[k]?) := by
      unfold CsRep.generate
      simp only [hm1, hc]
      exact k5 m fuel hfuel
    have hmap : (os.filterMap id).map (fun y : Y => y.2.2) = (os.map fun o => o.map fun y : Y => y.2.2).filterMap id := by
      rw [List.map_filterMap, List.filterMap_map]
      rfl
    unfold CsRep.parses
    rw [hgen, Option.bind_some, untilNone_range, hmap]
    constructor
    · have hlim : ∃ k, o.limit (words.take m) = words.take k := by
        unfold CsOptions.limit
        cases o.candidates with
        | none => exact ⟨m, rfl⟩
        | some c => exact ⟨min c m, by simp only [List.take_take]⟩
      obtain ⟨k, hk⟩ := hlim
      obtain ⟨k', hk'⟩ := filterMap_take (os.map fun o => o.map fun y : Y => y.2.2) k
      exact ⟨k', by rw [hk, filterMapP_of_forall₂ (List.forall₂_take k hwos'), hk']⟩
    · intro hcand hm
      simp only [CsOptions.limit, hcand]
      rw [List.take_of_length_le hm, filterMapP_of_forall₂ hwos']

/-- The parser returns derivations of sentences with the same number of words, without pruning all derivations of the sentence. -/
theorem parses_each (hR : CsRep.new factorize order g width = some R) (ho : HashOrder order) (hlen : ∀ w n, (factorize w n).length = n)
    (hg : ParserGrammar g.rules g.init) (hw : Props.FactorsLeOne factorize (indexed g.rules)) (hcyc : NoVariableCycle g.rules) {word : List T} (hn0 : 0 < word.length)
    (hn : word.length ≤ 255) {o : CsOptions W} (hb0 : 0 < o.beam.getD R.generator.states) (hs : o.beam.getD R.generator.states ≤ 65535) :
    ∃ ds out, ParsedLength g.rules g.init word ds out ∧
      (NoZeroDivisors W → FactorsNeZero factorize g.rules → R.generator.states ≤ o.beam.getD R.generator.states → o.delta = 0 →
        ∀ e d, Numbers g.rules e d ∧ Derives g.rules g.init d [word] → (e, d) ∈ ds) ∧
      ∃ m₀ fuel₀, ∀ m, ∀ fuel ≥ fuel₀,
      (∃ k, R.parses o word fuel m = some (out.take k)) ∧ (o.candidates = none → m₀ ≤ m → R.parses o word fuel m = some out) := by
  obtain ⟨ds, out, h1, _, h2⟩ := parses_core hR ho hlen hg hw hn0 hn hb0 hs (Q := fun _ _ => True) (by
    intro A chart mask outs hA _ hi hml hc
    obtain ⟨st, ps, h1, h2, _⟩ := CsAutomaton.fromGrammar_rep hA
    obtain ⟨hget, hsup⟩ := fillChart_supported h2.buWF hn hc
    obtain ⟨ts, words, h⟩ := enumeratesEach h1 h2 hi hml hget hsup (noChainCycle_of hA hcyc mask) hn0 hn
    exact ⟨ts, words, List.pairwise_iff_getElem.2 fun _ _ _ _ _ _ _ _ _ => trivial, h⟩)
  exact ⟨ds, out, h1, h2⟩

end

end Rustomata
