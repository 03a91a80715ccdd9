import Verif.Proofs.CsTotal
import Verif.Proofs.CsSpell
import Verif.Proofs.CsInject
import Verif.Props.CsRuleMask
import Verif.Props.CsToderiv
import Verif.Spec.CsParse

/-!
# From sentences to derivations
-/

namespace Rustomata
open Spec

section
variable {N T W : Type _} [DecidableEq N] [DecidableEq T]

theorem indexed_ids {R : Type _} (rules : List R) : ((indexed rules).map Prod.fst).Nodup := by
  have : (indexed rules).map Prod.fst = List.range rules.length := by
    unfold indexed
    rw [List.map_map, List.range_eq_range']
    exact List.zipIdx_map_snd 0 rules
  rw [this]
  exact List.nodup_range

theorem indexed_snd {R : Type _} (rules : List R) : (indexed rules).map Prod.snd = rules := by
  unfold indexed
  rw [List.map_map]
  exact List.zipIdx_map_fst 0 rules

theorem indexed_split {R : Type _} {rules : List R} {rid : Nat} {r : R} (h : rules[rid]? = some r) :
    ∃ pre post, indexed rules = pre ++ (rid, r) :: post := List.append_of_mem (mem_indexed.2 h)

/-- The mask keeps the rules of derivations, and it is empty for words over which the initial nonterminal is not productive. -/
theorem mask_spec [One W] {order : Nat → List Nat → List Nat} {rules : List (PMCFGRule N T W)} {init : N} {b : RuleMaskBuilder T} {factorize : W → Nat → List W}
    (hlen : ∀ w n, (factorize w n).length = n) {st : List (CsState N)} {ps : List (CsProd N T W × TdBrackets)}
    (hps : grammarProds factorize (indexed rules) = some ps) (hst : ∀ p ∈ ps, ∀ s ∈ p.1.symbols, s ∈ st)
    (ho : HashOrder order) (hg : ParserGrammar rules init) (hb : RuleMaskBuilder.new order rules init = some b) (word : List T) :
    ∃ mask, b.build word = some mask ∧ mask.length = ps.length ∧ (∀ k : Nat, mask[k]? = some true → DerivesOver rules word init) ∧
      (DerivesOver rules word init → ∀ rid r, rules[rid]? = some r → UsefulReach rules word init r.head → (∀ B ∈ r.tail, DerivesOver rules word B) →
        ∀ p, ProdOf factorize (rid, r) p → (∀ s ∈ p.1.symbols, s ∈ st) ∧ ∃ k : Nat, ps[k]? = some p ∧ mask[k]? = some true) := by
  obtain ⟨V, h1, h2⟩ := RuleMaskBuilder.new_rep ho hb
  obtain ⟨mask, h3, h4, h5⟩ := RuleMaskBuilder.build_spec h1 h2 word
  refine ⟨mask, h3, ?_, fun k hk => ?_, fun hp rid r hr hu ht p hpr => ?_⟩
  · rw [grammarProds_length hlen _ hps, h4]
    conv_lhs => rw [← indexed_snd rules]
    unfold idOffset
    rw [List.take_length, List.map_map]
    rfl
  · by_contra hno
    obtain ⟨mask', g1, g2⟩ := Props.C40_unproductive ho hg hb word hno
    rw [h3, Option.some.injEq] at g1
    subst g1
    exact g2 k hk
  · obtain ⟨mask', g1, g2⟩ := Props.C40_mask ho hg hb word hp
    rw [h3, Option.some.injEq] at g1
    subst g1
    obtain ⟨_, g3⟩ := g2 factorize hlen (indexed rules) (indexed_snd rules)
    obtain ⟨pre, post, hsp⟩ := indexed_split hr
    have hps' := hps
    rw [hsp] at hps'
    obtain ⟨ps₁, ps₂, k1, k2, k3⟩ := grammarProds_at hps'
    obtain ⟨k, k4, k5, k6⟩ := k3 p hpr
    exact ⟨hst p (List.mem_of_getElem? k6), k, k6, (g3 pre (rid, r) post ps₁ ps₂ hsp k1 k2 k k4 k5).2 ⟨hu, ht⟩⟩

end

section
variable {N T W : Type _} [DecidableEq N] [DecidableEq T] [One W] {factorize : W → Nat → List W}
  {rules : List (PMCFGRule N T W)} {init : N} {A : CsAutomaton T W}

omit [DecidableEq N] [DecidableEq T] in
/-- The rule of a production. -/
theorem prod_rule {ps : List (CsProd N T W × TdBrackets)} (hps : grammarProds factorize (indexed rules) = some ps) {k : Nat} {p : CsProd N T W}
    (h : (ps[k]?).map Prod.fst = some p) : ∃ b rid r, rules[rid]? = some r ∧ ProdOf factorize (rid, r) (p, b) := by
  rw [Option.map_eq_some_iff] at h
  obtain ⟨⟨p', b⟩, h1, rfl⟩ := h
  obtain ⟨⟨rid, r⟩, h2, h3⟩ := (grammarProds_mem _ hps).1 (List.mem_of_getElem? h1)
  exact ⟨b, rid, r, mem_indexed.1 h2, h3⟩

theorem noChainCycle_of (h : CsAutomaton.fromGrammar factorize (indexed rules) init = some A) (hc : NoVariableCycle rules) (filter : List Bool) :
    NoChainCycle (buGrammar A filter) := by
  obtain ⟨st, ps, h1, h2, _⟩ := CsAutomaton.fromGrammar_rep h
  obtain ⟨rank, hrank⟩ := hc
  refine ⟨fun q => match st[q]? with | some (.non A c) => rank A c | _ => 0, fun k q q₁ w hu => ?_⟩
  rw [h2.grammar] at hu
  obtain ⟨_, Q, S, g1, g2, g3⟩ := hu
  obtain ⟨b, rid, r, g4, cid, c, f, g5, g6, g7⟩ := prod_rule h1 g1
  cases g7 with
  | unary hn =>
    simp only [g2, g3]
    exact hrank r (List.mem_of_getElem? g4) _ _ _ _ g5 hn

theorem terminalDet_of (h : CsAutomaton.fromGrammar factorize (indexed rules) init = some A) (hg : ParserGrammar rules init) (hc : Preterminals rules)
    (filter : List Bool) : TerminalDet (buGrammar A filter) := by
  obtain ⟨st, ps, h1, h2, _⟩ := CsAutomaton.fromGrammar_rep h
  intro k q a w hn
  rw [h2.grammar] at hn ⊢
  obtain ⟨_, Q, g1, g2⟩ := hn
  obtain ⟨b, rid, r, g4, cid, c, f, g5, g6, g7⟩ := prod_rule h1 g1
  cases g7
  have hr := List.mem_of_getElem? g4
  have hcomp : r.composition = [[.t a]] := by
    rcases (hg.normal r hr).2.2 with ⟨a', h3⟩ | h3
    · simp only [h3] at g5
      have := List.mem_of_getElem? g5
      rw [List.mem_singleton] at this
      cases this
      exact h3
    · obtain ⟨i, j, h4⟩ := h3 _ (List.mem_of_getElem? g5) (.t a) (by simp)
      cases h4
  refine ⟨fun k' a' w' hn' => ?_, fun k' q₁ w' hu => ?_⟩
  · obtain ⟨_, Q', e1, e2⟩ := hn'
    rw [g2, Option.some.injEq] at e2
    subst e2
    obtain ⟨b', rid', r', e4, cid', c', f', e5, e6, e7⟩ := prod_rule h1 e1
    generalize hQ : CsState.non r.head cid = Q at e7
    simp only at e7
    cases e7
    rw [CsState.non.injEq] at hQ
    rw [hc r hr a hcomp r' (List.mem_of_getElem? e4) hQ.1.symm] at e5
    have := List.mem_of_getElem? e5
    rw [List.mem_singleton] at this
    cases this
    rfl
  · obtain ⟨_, Q', S, e1, e2, e3⟩ := hu
    rw [g2, Option.some.injEq] at e2
    subst e2
    obtain ⟨b', rid', r', e4, cid', c', f', e5, e6, e7⟩ := prod_rule h1 e1
    generalize hQ : CsState.non r.head cid = Q at e7
    simp only at e7
    cases e7 with
    | unary hh =>
      rw [CsState.non.injEq] at hQ
      rw [hc r hr a hcomp r' (List.mem_of_getElem? e4) hQ.1.symm] at e5
      have := List.mem_of_getElem? e5
      rw [List.mem_singleton] at this
      cases this

theorem initial_lt (h : CsAutomaton.fromGrammar factorize (indexed rules) init = some A) (hg : ParserGrammar rules init)
    (hlen : ∀ w n, (factorize w n).length = n) : A.initial < A.states := by
  obtain ⟨st, ps, h1, _, h3, h4, _, _, h5, _⟩ := Props.C42_tables h
  rw [h5]
  obtain ⟨fan, g1, g2, _⟩ := hg.lcfrs
  obtain ⟨r, hr, hh, hl⟩ := (g1 init 1).1 g2
  obtain ⟨rid, hrid⟩ := List.getElem?_of_mem hr
  have hc := List.getElem?_eq_getElem (show 0 < r.composition.length by omega)
  have hf := List.getElem?_eq_getElem (show 0 < (factorize r.weight r.composition.length).length by rw [hlen]; omega)
  have key : ∃ p, ProdOf factorize (rid, r) p ∧ prodLhs p.1 = .non init 0 := by
    rcases grammarProds_simple _ h1 (rid, r) (mem_indexed.2 hrid) 0 _ _ hc hf with ⟨a, ha⟩ | ⟨hne, vs, hvs⟩
    · rw [ha] at hc
      exact ⟨_, ⟨0, _, _, hc, hf, .nullary⟩, by rw [← hh]; rfl⟩
    · generalize hcc : r.composition[0] = c at *
      match c, vs, hvs with
      | [], _, _ => exact absurd rfl hne
      | [_], _, .cons hv .nil =>
        obtain ⟨i, j, n, rfl, hn, rfl⟩ := varSymbol_some hv
        exact ⟨_, ⟨0, _, _, hc, hf, .unary hn⟩, by rw [← hh]; rfl⟩
      | _ :: _ :: c, v :: v' :: vs, hvs =>
        refine ⟨_, ⟨0, _, _, hc, hf, .binary hvs (k := vs.length) (q₀ := v) (q := (v' :: vs)[vs.length]) rfl ?_⟩, ?_⟩
        · rw [List.getElem?_cons_succ]
          exact List.getElem?_eq_getElem (by simp)
        · simp [prodLhs, hh]
  obtain ⟨p, k1, k2⟩ := key
  refine h3 p ((grammarProds_mem _ h1).2 ⟨_, mem_indexed.2 hrid, k1⟩) _ ?_
  rw [← k2]
  obtain ⟨p, b⟩ := p
  cases p <;> simp [prodLhs, CsProd.symbols]

end

section
variable {N T W : Type _} [DecidableEq N] [DecidableEq T] [RoundedWeight W] {factorize : W → Nat → List W}
  {rules : List (PMCFGRule N T W)} {init : N} {A : CsAutomaton T W}

/-- All factors of all weights are different from zero. -/
def FactorsNeZero (factorize : W → Nat → List W) (rules : List (PMCFGRule N T W)) : Prop :=
  ∀ r ∈ rules, ∀ w ∈ factorize r.weight r.composition.length, w ≠ 0

omit [DecidableEq N] [DecidableEq T] in
theorem prod_ne_zero {r : Nat × PMCFGRule N T W} {p : CsProd N T W × TdBrackets} (h : ProdOf factorize r p)
    (h0 : ∀ w ∈ factorize r.2.weight r.2.composition.length, w ≠ 0) : p.1.weight ≠ 0 := by
  obtain ⟨cid, c, w, _, h2, h3⟩ := h
  have hw := h0 w (List.mem_of_getElem? h2)
  have h1 : (1 : W) ≠ 0 := fun h => hw (by rw [← mul_one w, h, mul_zero])
  cases h3 with
  | nullary => exact hw
  | unary _ => exact hw
  | binary _ _ _ =>
    simp only [CsProd.weight]
    split
    · exact hw
    · exact h1

theorem derives_ne_zero [NoZeroDivisors W] (h : CsAutomaton.fromGrammar factorize (indexed rules) init = some A) (h0 : FactorsNeZero factorize rules)
    {filter : List Bool} {word : List T} {ok : Nat → Nat → Nat → Prop} {i j q : Nat} {t : BinTree} {w : W}
    (hd : (buGrammar A filter).Derives word ok i j q t w) : w ≠ 0 := by
  obtain ⟨st, ps, h1, h2, _⟩ := CsAutomaton.fromGrammar_rep h
  rw [h2.grammar] at hd
  have key : ∀ (k : Nat) p, (ps[k]?).map Prod.fst = some p → p.weight ≠ 0 := by
    intro k p hk
    obtain ⟨b, rid, r, g1, g2⟩ := prod_rule h1 hk
    exact prod_ne_zero g2 (h0 r (List.mem_of_getElem? g1))
  induction hd with
  | nullary _ hr _ =>
    obtain ⟨_, _, g1, _⟩ := hr
    exact key _ _ g1
  | unary hr _ _ ih =>
    obtain ⟨_, _, _, g1, _⟩ := hr
    exact mul_ne_zero (key _ _ g1) ih
  | binary hr _ _ _ ih₁ ih₂ =>
    obtain ⟨_, _, _, _, g1, _⟩ := hr
    exact mul_ne_zero (mul_ne_zero (key _ _ g1) ih₁) ih₂

omit [DecidableEq N] in
/-- Derivations all of whose parts are in the chart. -/
theorem derives_chart {G : BinGrammar T W} {inChart : Nat → Nat → Nat → Prop} {word : List T} {ok : Nat → Nat → Nat → Prop}
    (hin : ∀ i j q t w, G.Derives word ok i j q t w → inChart i j q) {i j q : Nat} {t : BinTree} {w : W} (hd : G.Derives word ok i j q t w) :
    ChartDerives G inChart i j q t w := by
  induction hd with
  | nullary _ hr _ => exact .nullary hr
  | unary hr _ hd ih => exact .unary hr (hin _ _ _ _ _ hd) ih
  | binary hr _ hd₁ hd₂ ih₁ ih₂ => exact .binary hd₁.span.1 hd₂.span.1 hr (hin _ _ _ _ _ hd₁) (hin _ _ _ _ _ hd₂) ih₁ ih₂

end

section
variable {N T W : Type _} [DecidableEq N] [DecidableEq T] [Zero W] [One W] [CommMagma W] [LinearOrder W] {factorize : W → Nat → List W}
  {rules : List (PMCFGRule N T W)} {init : N} {A : CsAutomaton T W}

/-- The derivations in the chart are derivations of the word. -/
theorem chart_sound (h : CsAutomaton.fromGrammar factorize (indexed rules) init = some A) (hg : ParserGrammar rules init)
    (hpre : Preterminals rules) {outs : SxOutside W} {word : List T} {beam : Nat} {delta : W}
    {mask : List Bool} (hm : ∀ k : Nat, mask[k]? = some true → DerivesOver rules word init) {chart : DenseChart W} (hn : word.length ≤ 255)
    (hc : fillChart A word beam delta outs mask = some chart) (hi : A.initial < A.states) {t : BinTree} {w : W}
    (h1 : ChartDerives (buGrammar A mask) (fun i j q => ∃ w, chart.getWeight i j q = some (some w)) 0 word.length A.initial t w) :
      (buGrammar A mask).Derives word (fun _ _ _ => True) 0 word.length A.initial t w := by
  have hT := fun i q rid a v (hi : i < word.length) hq hr =>
    Props.C44_terminals (i := i) (q := q) (rid := rid) (a := a) (v := v) h hn hc (terminalDet_of h hg hpre mask) hi hq hr
  generalize hi' : (0 : Nat) = i at h1
  generalize hj : word.length = j at h1
  cases h1 with
  | @nullary _ _ k a _ hr =>
    refine .nullary ?_ hr trivial
    subst hi'
    obtain ⟨st, ps, g1, g2, _, _, _, g3, _, g4⟩ := Props.C42_tables h
    have hr' := hr
    rw [g3] at hr'
    obtain ⟨hk, Q, e1, e2⟩ := hr'
    obtain ⟨b, rid, r, e3, e4⟩ := prod_rule g1 e1
    rw [g4 hi, Option.some.injEq] at e2
    subst e2
    obtain ⟨cid, c, f, e5, e6, e7⟩ := e4
    generalize hQ : CsState.non init 0 = Q at e7
    simp only at e7
    cases e7
    rw [CsState.non.injEq] at hQ
    have hrm := List.mem_of_getElem? e3
    have hcomp : r.composition = [[.t a]] := by
      rcases (hg.normal r hrm).2.2 with ⟨a', h3⟩ | h3
      · simp only [h3] at e5
        have := List.mem_of_getElem? e5
        rw [List.mem_singleton] at this
        cases this
        exact h3
      · obtain ⟨i, j, h4⟩ := h3 _ (List.mem_of_getElem? e5) (.t a) (by simp)
        cases h4
    obtain ⟨d, v, hd, hv⟩ := hm k hk
    obtain ⟨r', k1, k2, ds, args, _, _, k3⟩ := derives_inv hd
    have k4 := hpre r hrm a hcomp r' k1 (k2.trans hQ.1)
    rw [k4] at k3
    simp [compose, substAll, subst] at k3
    subst k3
    have := hv [a] (by simp) a (by simp)
    have hl : word.length = 1 := by omega
    obtain ⟨x, rfl⟩ := List.length_eq_one_iff.1 hl
    rw [List.mem_singleton] at this
    simp [this]
  | unary g1 g2 g3 => exact .unary g1 trivial (chartDerives_derives hT g3 g2 (by omega))
  | binary g1 g2 g3 g4 g5 g6 g7 => exact .binary g3 trivial (chartDerives_derives hT g6 g4 (by omega)) (chartDerives_derives hT g7 g5 (by omega))

end

section
variable {N T W : Type _} [DecidableEq N] [DecidableEq T] [RoundedWeight W] {factorize : W → Nat → List W}
  {rules : List (PMCFGRule N T W)} {init : N} {A : CsAutomaton T W}

/-- Without pruning, the derivations in the chart are the derivations of the word. -/
theorem chart_iff [NoZeroDivisors W] (h : CsAutomaton.fromGrammar factorize (indexed rules) init = some A) (hg : ParserGrammar rules init)
    (hw : Props.FactorsLeOne factorize (indexed rules)) (h0 : FactorsNeZero factorize rules) (hpre : Preterminals rules)
    {maxrange : Nat} {outs : SxOutside W} (ho : SxOutside.fromAutomaton A maxrange = some outs) {word : List T} {beam : Nat} (hb : A.states ≤ beam)
    {mask : List Bool} (hm : ∀ k : Nat, mask[k]? = some true → DerivesOver rules word init) {chart : DenseChart W} (hn : word.length ≤ 255)
    (hc : fillChart A word beam 0 outs mask = some chart) (hi : A.initial < A.states) {t : BinTree} {w : W} :
    ChartDerives (buGrammar A mask) (fun i j q => ∃ w, chart.getWeight i j q = some (some w)) 0 word.length A.initial t w ↔
      (buGrammar A mask).Derives word (fun _ _ _ => True) 0 word.length A.initial t w := by
  constructor
  · exact chart_sound h hg hpre hm hn hc hi
  · intro hd
    have hd' := Props.C41_no_parse_lost h hw ho hd (derives_ne_zero h h0 hd)
    refine derives_chart (fun i j q t w hd => ?_) hd'
    obtain ⟨_, w', e, _⟩ := Props.C42_best_partial h hn hc hb ((Props.leOne_of_factors h hw).chains mask) hd (derives_ne_zero h h0 hd)
    exact ⟨w', e⟩

end

end Rustomata
