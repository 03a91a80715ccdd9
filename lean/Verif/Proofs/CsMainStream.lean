import Verif.Proofs.CsMainAny
import Verif.Proofs.CsMainCycles
import Verif.Proofs.CsKBestStreamChart

/-!
# The parser for grammars with cycles and arbitrary terminal rules
-/

namespace Rustomata
open Spec

theorem untilNone_filterMap {α : Type _} : ∀ {l : List (Option α)}, (l.Pairwise fun a b => a = none → b = none) → untilNone l = l.filterMap id
  | [], _ => rfl
  | none :: l, h => by
    rw [List.pairwise_cons] at h
    simp only [untilNone, List.filterMap_cons, id_eq]
    exact (List.filterMap_eq_nil_iff.2 fun a ha => h.1 a ha rfl).symm
  | some a :: l, h => by
    rw [List.pairwise_cons] at h
    simp [untilNone, untilNone_filterMap h.2]

theorem stream_take {α : Type _} {f : Nat → Option α} (hf : ∀ k k', k ≤ k' → f k = none → f k' = none) (c : Nat) :
    ∀ m, ((List.range m).filterMap f).take c = (List.range (min c m)).filterMap f := by
  have hlen : ∀ m, (((List.range m).filterMap f).length = m ∨ f m = none) ∧ ((List.range m).filterMap f).length ≤ m := by
    intro m
    refine ⟨?_, (List.length_filterMap_le _ _).trans (by simp)⟩
    induction m with
    | zero => exact .inl rfl
    | succ m ih =>
      rw [List.range_succ, List.filterMap_append, List.length_append]
      cases h : f m with
      | none => exact .inr (hf m _ (Nat.le_succ _) h)
      | some a =>
        rcases ih with ih | ih
        · simp [ih, h]
        · rw [ih] at h; cases h
  intro m
  induction m with
  | zero => simp
  | succ m ih =>
    rw [List.range_succ, List.filterMap_append, List.take_append, ih]
    rcases Nat.lt_or_ge m c with hc | hc
    · rw [min_eq_right (by omega), min_eq_right (by omega), List.range_succ, List.filterMap_append]
      congr 1
      rw [List.take_of_length_le]
      have := (hlen m).2
      exact (List.length_filterMap_le _ _).trans (by simp; omega)
    · rw [min_eq_left hc, min_eq_left (by omega)]
      rcases (hlen m).1 with h | h
      · rw [h, Nat.sub_eq_zero_of_le hc]
        simp
      · simp [h]

theorem forall₂_filterMap_bind {α β γ : Type _} {f : α → Option β} {h : β → Option γ} {l : List α} (hl : ∀ k ∈ l, ∀ t, f k = some t → ∃ v, h t = some v) :
    List.Forall₂ (fun x v => h x = some v) (l.filterMap f) (l.filterMap fun k => (f k).bind h) := by
  induction l with
  | nil => exact .nil
  | cons a l ih =>
    have ih := ih fun k hk => hl k (List.mem_cons_of_mem _ hk)
    cases ha : f a with
    | none => simpa [List.filterMap_cons, ha] using ih
    | some t =>
      obtain ⟨v, hv⟩ := hl a (List.mem_cons_self ..) t ha
      simp only [List.filterMap_cons, ha, Option.bind_some, hv]
      exact .cons hv ih

section
variable {N T W : Type _} [DecidableEq N] [DecidableEq T] [LinearOrderedCommMonoidWithZero W] {factorize : W → Nat → List W}
  {order : Nat → List Nat → List Nat} {g : Lcfrs N T W} {A : CsAutomaton T W} {mask : List Bool} {word : List T}

/-- The derivations of the words of candidates whose terminals need not be those of the sentence. -/
theorem candidates_parsed_any (hA : CsAutomaton.fromGrammar factorize (indexed g.rules) g.init = some A) (hfac : Factorizes factorize)
    (hg : ParserGrammar g.rules g.init) {inChart : Nat → Nat → Nat → Prop} {ts : List BinTree} {words : List (List (Bracket BracketContent))}
    (hder : ∀ x ∈ ts, ∃ w, ChartDerives (buGrammar A mask) inChart 0 word.length A.initial x w)
    (k4 : List.Forall₂ (fun x v => treeWord A.brackets x = some v) ts words) :
    ∃ ds out, ParsedLength g.rules g.init word ds out ∧ filterMapP (toderiv g.rules) words = some out ∧
      ∀ e d, Numbers g.rules e d → Derives g.rules g.init d [word] → ∀ x ∈ ts, CandidateOf A g.rules x e → (e, d) ∈ ds := by
  have hne : ∀ r ∈ g.rules, r.composition ≠ [] := fun r hr => (hg.normal r hr).1
  have hlen : ∀ w n, (factorize w n).length = n := fun w n => (hfac w n).1
  obtain ⟨st, ps, h1, hnd, h3, h4, hbr, h6, _, h7⟩ := Props.C42_tables hA
  -- the derivation of a word
  let Y := DTree Nat × DTree (PMCFGRule N T W) × GornTree (PMCFGRule N T W)
  let Good : BinTree → List (Bracket BracketContent) → Option Y → Prop := fun x v o =>
    toderiv g.rules v = some (o.map fun y => y.2.2) ∧ ∃ rid P, v = compWord rid 0 P ∧ treeWord A.brackets x = some v ∧
      ∀ y, o = some y → (∀ p, y.2.2.get p = y.2.1.at? p) ∧ y.2.2.Sorted ∧ (∃ u, Derives g.rules g.init y.2.1 [u] ∧ u.length = word.length) ∧ Numbers g.rules y.1 y.2.1 ∧
        ∃ es r comp, y.1 = .node rid es ∧ g.rules[rid]? = some r ∧ r.composition[0]? = some comp ∧ Encodes g.rules es comp P
  have hgood : ∀ x ∈ ts.zip words, ∃ o, Good x.1 x.2 o := by
    rintro ⟨x, v⟩ hx
    obtain ⟨k, hk⟩ := List.getElem?_of_mem hx
    rw [List.getElem?_zip_eq_some] at hk
    obtain ⟨w, hcd⟩ := hder x (List.mem_of_getElem? hk.1)
    obtain ⟨_, u, hu, hd⟩ := chartDerives_word hcd
    have hd := hd [] [] rfl
    rw [List.nil_append, List.append_nil] at hd
    have hu : u.length = word.length := by omega
    rw [← hu] at hd
    have hv : treeWord A.brackets x = some v := by
      obtain ⟨g1, e1⟩ := List.getElem?_eq_some_iff.1 hk.1
      obtain ⟨g2, e2⟩ := List.getElem?_eq_some_iff.1 hk.2
      have := (List.forall₂_iff_get.1 k4).2 k g1 g2
      simp only [List.get_eq_getElem, e1, e2] at this
      exact this
    obtain ⟨rid, P, c1, c2, _⟩ := Props.derives_compDerives hA (indexed_ids _) hd
    rw [hv, Option.some.injEq] at c2
    subst c2
    rcases Props.C45_word_partial hg.lcfrs hne hg.closed hfac c1 with ⟨e1, _⟩ | ⟨_, m, d, es, r, comp, e1, e2, e3, e4, e5, e6, e7, e8, e9⟩
    · exact ⟨none, e1, rid, P, rfl, hv, fun y hy => by cases hy⟩
    · exact ⟨some (.node rid es, d, m), e1, rid, P, rfl, hv, fun y hy => by
        cases hy
        exact ⟨e3, e2, ⟨u, e4, hu⟩, e6, es, r, comp, rfl, e7, e8, e9⟩⟩
  obtain ⟨os, hos⟩ := exists_forall₂ (R := fun (x : BinTree × List (Bracket BracketContent)) o => Good x.1 x.2 o) _ hgood
  have hlw := k4.length_eq
  have hwos : List.Forall₂ (fun v (o : Option Y) => toderiv g.rules v = some (o.map fun y => y.2.2)) words os := by
    rw [← List.map_snd_zip (l₁ := ts) (l₂ := words) (by omega), List.forall₂_map_left_iff]
    exact hos.imp fun x o h => h.1
  have hwos' : List.Forall₂ (fun v o => toderiv g.rules v = some o) words (os.map fun o => o.map fun y => y.2.2) := by
    rw [List.forall₂_map_right_iff]
    exact hwos
  have hone : ∀ y ∈ os.filterMap id, ∃ x v, Good x v (some y) := by
    intro y hy
    rw [List.mem_filterMap] at hy
    obtain ⟨o, hm, hy⟩ := hy
    simp only [id_eq] at hy
    subst hy
    obtain ⟨k, hk⟩ := List.getElem?_of_mem hm
    obtain ⟨hlt, hk⟩ := List.getElem?_eq_some_iff.1 hk
    have hr := (List.forall₂_iff_get.1 hos).2 k (hos.length_eq ▸ hlt) hlt
    simp only [List.get_eq_getElem, hk] at hr
    exact ⟨_, _, hr⟩
  have hres : ParsedLength g.rules g.init word ((os.filterMap id).map fun y => (y.1, y.2.1)) ((os.filterMap id).map fun y => y.2.2) := by
    constructor
    · intro e d hy
      rw [List.mem_map] at hy
      obtain ⟨y, hy, he⟩ := hy
      cases he
      obtain ⟨x, v, _, rid, P, _, _, e4⟩ := hone y hy
      obtain ⟨_, _, f3, f5, _⟩ := e4 y rfl
      exact ⟨f5, f3⟩
    · rw [List.forall₂_map_left_iff, List.forall₂_map_right_iff, List.forall₂_same]
      intro y hy
      obtain ⟨x, v, _, rid, P, _, _, e4⟩ := hone y hy
      obtain ⟨f1, f2, _⟩ := e4 y rfl
      exact ⟨f2, f1⟩
  have hmap : (os.filterMap id).map (fun y : Y => y.2.2) = (os.map fun o => o.map fun y : Y => y.2.2).filterMap id := by
    rw [List.map_filterMap, List.filterMap_map]
    rfl
  refine ⟨_, _, hres, by rw [filterMapP_of_forall₂ hwos', hmap], ?_⟩
  rintro e d hnum hder t hx ⟨rid, es, r, comp, P, rfl, c1, c2, c3, q3, m, c6⟩
  rw [List.mem_map]
  obtain ⟨k, hk⟩ := List.getElem?_of_mem hx
  obtain ⟨hlt, hk⟩ := List.getElem?_eq_some_iff.1 hk
  have hlo := hos.length_eq
  rw [List.length_zip] at hlo
  have hr := (List.forall₂_iff_get.1 hos).2 k (by rw [List.length_zip]; omega) (by omega)
  simp only [List.get_eq_getElem, List.getElem_zip, hk] at hr
  obtain ⟨e0, rid', P', e1, e2, e4⟩ := hr
  rw [e1, q3, Option.some.injEq] at e2
  obtain ⟨rfl, rfl⟩ := compWord_inj e2
  rw [e1, c6, Option.some.injEq] at e0
  cases ho' : os[k] with
  | none => rw [ho'] at e0; cases e0
  | some y =>
    obtain ⟨_, _, ⟨u, f3, _⟩, f5, es', r', comp', f6, f7, f8, f9⟩ := e4 y ho'
    refine ⟨y, ?_, ?_⟩
    · rw [List.mem_filterMap]
      exact ⟨os[k], List.getElem_mem _, by rw [ho']; rfl⟩
    · rw [c1, Option.some.injEq] at f7
      subst f7
      rw [c2, Option.some.injEq] at f8
      subst f8
      rw [f6] at f5
      obtain ⟨rfl, rfl⟩ := encodes_numbers hg.lcfrs hne f3 hder f5 hnum c1 c2 f9 c3
      rw [f6]

theorem rulesNeZero_of (h : CsAutomaton.fromGrammar factorize (indexed g.rules) g.init = some A) (h0 : FactorsNeZero factorize g.rules) (filter : List Bool) :
    RulesNeZero (buGrammar A filter) := by
  obtain ⟨st, ps, h1, h2, _⟩ := CsAutomaton.fromGrammar_rep h
  have key : ∀ (k : Nat) p, (ps[k]?).map Prod.fst = some p → p.weight ≠ 0 := by
    intro k p hk
    obtain ⟨b, rid, r, g1, g2⟩ := prod_rule h1 hk
    exact prod_ne_zero g2 (h0 r (List.mem_of_getElem? g1))
  rw [h2.grammar]
  refine ⟨?_, ?_, ?_⟩
  · rintro rid q a w ⟨_, _, g1, _⟩
    exact key _ _ g1
  · rintro rid q q₁ w ⟨_, _, _, g1, _⟩
    exact key _ _ g1
  · rintro rid q q₁ q₂ w ⟨_, _, _, _, g1, _⟩
    exact key _ _ g1

variable {R : CsRep N T W} {width : Nat}

/-- The parser for grammars with cycles and arbitrary terminal rules. -/
theorem parses_stream (hR : CsRep.new factorize order g width = some R) (ho : HashOrder order) (hfac : Factorizes factorize)
    (hg : ParserGrammar g.rules g.init) (hw : Props.FactorsLeOne factorize (indexed g.rules)) (hcyc : VariableCyclesLower factorize g.rules) (hn0 : 0 < word.length)
    (hn : word.length ≤ 255) {o : CsOptions W} (hb0 : 0 < o.beam.getD R.generator.states) (hs : o.beam.getD R.generator.states ≤ 65535) :
    ∃ (ds : Nat → List (DTree Nat × DTree (PMCFGRule N T W))) (out : Nat → List (GornTree (PMCFGRule N T W))),
      (∀ m, ParsedLength g.rules g.init word (ds m) (out m) ∧ ∃ fuel₀, ∀ fuel ≥ fuel₀, R.parses o word fuel m = some (out m)) ∧
      (NoZeroDivisors W → FactorsNeZero factorize g.rules → R.generator.states ≤ o.beam.getD R.generator.states → o.delta = 0 → o.candidates = none →
        VariableCyclesVanish factorize g.rules →
          ∀ e d, Numbers g.rules e d → Derives g.rules g.init d [word] → ∃ M, ∀ m ≥ M, (e, d) ∈ ds m) := by
  unfold CsRep.new at hR
  split at hR
  swap
  · cases hR
  split at hR
  swap
  · cases hR
  split at hR
  swap
  · cases hR
  rename_i _ _ A masks hA hmk
  change CsAutomaton.fromGrammar factorize (indexed g.rules) g.init = some A at hA
  rw [Option.map_eq_some_iff] at hR
  obtain ⟨outs, houts, rfl⟩ := hR
  simp only at hs hb0
  have hlen : ∀ w n, (factorize w n).length = n := fun w n => (hfac w n).1
  have hi := initial_lt hA hg hlen
  have hle := Props.leOne_of_factors hA hw
  obtain ⟨mask, hm1, hml⟩ : ∃ mask, masks.build word = some mask ∧ mask.length = A.brackets.length := by
    obtain ⟨st, ps, h1, hnd, h3, h4, hbr, h6, _, h7⟩ := Props.C42_tables hA
    obtain ⟨mask, hm1, hm2, hm3, hm4⟩ := mask_spec hlen h1 h3 ho hg hmk word
    exact ⟨mask, hm1, by rw [hm2, hbr, List.length_map]⟩
  obtain ⟨chart, hc⟩ := Props.C42_total hA hw hi houts (beam := o.beam.getD A.states) (delta := o.delta) hml hn hb0 hs
  obtain ⟨ts, ⟨k1, k2, _, k3⟩, k4⟩ : ∃ ts, EnumeratesStream A chart mask word.length ts ∧
      (NoZeroDivisors W → RulesLeOne (buGrammar A mask) → RulesNeZero (buGrammar A mask) → CyclesVanish (buGrammar A mask) →
        (∀ i j q w, i < j → j ≤ word.length → q < A.states → chart.getWeight i j q = some (some w) → w ≤ 1) →
        ∀ t w, ChartDerives (buGrammar A mask) (fun i j q => ∃ w, chart.getWeight i j q = some (some w)) 0 word.length A.initial t w → ∃ k, ts k = some t) := by
    obtain ⟨st, ps, h1, h2, _⟩ := CsAutomaton.fromGrammar_rep hA
    obtain ⟨hget, hreach⟩ := fillChart_reached h2.buWF hn hc
    exact enumeratesStream h1 h2 hi hml hget hreach (cyclesLower_of hA hcyc mask) hn0 hn
  have hstable : ∀ k k', k ≤ k' → (ts k).bind (treeWord A.brackets) = none → (ts k').bind (treeWord A.brackets) = none := by
    intro k k' hkk hk
    cases ht : ts k with
    | none => rw [k2 k k' hkk ht]; rfl
    | some t =>
      obtain ⟨v, hv⟩ := (k1 k t ht).2
      rw [ht, Option.bind_some, hv] at hk
      cases hk
  -- the candidates that are considered
  have hlim : ∀ m, ∃ c, ((List.range c).filterMap fun k => (ts k).bind (treeWord A.brackets)) =
      o.limit ((List.range m).filterMap fun k => (ts k).bind (treeWord A.brackets)) ∧ (o.candidates = none → c = m) := by
    intro m
    unfold CsOptions.limit
    cases hcand : o.candidates with
    | none => exact ⟨m, rfl, fun _ => rfl⟩
    | some c => exact ⟨min c m, (stream_take hstable c m).symm, nofun⟩
  choose c hc1 hc2 using hlim
  have hwd : ∀ m, List.Forall₂ (fun x v => treeWord A.brackets x = some v) ((List.range m).filterMap ts)
      ((List.range m).filterMap fun k => (ts k).bind (treeWord A.brackets)) := by
    intro m
    refine forall₂_filterMap_bind fun k _ t hk => ?_
    exact (k1 k t hk).2
  have hmem : ∀ m, ∀ x ∈ (List.range m).filterMap ts, ∃ k < m, ts k = some x := by
    intro m x hx
    rw [List.mem_filterMap] at hx
    obtain ⟨k, hk, e⟩ := hx
    exact ⟨k, List.mem_range.1 hk, e⟩
  have hpar := fun m => candidates_parsed_any (mask := mask) (word := word) hA hfac hg (ts := (List.range (c m)).filterMap ts)
    (words := (List.range (c m)).filterMap fun k => (ts k).bind (treeWord A.brackets))
    (fun x hx => by
      obtain ⟨k, _, hk⟩ := hmem _ x hx
      exact (k1 k x hk).1) (hwd _)
  choose ds out p1 p2 p3 using hpar
  refine ⟨ds, out, fun m => ⟨p1 m, ?_⟩, fun hz h0 hst hdel hcand hvan e d hnum hder => ?_⟩
  · obtain ⟨fuel₀, k3⟩ := k3 m
    refine ⟨fuel₀, fun fuel hfuel => ?_⟩
    have hgen : (⟨A, outs, masks, g.rules⟩ : CsRep N T W).generate o word fuel m = some ((List.range m).map fun k => (ts k).bind (treeWord A.brackets)) := by
      unfold CsRep.generate
      simp only [hm1, hc]
      exact k3 fuel hfuel
    unfold CsRep.parses
    rw [hgen, Option.bind_some, untilNone_filterMap, List.filterMap_map, Function.id_comp, ← hc1]
    · exact p2 m
    · rw [List.pairwise_map]
      refine List.pairwise_lt_range.imp fun {a b} hab ha => ?_
      exact hstable a b (le_of_lt hab) ha
  · obtain ⟨t, q1, q2⟩ := derivation_candidate hA hfac ho hg hmk hm1 hnum hder
    have hcd : ChartDerives (buGrammar A mask) (fun i j q => ∃ w, chart.getWeight i j q = some (some w)) 0 word.length A.initial t d.weight := by
      have hd' := Props.C41_no_parse_lost hA hw houts q2 (derives_ne_zero hA h0 q2)
      refine derives_chart (fun i j q t w hd => ?_) hd'
      obtain ⟨_, w', e, _⟩ := Props.C42_best_partial hA hn (hdel ▸ hc) hst (hle.chains mask) hd (derives_ne_zero hA h0 hd)
      exact ⟨w', e⟩
    have hone : ∀ i j q w, i < j → j ≤ word.length → q < A.states → chart.getWeight i j q = some (some w) → w ≤ 1 := by
      intro i j q w h1 h2 hq h3
      obtain ⟨o, e1, e2⟩ := (Props.C42_sound hA hn hc h1 h2).2 q hq
      rw [h3, Option.some.injEq] at e1
      obtain ⟨t, ht⟩ := e2 w e1.symm
      exact SxOutside.derives_le_one hle ht
    obtain ⟨k, hk⟩ := k4 hz (rulesLeOne_of hle mask) (rulesNeZero_of hA h0 mask) (cyclesVanish_of hA hvan mask) hone _ _ hcd
    refine ⟨k + 1, fun m hm => p3 m e d hnum hder t ?_ q1⟩
    rw [List.mem_filterMap]
    exact ⟨k, List.mem_range.2 (by rw [hc2 m hcand]; omega), hk⟩

end

end Rustomata
