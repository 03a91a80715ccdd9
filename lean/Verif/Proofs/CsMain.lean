import Verif.Proofs.CsEnd

/-!
# The parser returns the derivations of a sentence
-/

namespace Rustomata
open Spec

section
variable {X Y : Type _}

theorem untilNone_range (words : List X) (m : Nat) : untilNone ((List.range m).map fun k => words[k]?) = words.take m := by
  induction m generalizing words with
  | zero => simp [untilNone]
  | succ m ih =>
    rw [List.range_succ_eq_map, List.map_cons, List.map_map]
    cases words with
    | nil => simp [untilNone]
    | cons w words =>
      rw [List.getElem?_cons_zero, untilNone, List.take_succ_cons, ← ih words]
      congr 1

theorem filterMapP_of_forall₂ {f : X → Option (Option Y)} {l : List X} {os : List (Option Y)} (h : List.Forall₂ (fun x o => f x = some o) l os) :
    filterMapP f l = some (os.filterMap id) := by
  induction h with
  | nil => rfl
  | @cons x o l os h _ ih =>
    rw [filterMapP, h, ih]
    cases o <;> rfl

theorem pairwise_filterMap {Z : Type _} {R : X → Option Z → Prop} {S : X → X → Prop} {S' : Z → Z → Prop}
    (hS : ∀ x x' y y', R x (some y) → R x' (some y') → S x x' → S' y y') {l : List X} {os : List (Option Z)} (h : List.Forall₂ R l os)
    (hl : l.Pairwise S) : (os.filterMap id).Pairwise S' := by
  induction h with
  | nil => exact .nil
  | @cons x o l os h h' ih =>
    rw [List.pairwise_cons] at hl
    cases o with
    | none => exact ih hl.2
    | some y =>
      rw [show List.filterMap id (some y :: os) = y :: List.filterMap id os from rfl, List.pairwise_cons]
      refine ⟨fun y' hy' => ?_, ih hl.2⟩
      rw [List.mem_filterMap] at hy'
      obtain ⟨o, ho, hy'⟩ := hy'
      simp only [id_eq] at hy'
      subst hy'
      obtain ⟨k, hk⟩ := List.getElem?_of_mem ho
      obtain ⟨hlt, hk⟩ := List.getElem?_eq_some_iff.1 hk
      have hr := (List.forall₂_iff_get.1 h').2 k (h'.length_eq ▸ hlt) hlt
      simp only [List.get_eq_getElem, hk] at hr
      exact hS _ _ _ _ h hr (hl.1 _ (List.getElem_mem _))

theorem filterMap_take (os : List (Option Y)) (m : Nat) : ∃ k, (os.take m).filterMap id = (os.filterMap id).take k := by
  refine ⟨((os.take m).filterMap id).length, ?_⟩
  have h : os.filterMap id = (os.take m).filterMap id ++ (os.drop m).filterMap id := by
    rw [← List.filterMap_append, List.take_append_drop]
  rw [h, List.take_left]

end

section
variable {N T W : Type _}

theorem fits_restrict [Monoid W] {factorize : W → Nat → List W} {rules rules' : List (Nat × PMCFGRule N T W)} {tail : List N} {c : List (VarT T)} {P : Parts}
    {u : List T} {w : W} (h : Fits factorize rules tail c P u w) :
    ∀ q : List Nat, (∀ p rid r, (p, rid) ∈ P.visits q → (rid, r) ∈ rules → (rid, r) ∈ rules') → Fits factorize rules' tail c P u w := by
  induction h with
  | nil => intro q _; exact .nil
  | term _ ih => intro q hq; exact .term (ih q hq)
  | @part tail c comp i j rid r f P₁ P₂ u₁ u₂ w₁ w₂ h1 h2 h3 h4 _ _ ih₁ ih₂ =>
    intro q hq
    simp only [Spec.Parts.visits, List.cons_append, List.mem_cons, List.mem_append] at hq
    exact .part (hq _ _ _ (.inl rfl) h1) h2 h3 h4 (ih₁ (q ++ [i]) fun p rid r hp => hq p rid r (.inr (.inl hp)))
      (ih₂ q fun p rid r hp => hq p rid r (.inr (.inr hp)))

theorem compWord_root {rid rid' c : Nat} {P P' : Parts} (h : compWord rid c P = compWord rid' c P') : rid = rid' ∧ P.word rid = P'.word rid := by
  simp only [compWord, List.cons_append, List.cons.injEq, Bracket.open_.injEq, BracketContent.component.injEq, and_true] at h
  obtain ⟨rfl, h⟩ := h
  exact ⟨rfl, List.append_cancel_right h⟩

/-- The bracket word determines the parts. -/
theorem parts_word_inj : ∀ (P P' : Parts) (rid : Nat) (v v' : List (Bracket BracketContent)) (b b' : BracketContent),
    P.word rid ++ .close b :: v = P'.word rid ++ .close b' :: v' → P = P' ∧ v = v' := by
  intro P
  induction P with
  | nil =>
    intro P' rid v v' b b' h
    cases P' with
    | nil => simp only [Spec.Parts.word, List.nil_append, List.cons.injEq] at h; exact ⟨rfl, h.2⟩
    | term P' => simp [Spec.Parts.word] at h
    | part i j r P₁ P₂ => simp [Spec.Parts.word] at h
  | term P ih =>
    intro P' rid v v' b b' h
    cases P' with
    | nil => simp [Spec.Parts.word] at h
    | term P' =>
      simp only [Spec.Parts.word, List.cons_append, List.cons.injEq, true_and] at h
      obtain ⟨rfl, hv⟩ := ih P' rid v v' b b' h
      exact ⟨rfl, hv⟩
    | part i j r P₁ P₂ => simp [Spec.Parts.word] at h
  | part i j r P₁ P₂ ih₁ ih₂ =>
    intro P' rid v v' b b' h
    cases P' with
    | nil => simp [Spec.Parts.word] at h
    | term P' => simp [Spec.Parts.word] at h
    | part i' j' r' P₁' P₂' =>
      simp only [Spec.Parts.word, List.cons_append, List.append_assoc, List.cons.injEq, Bracket.open_.injEq, BracketContent.variable.injEq, true_and,
        BracketContent.component.injEq] at h
      obtain ⟨⟨rfl, rfl⟩, ⟨rfl, _⟩, h⟩ := h
      obtain ⟨rfl, h'⟩ := ih₁ _ _ _ _ _ _ h
      simp only [List.cons.injEq, true_and] at h'
      obtain ⟨rfl, hv⟩ := ih₂ _ _ _ _ _ _ h'
      exact ⟨rfl, hv⟩

theorem compWord_inj {rid rid' c : Nat} {P P' : Parts} (h : compWord rid c P = compWord rid' c P') : rid = rid' ∧ P = P' := by
  have h1 := (compWord_root h).1
  subst h1
  refine ⟨rfl, ?_⟩
  have h2 := (compWord_root h).2
  exact (parts_word_inj P P' rid [] [] .ignore .ignore (by rw [h2])).1

/-- The parts determine the numbers of the rules. -/
theorem encodes_numbers {rules : List (PMCFGRule N T W)} {init : N} (hl : IsLcfrs rules init) (hne : ∀ r ∈ rules, r.composition ≠ [])
    {d d' : DTree (PMCFGRule N T W)} {u u' : List T} (hd : Derives rules init d [u]) (hd' : Derives rules init d' [u']) {rid : Nat} {es es' : List (DTree Nat)}
    (hn : Numbers rules (.node rid es) d) (hn' : Numbers rules (.node rid es') d') {r : PMCFGRule N T W} {comp : List (VarT T)} {P : Parts}
    (hr : rules[rid]? = some r) (hc : r.composition[0]? = some comp) (hP : Encodes rules es comp P) (hP' : Encodes rules es' comp P) :
    es = es' ∧ d = d' := by
  have key : ∀ {d : DTree (PMCFGRule N T W)} {u : List T} {es : List (DTree Nat)}, Derives rules init d [u] → Numbers rules (.node rid es) d → Encodes rules es comp P →
      ∀ p x, (DTree.node rid es).at? p = some x ↔ (p = [] ∧ x = rid) ∨ (p, x) ∈ P.visits [] := by
    intro d u es hd hn hP p x
    obtain ⟨r', h1, h2, ds, args, rfl, _, h3⟩ := derives_inv hd
    obtain rfl : r = r' := by
      have := (numbers_node.1 hn).1
      rw [hr, Option.some.injEq] at this
      exact this
    have hl1 : r.composition.length = 1 := by rw [← compose_length h3]; rfl
    constructor
    · intro hp
      rcases encodes_covers hl hne hd rid es r ds (fun _ => P) rfl hn (fun j comp' hj => by
        have : j = 0 := by
          have := (List.getElem?_eq_some_iff.1 hj).1
          omega
        subst this
        rw [hc, Option.some.injEq] at hj
        subst hj
        exact hP) p x hp with rfl | ⟨_, _, h⟩
      · exact .inl ⟨rfl, by simpa [DTree.at?] using hp.symm⟩
      · exact .inr h
    · rintro (⟨rfl, rfl⟩ | h)
      · rfl
      · exact (encodes_visits hP rid p x h).1
  have he : DTree.node rid es = DTree.node rid es' := at?_ext _ _ fun p => by
    ext x
    rw [key hd hn hP, key hd' hn' hP']
  have he' : es = es' := by
    cases he
    rfl
  subst he'
  refine ⟨rfl, at?_ext _ _ fun p => ?_⟩
  have := hn p
  rw [hn' p] at this
  cases h1 : d.at? p <;> cases h2 : d'.at? p <;> simp [h1, h2] at this ⊢
  exact this.symm

end

section
variable {N T W : Type _} [DecidableEq N] [DecidableEq T] [LinearOrderedCommMonoidWithZero W] [NoZeroDivisors W] {factorize : W → Nat → List W}
  {order : Nat → List Nat → List Nat} {g : Lcfrs N T W} {R : CsRep N T W}

/-- The parser returns derivations of the sentence, without pruning all of them. -/
theorem parses_spec (hR : CsRep.new factorize order g width = some R) (ho : HashOrder order) (hfac : Factorizes factorize)
    (hg : ParserGrammar g.rules g.init) (hw : Props.FactorsLeOne factorize (indexed g.rules))
    (hpre : Preterminals g.rules) (hcyc : NoVariableCycle g.rules) {word : List T} (hn0 : 0 < word.length)
    (hn : word.length ≤ 255) {o : CsOptions W} (hb0 : 0 < o.beam.getD R.generator.states) (hs : o.beam.getD R.generator.states ≤ 65535) :
    ∃ out, ParsesSome g.rules g.init word out ∧
      (FactorsNeZero factorize g.rules → R.generator.states ≤ o.beam.getD R.generator.states → o.delta = 0 → Parses g.rules g.init word out) ∧
      ∃ m₀ fuel₀, ∀ m, ∀ fuel ≥ fuel₀,
      (∃ k, R.parses o word fuel m = some (out.take k)) ∧ (o.candidates = none → m₀ ≤ m → R.parses o word fuel m = some out) := by
  unfold CsRep.new at hR
  split at hR
  swap
  · cases hR
  split at hR
  swap
  · cases hR
  split at hR
  swap
  · cases hR
  rename_i _ _ A masks hA hmk
  change CsAutomaton.fromGrammar factorize (indexed g.rules) g.init = some A at hA
  rw [Option.map_eq_some_iff] at hR
  obtain ⟨outs, houts, rfl⟩ := hR
  simp only at hs hb0
  have hne : ∀ r ∈ g.rules, r.composition ≠ [] := fun r hr => (hg.normal r hr).1
  have hlen : ∀ w n, (factorize w n).length = n := fun w n => (hfac w n).1
  have hi := initial_lt hA hg hlen
  obtain ⟨st, ps, h1, hnd, h3, h4, hbr, h6, _, h7⟩ := Props.C42_tables hA
  have hin := h7 hi
  obtain ⟨mask, hm1, hm2, hm3, hm4⟩ := mask_spec hlen h1 h3 ho hg hmk word
  have hml : mask.length = A.brackets.length := by rw [hm2, hbr, List.length_map]
  obtain ⟨chart, hc⟩ := Props.C42_total hA hw hi houts (beam := o.beam.getD A.states) (delta := o.delta) hml hn hb0 hs
  have hsound := fun t w => chart_sound (t := t) (w := w) hA hg hpre hm3 hn hc hi
  obtain ⟨hget, hbest⟩ : _ ∧ _ := by
    obtain ⟨st, ps, h1, h2, _⟩ := CsAutomaton.fromGrammar_rep hA
    exact fillChart_best h2.buWF hn hc ((Props.leOne_of_factors hA hw).chains mask)
      fun i q rid a v hi hq hr => Props.C44_terminals hA hn hc (terminalDet_of hA hg hpre mask) hi hq hr
  obtain ⟨ts, words, k1, k2, k3, k4, fuel₀, k5⟩ : EnumeratesAll A chart mask word.length := by
    obtain ⟨st, ps, h1, h2, _⟩ := CsAutomaton.fromGrammar_rep hA
    exact enumeratesAll h1 h2 hi hml hget hbest (noChainCycle_of hA hcyc mask) hn0 hn
  -- the derivation of a word
  let Y := DTree Nat × DTree (PMCFGRule N T W) × GornTree (PMCFGRule N T W)
  let Good : BinTree × W → List (Bracket BracketContent) → Option Y → Prop := fun x v o =>
    toderiv g.rules v = some (o.map fun y => y.2.2) ∧ ∃ rid P, v = compWord rid 0 P ∧ treeWord A.brackets x.1 = some v ∧
      (buGrammar A mask).Derives word (fun _ _ _ => True) 0 word.length A.initial x.1 x.2 ∧
      ∀ y, o = some y → (∀ p, y.2.2.get p = y.2.1.at? p) ∧ y.2.2.Sorted ∧ Derives g.rules g.init y.2.1 [word] ∧ y.2.1.weight = x.2 ∧ Numbers g.rules y.1 y.2.1 ∧
        ∃ es r comp, y.1 = .node rid es ∧ g.rules[rid]? = some r ∧ r.composition[0]? = some comp ∧ Encodes g.rules es comp P
  have hgood : ∀ x ∈ ts.zip words, ∃ o, Good x.1 x.2 o := by
    rintro ⟨x, v⟩ hx
    obtain ⟨k, hk⟩ := List.getElem?_of_mem hx
    rw [List.getElem?_zip_eq_some] at hk
    have hd := hsound _ _ ((k3 x).1 (List.mem_of_getElem? hk.1))
    have hv : treeWord A.brackets x.1 = some v := by
      obtain ⟨g1, e1⟩ := List.getElem?_eq_some_iff.1 hk.1
      obtain ⟨g2, e2⟩ := List.getElem?_eq_some_iff.1 hk.2
      have := (List.forall₂_iff_get.1 k4).2 k g1 g2
      simp only [List.get_eq_getElem, e1, e2] at this
      exact this
    obtain ⟨rid, P, c1, c2, _⟩ := Props.derives_compDerives hA (indexed_ids _) hd
    rw [hv, Option.some.injEq] at c2
    subst c2
    rcases Props.C45_word_partial hg.lcfrs hne hg.closed hfac c1 with ⟨e1, _⟩ | ⟨_, m, d, es, r, comp, e1, e2, e3, e4, e5, e6, e7, e8, e9⟩
    · exact ⟨none, e1, rid, P, rfl, hv, hd, fun y hy => by cases hy⟩
    · exact ⟨some (.node rid es, d, m), e1, rid, P, rfl, hv, hd, fun y hy => by
        cases hy
        exact ⟨e3, e2, e4, e5, e6, es, r, comp, rfl, e7, e8, e9⟩⟩
  obtain ⟨os, hos⟩ := exists_forall₂ (R := fun (x : (BinTree × W) × List (Bracket BracketContent)) o => Good x.1 x.2 o) _ hgood
  have hlw := k4.length_eq
  have hwos : List.Forall₂ (fun v (o : Option Y) => toderiv g.rules v = some (o.map fun y => y.2.2)) words os := by
    rw [← List.map_snd_zip (l₁ := ts) (l₂ := words) (by omega), List.forall₂_map_left_iff]
    exact hos.imp fun x o h => h.1
  have hwos' : List.Forall₂ (fun v o => toderiv g.rules v = some o) words (os.map fun o => o.map fun y => y.2.2) := by
    rw [List.forall₂_map_right_iff]
    exact hwos
  have hord : (ts.zip words).Pairwise fun x y => y.1.2 ≤ x.1.2 ∧ x.1.1 ≠ y.1.1 := by
    have e := List.map_fst_zip (l₁ := ts) (l₂ := words) (by omega)
    refine List.Pairwise.and ?_ ?_
    · have := k2
      rw [← e, List.pairwise_map] at this
      exact this
    · have := k1
      rw [← e, List.map_map, List.Nodup, List.pairwise_map] at this
      exact this
  have hpair : (os.filterMap id).Pairwise fun y y' : Y => y'.2.1.weight ≤ y.2.1.weight ∧ y.1 ≠ y'.1 := by
    refine pairwise_filterMap (fun x x' y y' hx hx' hS => ?_) hos hord
    obtain ⟨_, rid, P, e1, e2, e3, e4⟩ := hx
    obtain ⟨_, rid', P', e1', e2', e3', e4'⟩ := hx'
    obtain ⟨_, _, _, f4, _, es, r, comp, f5, f6, f7, f8⟩ := e4 y rfl
    obtain ⟨_, _, _, f4', _, es', r', comp', f5', f6', f7', f8'⟩ := e4' y' rfl
    refine ⟨by rw [f4, f4']; exact hS.1, fun he => hS.2 ?_⟩
    rw [f5, f5'] at he
    cases he
    rw [f6, Option.some.injEq] at f6'
    subst f6'
    rw [f7, Option.some.injEq] at f7'
    subst f7'
    have := encodes_unique f8 f8'
    subst this
    rw [h6, ] at e3 e3'
    rw [hbr] at e2 e2'
    exact (treeWord_inj hnd h1 (indexed_ids _) _ _ e3 e3' (by rw [e2, e2', e1, e1'])).1
  have hsd : ∀ e d, (e, d) ∈ (os.filterMap id).map (fun y : Y => (y.1, y.2.1)) → Numbers g.rules e d ∧ Derives g.rules g.init d [word] := by
    intro e d hy
    rw [List.mem_map] at hy
    obtain ⟨y, hy, he⟩ := hy
    cases he
    rw [List.mem_filterMap] at hy
    obtain ⟨o, hm, hy⟩ := hy
    simp only [id_eq] at hy
    subst hy
    obtain ⟨k, hk⟩ := List.getElem?_of_mem hm
    obtain ⟨hlt, hk⟩ := List.getElem?_eq_some_iff.1 hk
    have hr := (List.forall₂_iff_get.1 hos).2 k (hos.length_eq ▸ hlt) hlt
    simp only [List.get_eq_getElem, hk] at hr
    obtain ⟨_, rid, P, _, _, _, e4⟩ := hr
    obtain ⟨_, _, f3, _, f5, _⟩ := e4 y rfl
    exact ⟨f5, f3⟩
  have hres : ParsedBy g.rules g.init word ((os.filterMap id).map fun y => (y.1, y.2.1)) ((os.filterMap id).map fun y => y.2.2) := by
    refine ⟨?_, ?_, hsd, ?_⟩
    · rw [List.map_map, List.Nodup, List.pairwise_map]
      exact hpair.imp fun h => h.2
    · rw [List.pairwise_map]
      exact hpair.imp fun h => h.1
    · rw [List.forall₂_map_left_iff, List.forall₂_map_right_iff, List.forall₂_same]
      intro y hy
      rw [List.mem_filterMap] at hy
      obtain ⟨o, hm, hy⟩ := hy
      simp only [id_eq] at hy
      subst hy
      obtain ⟨k, hk⟩ := List.getElem?_of_mem hm
      obtain ⟨hlt, hk⟩ := List.getElem?_eq_some_iff.1 hk
      have hr := (List.forall₂_iff_get.1 hos).2 k (hos.length_eq ▸ hlt) hlt
      simp only [List.get_eq_getElem, hk] at hr
      obtain ⟨_, rid, P, _, _, _, e4⟩ := hr
      obtain ⟨f1, f2, _⟩ := e4 y rfl
      exact ⟨f2, f1⟩
  refine ⟨(os.filterMap id).map fun y => y.2.2, ⟨_, hres⟩, fun h0 hst hdel => ⟨_, hres, fun e d => ?_⟩, words.length, fuel₀, fun m fuel hfuel => ?_⟩
  · have hiff := fun t w => chart_iff (t := t) (w := w) hA hg hw h0 hpre houts hst hm3 hn (hdel ▸ hc) hi
    rw [List.mem_map]
    rintro ⟨hnum, hder⟩
    obtain ⟨rid, es⟩ := e
    obtain ⟨r, comp, P, m, w, c1, c2, c3, c4, c5, c6, c7, c8⟩ := Props.C45_derivation_partial hg.lcfrs hne hfac hder hnum
    obtain ⟨u1, u2⟩ := Props.C40_derivation_kept hg hder
    -- the rules that are kept
    classical
    let rs := (indexed g.rules).filter fun x => decide (∃ p, d.at? p = some x.2)
    have hkept : ∀ x ∈ rs, KeptRule factorize st ps mask x := by
      rintro ⟨rid', r'⟩ hx
      rw [List.mem_filter, mem_indexed, decide_eq_true_eq] at hx
      obtain ⟨hx, p, hp⟩ := hx
      exact hm4 u1 rid' r' hx (u2 p r' hp).1 (u2 p r' hp).2
    have hat : ∀ p x, (DTree.node rid es).at? p = some x → ∀ r', (x, r') ∈ indexed g.rules → (x, r') ∈ rs := by
      intro p x hp r' hr'
      rw [List.mem_filter, decide_eq_true_eq]
      refine ⟨hr', p, ?_⟩
      rw [mem_indexed] at hr'
      have := hnum p
      rw [hp, Option.map_some, hr'] at this
      cases hd : d.at? p with
      | none => rw [hd] at this; cases this
      | some y =>
        rw [hd, Option.map_some, Option.some.injEq] at this
        exact this.symm
    have hcd : CompDerives factorize rs g.init 0 rid P word w := by
      obtain ⟨r', comp', f, w', e1, e2, e3, e4, e5, e6⟩ := c5
      refine ⟨r', comp', f, w', hat [] rid rfl _ e1, e2, e3, e4, fits_restrict e5 [] fun p x r'' hp hm => ?_, e6⟩
      exact hat p x (encodes_visits c3 rid p x hp).1 r'' hm
    have hsimple : ∀ r ∈ rs, ∀ (cid : Nat) c f, r.2.composition[cid]? = some c → (factorize r.2.weight r.2.composition.length)[cid]? = some f → SimpleComp c := by
      intro r hr cid c f hc hf
      rcases grammarProds_simple _ h1 r (List.mem_of_mem_filter hr) cid c f hc hf with h | ⟨h, vs, hvs⟩
      · exact .inl h
      · exact .inr ⟨h, forall₂_vars hvs⟩
    obtain ⟨q, t, q1, q2, q3⟩ := compDerives_derives hkept hsimple hcd
    have hq : q = A.initial := (List.getElem?_inj (List.getElem?_eq_some_iff.1 q1).1 hnd).1 (q1.trans hin.symm)
    subst hq
    rw [← h6] at q2
    rw [← hbr] at q3
    obtain ⟨k, hk⟩ := List.getElem?_of_mem ((k3 (t, w)).2 ((hiff t w).2 q2))
    obtain ⟨hlt, hk⟩ := List.getElem?_eq_some_iff.1 hk
    have hlo := hos.length_eq
    rw [List.length_zip] at hlo
    have hr := (List.forall₂_iff_get.1 hos).2 k (by rw [List.length_zip]; omega) (by omega)
    simp only [List.get_eq_getElem, List.getElem_zip, hk] at hr
    obtain ⟨e0, rid', P', e1, e2, _, e4⟩ := hr
    rw [e1, q3, Option.some.injEq] at e2
    obtain ⟨rfl, rfl⟩ := compWord_inj e2
    rw [e1, c6, Option.some.injEq] at e0
    cases ho' : os[k] with
    | none => rw [ho'] at e0; cases e0
    | some y =>
      obtain ⟨_, _, f3, _, f5, es', r', comp', f6, f7, f8, f9⟩ := e4 y ho'
      refine ⟨y, ?_, ?_⟩
      · rw [List.mem_filterMap]
        exact ⟨os[k], List.getElem_mem _, by rw [ho']; rfl⟩
      · rw [c1, Option.some.injEq] at f7
        subst f7
        rw [c2, Option.some.injEq] at f8
        subst f8
        rw [f6] at f5
        obtain ⟨rfl, rfl⟩ := encodes_numbers hg.lcfrs hne f3 hder f5 hnum c1 c2 f9 c3
        rw [f6]
  · have hgen : (⟨A, outs, masks, g.rules⟩ : CsRep N T W).generate o word fuel m = some ((List.range m).map fun k => words[k]?) := by
      unfold CsRep.generate
      simp only [hm1, hc]
      exact k5 m fuel hfuel
    have hmap : (os.filterMap id).map (fun y : Y => y.2.2) = (os.map fun o => o.map fun y : Y => y.2.2).filterMap id := by
      rw [List.map_filterMap, List.filterMap_map]
      rfl
    unfold CsRep.parses
    rw [hgen, Option.bind_some, untilNone_range, hmap]
    constructor
    · have hlim : ∃ k, o.limit (words.take m) = words.take k := by
        unfold CsOptions.limit
        cases o.candidates with
        | none => exact ⟨m, rfl⟩
        | some c => exact ⟨min c m, by simp only [List.take_take]⟩
      obtain ⟨k, hk⟩ := hlim
      obtain ⟨k', hk'⟩ := filterMap_take (os.map fun o => o.map fun y : Y => y.2.2) k
      exact ⟨k', by rw [hk, filterMapP_of_forall₂ (List.forall₂_take k hwos'), hk']⟩
    · intro hcand hm
      simp only [CsOptions.limit, hcand]
      rw [List.take_of_length_le hm, filterMapP_of_forall₂ hwos']

end

end Rustomata
