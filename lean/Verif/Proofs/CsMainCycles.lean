import Verif.Proofs.CsMain
import Verif.Proofs.CsKBestFair

/-!
# The parser for grammars with cycles
-/

namespace Rustomata
open Spec

section
variable {N T W : Type _} [DecidableEq N] [DecidableEq T] [LinearOrderedCommMonoidWithZero W] {factorize : W → Nat → List W}
  {order : Nat → List Nat → List Nat} {g : Lcfrs N T W} {A : CsAutomaton T W} {mask : List Bool} {word : List T}

/-- The tree `t` of the generator belongs to the derivation `e`. -/
def CandidateOf (A : CsAutomaton T W) (rules : List (PMCFGRule N T W)) (t : BinTree) (e : DTree Nat) : Prop :=
  ∃ rid es r comp P, e = .node rid es ∧ rules[rid]? = some r ∧ r.composition[0]? = some comp ∧ Encodes rules es comp P ∧
    treeWord A.brackets t = some (compWord rid 0 P) ∧ ∃ m, toderiv rules (compWord rid 0 P) = some (some m)

/-- The derivations of the words of candidates. -/
theorem candidates_parsed (hA : CsAutomaton.fromGrammar factorize (indexed g.rules) g.init = some A) (hfac : Factorizes factorize)
    (hg : ParserGrammar g.rules g.init) {ts : List (BinTree × W)} {words : List (List (Bracket BracketContent))} (k1 : (ts.map Prod.fst).Nodup)
    (k2 : ts.Pairwise fun x y => y.2 ≤ x.2) (hder : ∀ x ∈ ts, (buGrammar A mask).Derives word (fun _ _ _ => True) 0 word.length A.initial x.1 x.2)
    (k4 : List.Forall₂ (fun x v => treeWord A.brackets x.1 = some v) ts words) :
    ∃ ds out, ParsedBy g.rules g.init word ds out ∧ filterMapP (toderiv g.rules) words = some out ∧ (∀ y ∈ ds, ∃ x ∈ ts, x.2 = y.2.weight) ∧
      ∀ e d, Numbers g.rules e d → Derives g.rules g.init d [word] → ∀ x ∈ ts, CandidateOf A g.rules x.1 e → (e, d) ∈ ds := by
  have hne : ∀ r ∈ g.rules, r.composition ≠ [] := fun r hr => (hg.normal r hr).1
  have hlen : ∀ w n, (factorize w n).length = n := fun w n => (hfac w n).1
  obtain ⟨st, ps, h1, hnd, h3, h4, hbr, h6, _, h7⟩ := Props.C42_tables hA
  -- the derivation of a word
  let Y := DTree Nat × DTree (PMCFGRule N T W) × GornTree (PMCFGRule N T W)
  let Good : BinTree × W → List (Bracket BracketContent) → Option Y → Prop := fun x v o =>
    toderiv g.rules v = some (o.map fun y => y.2.2) ∧ ∃ rid P, v = compWord rid 0 P ∧ treeWord A.brackets x.1 = some v ∧
      (buGrammar A mask).Derives word (fun _ _ _ => True) 0 word.length A.initial x.1 x.2 ∧
      ∀ y, o = some y → (∀ p, y.2.2.get p = y.2.1.at? p) ∧ y.2.2.Sorted ∧ Derives g.rules g.init y.2.1 [word] ∧ y.2.1.weight = x.2 ∧ Numbers g.rules y.1 y.2.1 ∧
        ∃ es r comp, y.1 = .node rid es ∧ g.rules[rid]? = some r ∧ r.composition[0]? = some comp ∧ Encodes g.rules es comp P
  have hgood : ∀ x ∈ ts.zip words, ∃ o, Good x.1 x.2 o := by
    rintro ⟨x, v⟩ hx
    obtain ⟨k, hk⟩ := List.getElem?_of_mem hx
    rw [List.getElem?_zip_eq_some] at hk
    have hd := hder x (List.mem_of_getElem? hk.1)
    have hv : treeWord A.brackets x.1 = some v := by
      obtain ⟨g1, e1⟩ := List.getElem?_eq_some_iff.1 hk.1
      obtain ⟨g2, e2⟩ := List.getElem?_eq_some_iff.1 hk.2
      have := (List.forall₂_iff_get.1 k4).2 k g1 g2
      simp only [List.get_eq_getElem, e1, e2] at this
      exact this
    obtain ⟨rid, P, c1, c2, _⟩ := Props.derives_compDerives hA (indexed_ids _) hd
    rw [hv, Option.some.injEq] at c2
    subst c2
    rcases Props.C45_word_partial hg.lcfrs hne hg.closed hfac c1 with ⟨e1, _⟩ | ⟨_, m, d, es, r, comp, e1, e2, e3, e4, e5, e6, e7, e8, e9⟩
    · exact ⟨none, e1, rid, P, rfl, hv, hd, fun y hy => by cases hy⟩
    · exact ⟨some (.node rid es, d, m), e1, rid, P, rfl, hv, hd, fun y hy => by
        cases hy
        exact ⟨e3, e2, e4, e5, e6, es, r, comp, rfl, e7, e8, e9⟩⟩
  obtain ⟨os, hos⟩ := exists_forall₂ (R := fun (x : (BinTree × W) × List (Bracket BracketContent)) o => Good x.1 x.2 o) _ hgood
  have hlw := k4.length_eq
  have hwos : List.Forall₂ (fun v (o : Option Y) => toderiv g.rules v = some (o.map fun y => y.2.2)) words os := by
    rw [← List.map_snd_zip (l₁ := ts) (l₂ := words) (by omega), List.forall₂_map_left_iff]
    exact hos.imp fun x o h => h.1
  have hwos' : List.Forall₂ (fun v o => toderiv g.rules v = some o) words (os.map fun o => o.map fun y => y.2.2) := by
    rw [List.forall₂_map_right_iff]
    exact hwos
  have hord : (ts.zip words).Pairwise fun x y => y.1.2 ≤ x.1.2 ∧ x.1.1 ≠ y.1.1 := by
    have e := List.map_fst_zip (l₁ := ts) (l₂ := words) (by omega)
    refine List.Pairwise.and ?_ ?_
    · have := k2
      rw [← e, List.pairwise_map] at this
      exact this
    · have := k1
      rw [← e, List.map_map, List.Nodup, List.pairwise_map] at this
      exact this
  have hpair : (os.filterMap id).Pairwise fun y y' : Y => y'.2.1.weight ≤ y.2.1.weight ∧ y.1 ≠ y'.1 := by
    refine pairwise_filterMap (fun x x' y y' hx hx' hS => ?_) hos hord
    obtain ⟨_, rid, P, e1, e2, e3, e4⟩ := hx
    obtain ⟨_, rid', P', e1', e2', e3', e4'⟩ := hx'
    obtain ⟨_, _, _, f4, _, es, r, comp, f5, f6, f7, f8⟩ := e4 y rfl
    obtain ⟨_, _, _, f4', _, es', r', comp', f5', f6', f7', f8'⟩ := e4' y' rfl
    refine ⟨by rw [f4, f4']; exact hS.1, fun he => hS.2 ?_⟩
    rw [f5, f5'] at he
    cases he
    rw [f6, Option.some.injEq] at f6'
    subst f6'
    rw [f7, Option.some.injEq] at f7'
    subst f7'
    have := encodes_unique f8 f8'
    subst this
    rw [h6, ] at e3 e3'
    rw [hbr] at e2 e2'
    exact (treeWord_inj hnd h1 (indexed_ids _) _ _ e3 e3' (by rw [e2, e2', e1, e1'])).1
  have hsd : ∀ e d, (e, d) ∈ (os.filterMap id).map (fun y : Y => (y.1, y.2.1)) → Numbers g.rules e d ∧ Derives g.rules g.init d [word] := by
    intro e d hy
    rw [List.mem_map] at hy
    obtain ⟨y, hy, he⟩ := hy
    cases he
    rw [List.mem_filterMap] at hy
    obtain ⟨o, hm, hy⟩ := hy
    simp only [id_eq] at hy
    subst hy
    obtain ⟨k, hk⟩ := List.getElem?_of_mem hm
    obtain ⟨hlt, hk⟩ := List.getElem?_eq_some_iff.1 hk
    have hr := (List.forall₂_iff_get.1 hos).2 k (hos.length_eq ▸ hlt) hlt
    simp only [List.get_eq_getElem, hk] at hr
    obtain ⟨_, rid, P, _, _, _, e4⟩ := hr
    obtain ⟨_, _, f3, _, f5, _⟩ := e4 y rfl
    exact ⟨f5, f3⟩
  have hres : ParsedBy g.rules g.init word ((os.filterMap id).map fun y => (y.1, y.2.1)) ((os.filterMap id).map fun y => y.2.2) := by
    refine ⟨?_, ?_, hsd, ?_⟩
    · rw [List.map_map, List.Nodup, List.pairwise_map]
      exact hpair.imp fun h => h.2
    · rw [List.pairwise_map]
      exact hpair.imp fun h => h.1
    · rw [List.forall₂_map_left_iff, List.forall₂_map_right_iff, List.forall₂_same]
      intro y hy
      rw [List.mem_filterMap] at hy
      obtain ⟨o, hm, hy⟩ := hy
      simp only [id_eq] at hy
      subst hy
      obtain ⟨k, hk⟩ := List.getElem?_of_mem hm
      obtain ⟨hlt, hk⟩ := List.getElem?_eq_some_iff.1 hk
      have hr := (List.forall₂_iff_get.1 hos).2 k (hos.length_eq ▸ hlt) hlt
      simp only [List.get_eq_getElem, hk] at hr
      obtain ⟨_, rid, P, _, _, _, e4⟩ := hr
      obtain ⟨f1, f2, _⟩ := e4 y rfl
      exact ⟨f2, f1⟩
  have hmap : (os.filterMap id).map (fun y : Y => y.2.2) = (os.map fun o => o.map fun y : Y => y.2.2).filterMap id := by
    rw [List.map_filterMap, List.filterMap_map]
    rfl
  refine ⟨_, _, hres, by rw [filterMapP_of_forall₂ hwos', hmap], ?_, ?_⟩
  · intro y hy
    rw [List.mem_map] at hy
    obtain ⟨y, hy, rfl⟩ := hy
    rw [List.mem_filterMap] at hy
    obtain ⟨o, hm, hy⟩ := hy
    simp only [id_eq] at hy
    subst hy
    obtain ⟨k, hk⟩ := List.getElem?_of_mem hm
    obtain ⟨hlt, hk⟩ := List.getElem?_eq_some_iff.1 hk
    have hlo := hos.length_eq
    rw [List.length_zip] at hlo
    have hr := (List.forall₂_iff_get.1 hos).2 k (hos.length_eq ▸ hlt) hlt
    simp only [List.get_eq_getElem, List.getElem_zip, hk] at hr
    obtain ⟨_, rid, P, _, _, _, e4⟩ := hr
    obtain ⟨_, _, _, f4, _⟩ := e4 y rfl
    exact ⟨ts[k]'(by omega), List.getElem_mem _, f4.symm⟩
  · rintro e d hnum hder ⟨t, w⟩ hx ⟨rid, es, r, comp, P, rfl, c1, c2, c3, q3, m, c6⟩
    rw [List.mem_map]
    obtain ⟨k, hk⟩ := List.getElem?_of_mem hx
    obtain ⟨hlt, hk⟩ := List.getElem?_eq_some_iff.1 hk
    have hlo := hos.length_eq
    rw [List.length_zip] at hlo
    have hr := (List.forall₂_iff_get.1 hos).2 k (by rw [List.length_zip]; omega) (by omega)
    simp only [List.get_eq_getElem, List.getElem_zip, hk] at hr
    obtain ⟨e0, rid', P', e1, e2, _, e4⟩ := hr
    rw [e1, q3, Option.some.injEq] at e2
    obtain ⟨rfl, rfl⟩ := compWord_inj e2
    rw [e1, c6, Option.some.injEq] at e0
    cases ho' : os[k] with
    | none => rw [ho'] at e0; cases e0
    | some y =>
      obtain ⟨_, _, f3, _, f5, es', r', comp', f6, f7, f8, f9⟩ := e4 y ho'
      refine ⟨y, ?_, ?_⟩
      · rw [List.mem_filterMap]
        exact ⟨os[k], List.getElem_mem _, by rw [ho']; rfl⟩
      · rw [c1, Option.some.injEq] at f7
        subst f7
        rw [c2, Option.some.injEq] at f8
        subst f8
        rw [f6] at f5
        obtain ⟨rfl, rfl⟩ := encodes_numbers hg.lcfrs hne f3 hder f5 hnum c1 c2 f9 c3
        rw [f6]

/-- Each derivation has a candidate. -/
theorem derivation_candidate (hA : CsAutomaton.fromGrammar factorize (indexed g.rules) g.init = some A) (hfac : Factorizes factorize) (ho : HashOrder order)
    (hg : ParserGrammar g.rules g.init) {masks : RuleMaskBuilder T} (hmk : RuleMaskBuilder.new order g.rules g.init = some masks)
    (hm1 : masks.build word = some mask) {e : DTree Nat} {d : DTree (PMCFGRule N T W)} (hnum : Numbers g.rules e d) (hder : Derives g.rules g.init d [word]) :
    ∃ t, CandidateOf A g.rules t e ∧ (buGrammar A mask).Derives word (fun _ _ _ => True) 0 word.length A.initial t d.weight := by
  have hne : ∀ r ∈ g.rules, r.composition ≠ [] := fun r hr => (hg.normal r hr).1
  have hlen : ∀ w n, (factorize w n).length = n := fun w n => (hfac w n).1
  have hi := initial_lt hA hg hlen
  obtain ⟨st, ps, h1, hnd, h3, h4, hbr, h6, _, h7⟩ := Props.C42_tables hA
  have hin := h7 hi
  obtain ⟨mask', hm1', hm2, hm3, hm4⟩ := mask_spec hlen h1 h3 ho hg hmk word
  rw [hm1, Option.some.injEq] at hm1'
  subst hm1'
  obtain ⟨rid, es⟩ := e
  obtain ⟨r, comp, P, m, w, c1, c2, c3, c4, c5, c6, c7, c8⟩ := Props.C45_derivation_partial hg.lcfrs hne hfac hder hnum
  obtain ⟨u1, u2⟩ := Props.C40_derivation_kept hg hder
  -- the rules that are kept
  classical
  let rs := (indexed g.rules).filter fun x => decide (∃ p, d.at? p = some x.2)
  have hkept : ∀ x ∈ rs, KeptRule factorize st ps mask x := by
    rintro ⟨rid', r'⟩ hx
    rw [List.mem_filter, mem_indexed, decide_eq_true_eq] at hx
    obtain ⟨hx, p, hp⟩ := hx
    exact hm4 u1 rid' r' hx (u2 p r' hp).1 (u2 p r' hp).2
  have hat : ∀ p x, (DTree.node rid es).at? p = some x → ∀ r', (x, r') ∈ indexed g.rules → (x, r') ∈ rs := by
    intro p x hp r' hr'
    rw [List.mem_filter, decide_eq_true_eq]
    refine ⟨hr', p, ?_⟩
    rw [mem_indexed] at hr'
    have := hnum p
    rw [hp, Option.map_some, hr'] at this
    cases hd : d.at? p with
    | none => rw [hd] at this; cases this
    | some y =>
      rw [hd, Option.map_some, Option.some.injEq] at this
      exact this.symm
  have hcd : CompDerives factorize rs g.init 0 rid P word w := by
    obtain ⟨r', comp', f, w', e1, e2, e3, e4, e5, e6⟩ := c5
    refine ⟨r', comp', f, w', hat [] rid rfl _ e1, e2, e3, e4, fits_restrict e5 [] fun p x r'' hp hm => ?_, e6⟩
    exact hat p x (encodes_visits c3 rid p x hp).1 r'' hm
  have hsimple : ∀ r ∈ rs, ∀ (cid : Nat) c f, r.2.composition[cid]? = some c → (factorize r.2.weight r.2.composition.length)[cid]? = some f → SimpleComp c := by
    intro r hr cid c f hc hf
    rcases grammarProds_simple _ h1 r (List.mem_of_mem_filter hr) cid c f hc hf with h | ⟨h, vs, hvs⟩
    · exact .inl h
    · exact .inr ⟨h, forall₂_vars hvs⟩
  obtain ⟨q, t, q1, q2, q3⟩ := compDerives_derives hkept hsimple hcd
  have hq : q = A.initial := (List.getElem?_inj (List.getElem?_eq_some_iff.1 q1).1 hnd).1 (q1.trans hin.symm)
  subst hq
  rw [← h6] at q2
  rw [← hbr] at q3
  have hw' : d.weight = w := by
    rcases Props.C45_word_partial hg.lcfrs hne hg.closed hfac c5 with ⟨e1, _⟩ | ⟨_, m', d', es', r', comp', e1, e2, e3, e4, e5, e6, e7, e8, e9⟩
    · rw [c6] at e1
      cases e1
    · rw [c1, Option.some.injEq] at e7
      subst e7
      rw [c2, Option.some.injEq] at e8
      subst e8
      obtain ⟨_, rfl⟩ := encodes_numbers hg.lcfrs hne e4 hder e6 hnum c1 c2 e9 c3
      exact e5
  refine ⟨t, ⟨rid, es, r, comp, P, rfl, c1, c2, c3, q3, m, c6⟩, hw' ▸ q2⟩

end

section
variable {T W : Type _} [DecidableEq T] [LinearOrderedCommMonoidWithZero W]

theorem run_take {A : CsAutomaton T W} {chart : DenseChart W} {filter : List Bool} {fuel n : Nat} :
    ∀ (m m' : Nat) (it : KIter W) l', m ≤ m' → KIter.run A chart filter fuel n m' it = some l' → KIter.run A chart filter fuel n m it = some (l'.take m)
  | 0, _, _, _, _, _ => by rw [KIter.run, List.take_zero]
  | m + 1, 0, _, _, h, _ => by omega
  | m + 1, m' + 1, it, l', h, hr => by
    rw [KIter.run] at hr ⊢
    split at hr
    · cases hr
    · rename_i r it' hn
      rw [Option.map_eq_some_iff] at hr
      obtain ⟨l, h1, rfl⟩ := hr
      rw [run_take m m' it' l (by omega) h1]
      rfl

theorem untilNone_take {X : Type _} (l : List (Option X)) (m : Nat) : untilNone (l.take m) = (untilNone l).take m := by
  induction l generalizing m with
  | nil => simp [untilNone]
  | cons o l ih =>
    cases m with
    | zero => simp [untilNone]
    | succ m =>
      cases o with
      | none => simp [untilNone]
      | some x => simp [untilNone, ih]

theorem filterMapP_prefix {X Y : Type _} {f : X → Option (Option Y)} {l l' : List X} {ys ys' : List Y} (h : l <+: l') (h1 : filterMapP f l = some ys)
    (h2 : filterMapP f l' = some ys') : ys <+: ys' := by
  induction l generalizing l' ys ys' with
  | nil =>
    cases h1
    exact List.nil_prefix
  | cons x l ih =>
    obtain ⟨z, rfl⟩ := h
    rw [List.cons_append, filterMapP] at h2
    rw [filterMapP] at h1
    split at h1
    · cases h1
    · rename_i hx
      simp only [hx] at h2
      exact ih ⟨z, rfl⟩ h1 h2
    · rename_i hx
      simp only [hx] at h2
      rw [Option.map_eq_some_iff] at h1 h2
      obtain ⟨a, h1, rfl⟩ := h1
      obtain ⟨b, h2, rfl⟩ := h2
      rw [List.cons_prefix_cons]
      exact ⟨rfl, ih ⟨z, rfl⟩ h1 h2⟩

theorem limit_take_prefix {X : Type _} (o : CsOptions W) (l : List X) (m : Nat) : o.limit (l.take m) <+: o.limit l := by
  unfold CsOptions.limit
  split
  · exact List.take_prefix _ _
  · rw [List.take_take, Nat.min_comm, ← List.take_take]
    exact List.take_prefix _ _

/-- More calls of the iterator continue the sequence of results. -/
theorem parses_prefix {N : Type _} {R : CsRep N T W} {o : CsOptions W} {word : List T} {fuel m m' : Nat} {out out' : List (GornTree (PMCFGRule N T W))} (hm : m ≤ m')
    (h : R.parses o word fuel m = some out) (h' : R.parses o word fuel m' = some out') : out <+: out' := by
  unfold CsRep.parses at h h'
  rw [Option.bind_eq_some_iff] at h h'
  obtain ⟨vs, h1, h2⟩ := h
  obtain ⟨vs', h1', h2'⟩ := h'
  have : vs = vs'.take m := by
    unfold CsRep.generate at h1 h1'
    split at h1
    · cases h1
    · split at h1
      · cases h1
      · rename_i hm1 _ _ hc
        simp only [hm1, hc] at h1'
        rw [run_take m m' _ _ hm h1', Option.some.injEq] at h1
        exact h1.symm
  subst this
  rw [untilNone_take] at h2
  exact filterMapP_prefix (limit_take_prefix o _ _) h2 h2'

end

section
variable {N T W : Type _} [DecidableEq N] [DecidableEq T] [LinearOrderedCommMonoidWithZero W] {factorize : W → Nat → List W}
  {rules : List (PMCFGRule N T W)} {init : N} {A : CsAutomaton T W}

/-- Sequences of chain rules of the automaton. -/
theorem chainPath_variables (h : CsAutomaton.fromGrammar factorize (indexed rules) init = some A) (filter : List Bool) :
    ∃ st : List (CsState N), ∀ q q' v, ChainPath (buGrammar A filter) q q' v →
      ∃ B c D k, st[q]? = some (.non B c) ∧ st[q']? = some (.non D k) ∧ VariablePath factorize rules B c D k v := by
  obtain ⟨st, ps, h1, h2, _⟩ := CsAutomaton.fromGrammar_rep h
  have key : ∀ rid q q₁ w, (buGrammar A filter).unary rid q q₁ w → ∃ r ∈ rules, ∃ (c i j : Nat) (B : N), r.composition[c]? = some [.var i j] ∧ r.tail[i]? = some B ∧
      (factorize r.weight r.composition.length)[c]? = some w ∧ st[q]? = some (.non r.head c) ∧ st[q₁]? = some (.non B j) := by
    intro rid q q₁ w hu
    rw [h2.grammar] at hu
    obtain ⟨_, Q, S, g1, g2, g3⟩ := hu
    obtain ⟨b, rid, r, g4, cid, c, f, g5, g6, g7⟩ := prod_rule h1 g1
    cases g7 with
    | unary hn => exact ⟨r, List.mem_of_getElem? g4, _, _, _, _, g5, hn, g6, g2, g3⟩
  refine ⟨st, fun q q' v hp => ?_⟩
  induction hp with
  | one hu =>
    obtain ⟨r, hr, c, i, j, B, e1, e2, e3, e4, e5⟩ := key _ _ _ _ hu
    exact ⟨_, _, _, _, e4, e5, .one hr e1 e2 e3⟩
  | cons hu _ ih =>
    obtain ⟨r, hr, c, i, j, B, e1, e2, e3, e4, e5⟩ := key _ _ _ _ hu
    obtain ⟨B', c', D, k, f1, f2, f3⟩ := ih
    rw [e5, Option.some.injEq] at f1
    cases f1
    exact ⟨_, _, _, _, e4, f2, .cons hr e1 e2 e3 f3⟩

theorem cyclesLower_of (h : CsAutomaton.fromGrammar factorize (indexed rules) init = some A) (hc : VariableCyclesLower factorize rules) (filter : List Bool) :
    CyclesLower (buGrammar A filter) := by
  obtain ⟨st, hst⟩ := chainPath_variables h filter
  intro q v x hp hx
  obtain ⟨B, c, D, k, h1, h2, h3⟩ := hst _ _ _ hp
  rw [h1, Option.some.injEq] at h2
  cases h2
  exact hc _ _ _ _ h3 hx

theorem cyclesVanish_of (h : CsAutomaton.fromGrammar factorize (indexed rules) init = some A) (hc : VariableCyclesVanish factorize rules) (filter : List Bool) :
    CyclesVanish (buGrammar A filter) := by
  obtain ⟨st, hst⟩ := chainPath_variables h filter
  intro q v x y hp hx
  obtain ⟨B, c, D, k, h1, h2, h3⟩ := hst _ _ _ hp
  rw [h1, Option.some.injEq] at h2
  cases h2
  exact hc _ _ _ _ y h3 hx

theorem rulesLeOne_of (h : A.LeOne) (filter : List Bool) : RulesLeOne (buGrammar A filter) := by
  refine ⟨?_, ?_, ?_⟩
  · rintro rid q a w ⟨_, l, hl, hm⟩
    exact h.initial a l hl _ hm
  · rintro rid q q₁ w ⟨_, l, hl, hm⟩
    exact h.unary q₁ l hl _ hm
  · rintro rid q q₁ q₂ w ⟨_, l, hl, hm⟩
    exact h.binary q₁ l hl _ hm

/-- There are finitely many derivations in a chart with at least a given weight. -/
theorem automaton_fair {rules : List (Nat × PMCFGRule N T W)} (h : CsAutomaton.fromGrammar factorize rules init = some A) (filter : List Bool)
    (hle : RulesLeOne (buGrammar A filter)) (hcyc : CyclesVanish (buGrammar A filter)) (inChart : Nat → Nat → Nat → Prop) (n q : Nat) {x : W} (hx : x ≠ 0) :
    ∃ M, ∀ ts : List (BinTree × W), (ts.map Prod.fst).Nodup → (∀ y ∈ ts, ChartDerives (buGrammar A filter) inChart 0 n q y.1 y.2 ∧ x ≤ y.2) → ts.length ≤ M := by
  obtain ⟨st, ps, h1, h2, _⟩ := CsAutomaton.fromGrammar_rep h
  have hlt : ∀ rid : Nat, filter[rid]? = some true → rid < filter.length := fun rid h => (List.getElem?_eq_some_iff.1 h).1
  refine chartDerives_fair (R := filter.length) (S := st.length) ⟨?_, ?_, ?_⟩ ?_ ?_ hle hcyc n q hx
  · rintro rid q a w ⟨hf, _⟩
    exact hlt _ hf
  · rintro rid q q₁ w ⟨hf, _⟩
    exact hlt _ hf
  · rintro rid q q₁ q₂ w ⟨hf, _⟩
    exact hlt _ hf
  · intro rid q q₁ w hu
    rw [h2.grammar] at hu
    obtain ⟨_, Q, S, g1, g2, g3⟩ := hu
    exact ⟨(List.getElem?_eq_some_iff.1 g2).1, (List.getElem?_eq_some_iff.1 g3).1⟩
  · refine (List.finite_toSet (ps.map fun p => p.1.weight)).subset ?_
    rintro w ⟨rid, q, q₁, hu⟩
    rw [h2.grammar] at hu
    obtain ⟨_, Q, S, g1, g2, g3⟩ := hu
    rw [Option.map_eq_some_iff] at g1
    obtain ⟨p, g4, g5⟩ := g1
    rw [Set.mem_setOf_eq, List.mem_map]
    exact ⟨p, List.mem_of_getElem? g4, by rw [g5]; rfl⟩

/-- A derivation is eventually among the best ones. -/
theorem mem_of_fair {inChart : Nat → Nat → Nat → Prop} {G : BinGrammar T W} {n q : Nat} {t : BinTree} {w : W}
    (hfair : ∃ M, ∀ ts : List (BinTree × W), (ts.map Prod.fst).Nodup → (∀ y ∈ ts, ChartDerives G inChart 0 n q y.1 y.2 ∧ w ≤ y.2) → ts.length ≤ M) :
    ∃ M, ∀ m ≥ M, ∀ ts : List (BinTree × W), (ts.map Prod.fst).Nodup → (∀ y ∈ ts, ChartDerives G inChart 0 n q y.1 y.2) →
      ((t, w) ∈ ts ∨ (ts.length = m ∧ ∀ x ∈ ts, w ≤ x.2)) → (t, w) ∈ ts := by
  obtain ⟨M, hM⟩ := hfair
  refine ⟨M + 1, fun m hm ts h1 h2 h3 => ?_⟩
  rcases h3 with h3 | ⟨h3, h4⟩
  · exact h3
  · have := hM ts h1 fun y hy => ⟨h2 y hy, h4 y hy⟩
    omega

end

section
variable {N T W : Type _} [DecidableEq N] [DecidableEq T] [LinearOrderedCommMonoidWithZero W] [NoZeroDivisors W] {factorize : W → Nat → List W}
  {order : Nat → List Nat → List Nat} {g : Lcfrs N T W} {R : CsRep N T W}

/-- The parser for grammars with cycles. -/
theorem parses_cycles (hR : CsRep.new factorize order g width = some R) (ho : HashOrder order) (hfac : Factorizes factorize)
    (hg : ParserGrammar g.rules g.init) (hw : Props.FactorsLeOne factorize (indexed g.rules))
    (hpre : Preterminals g.rules) (hcyc : VariableCyclesLower factorize g.rules) {word : List T} (hn0 : 0 < word.length)
    (hn : word.length ≤ 255) {o : CsOptions W} (hb0 : 0 < o.beam.getD R.generator.states) (hs : o.beam.getD R.generator.states ≤ 65535) :
    ∃ (ds : Nat → List (DTree Nat × DTree (PMCFGRule N T W))) (out : Nat → List (GornTree (PMCFGRule N T W))),
      (∀ m, ParsedBy g.rules g.init word (ds m) (out m) ∧ ∃ fuel₀, ∀ fuel ≥ fuel₀, R.parses o word fuel m = some (out m)) ∧
      (FactorsNeZero factorize g.rules → R.generator.states ≤ o.beam.getD R.generator.states → o.delta = 0 →
        (∀ m e d, Numbers g.rules e d → Derives g.rules g.init d [word] → (e, d) ∈ ds m ∨ ∀ x ∈ ds m, d.weight ≤ x.2.weight) ∧
        (o.candidates = none → VariableCyclesVanish factorize g.rules →
          ∀ e d, Numbers g.rules e d → Derives g.rules g.init d [word] → ∃ M, ∀ m ≥ M, (e, d) ∈ ds m)) := by
  unfold CsRep.new at hR
  split at hR
  swap
  · cases hR
  split at hR
  swap
  · cases hR
  split at hR
  swap
  · cases hR
  rename_i _ _ A masks hA hmk
  change CsAutomaton.fromGrammar factorize (indexed g.rules) g.init = some A at hA
  rw [Option.map_eq_some_iff] at hR
  obtain ⟨outs, houts, rfl⟩ := hR
  simp only at hs hb0
  have hlen : ∀ w n, (factorize w n).length = n := fun w n => (hfac w n).1
  have hi := initial_lt hA hg hlen
  have hle := Props.leOne_of_factors hA hw
  obtain ⟨mask, hm1, hml, hm3⟩ : ∃ mask, masks.build word = some mask ∧ mask.length = A.brackets.length ∧
      ∀ k : Nat, mask[k]? = some true → DerivesOver g.rules word g.init := by
    obtain ⟨st, ps, h1, hnd, h3, h4, hbr, h6, _, h7⟩ := Props.C42_tables hA
    obtain ⟨mask, hm1, hm2, hm3, hm4⟩ := mask_spec hlen h1 h3 ho hg hmk word
    exact ⟨mask, hm1, by rw [hm2, hbr, List.length_map], hm3⟩
  obtain ⟨chart, hc⟩ := Props.C42_total hA hw hi houts (beam := o.beam.getD A.states) (delta := o.delta) hml hn hb0 hs
  have hsound := fun t w => chart_sound (t := t) (w := w) hA hg hpre hm3 hn hc hi
  have henum : ∀ m, Enumerates A chart mask word.length m := by
    obtain ⟨st, ps, h1, h2, _⟩ := CsAutomaton.fromGrammar_rep hA
    obtain ⟨hget, hbest⟩ := fillChart_best h2.buWF hn hc (hle.chains mask)
      fun i q rid a v hi hq hr => Props.C44_terminals hA hn hc (terminalDet_of hA hg hpre mask) hi hq hr
    exact enumerates_cycles h1 h2 hi hml hget hbest (cyclesLower_of hA hcyc mask) hn0 hn
  choose ts words k0 k1 k2 k3 k3' k4 k5 using henum
  -- the candidates that are considered
  have hlim : ∀ m, ∃ c, o.limit (words m) = (words m).take c ∧ (o.candidates = none → m ≤ c) := by
    intro m
    unfold CsOptions.limit
    cases hcand : o.candidates with
    | none => exact ⟨m, by rw [List.take_of_length_le]; rw [← (k4 m).length_eq]; exact k0 m, fun _ => le_refl _⟩
    | some c => exact ⟨c, rfl, fun h => by cases h⟩
  choose c hc1 hc2 using hlim
  have hpar := fun m => candidates_parsed (mask := mask) (word := word) hA hfac hg (ts := (ts m).take (c m)) (words := (words m).take (c m))
    ((k1 m).sublist ((List.take_sublist _ _).map _)) ((k2 m).sublist (List.take_sublist _ _))
    (fun x hx => hsound _ _ (k3 m x (List.mem_of_mem_take hx))) (List.forall₂_take _ (k4 m))
  choose ds out p1 p2 p3 p4 using hpar
  refine ⟨ds, out, fun m => ⟨p1 m, ?_⟩, fun h0 hst hdel => ⟨fun m e d hnum hder => ?_, fun hcand hvan e d hnum hder => ?_⟩⟩
  · obtain ⟨fuel₀, k5⟩ := k5 m
    refine ⟨fuel₀, fun fuel hfuel => ?_⟩
    have hgen : (⟨A, outs, masks, g.rules⟩ : CsRep N T W).generate o word fuel m = some ((List.range m).map fun k => (words m)[k]?) := by
      unfold CsRep.generate
      simp only [hm1, hc]
      exact k5 fuel hfuel
    unfold CsRep.parses
    rw [hgen, Option.bind_some, untilNone_range, List.take_of_length_le (by rw [← (k4 m).length_eq]; exact k0 m), hc1]
    exact p2 m
  · obtain ⟨t, q1, q2⟩ := derivation_candidate hA hfac ho hg hmk hm1 hnum hder
    rw [← chart_iff hA hg hw h0 hpre houts hst hm3 hn (hdel ▸ hc) hi] at q2
    have hle' : (t, d.weight) ∈ (ts m).take (c m) ∨ ∀ x ∈ (ts m).take (c m), d.weight ≤ x.2 := by
      rcases k3' m _ _ q2 with h | h
      · have hp := k2 m
        rw [← List.take_append_drop (c m) (ts m)] at h hp
        rw [List.mem_append] at h
        rcases h with h | h
        · exact .inl h
        · exact .inr fun x hx => (List.pairwise_append.1 hp).2.2 x hx _ h
      · exact .inr fun x hx => h.2 x (List.mem_of_mem_take hx)
    rcases hle' with h | h
    · exact .inl (p4 m e d hnum hder _ h q1)
    · refine .inr fun y hy => ?_
      obtain ⟨x, hx, e⟩ := p3 m y hy
      rw [← e]
      exact h x hx
  · obtain ⟨t, q1, q2⟩ := derivation_candidate hA hfac ho hg hmk hm1 hnum hder
    have hx := derives_ne_zero hA h0 q2
    rw [← chart_iff hA hg hw h0 hpre houts hst hm3 hn (hdel ▸ hc) hi] at q2
    obtain ⟨M, hM⟩ := mem_of_fair (t := t) (automaton_fair hA mask (rulesLeOne_of hle mask) (cyclesVanish_of hA hvan mask)
      (fun i j q => ∃ w, chart.getWeight i j q = some (some w)) word.length A.initial hx)
    refine ⟨M, fun m hm => p4 m e d hnum hder (t, d.weight) ?_ q1⟩
    rw [List.take_of_length_le (le_trans (k0 m) (hc2 m hcand))]
    exact hM m hm _ (k1 m) (k3 m) (k3' m _ _ q2)

end

end Rustomata
