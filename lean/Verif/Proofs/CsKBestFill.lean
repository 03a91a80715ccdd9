import Verif.Proofs.CsKBestChart
import Verif.Proofs.Pmcfg

/-!
# The enumeration of the derivations in a filled chart
-/

namespace Rustomata
open Spec KForest

section
variable {N T W : Type _}

/-- The brackets of a production. -/
def BracketsOf : CsProd N T W × TdBrackets → Prop
  | (.nullary _ _ _, b) => ∃ rid cid, b = ⟨.component rid cid, .terminal, .ignore⟩
  | (.unary _ _ _, b) => ∃ rid cid i j, b = ⟨.component rid cid, .variable rid i j, .ignore⟩
  | (.binary _ _ _ _, b) => (b.outer = .ignore ∨ ∃ rid cid, b.outer = .component rid cid) ∧ (b.left = .ignore ∨ ∃ rid i j, b.left = .variable rid i j) ∧
      ∃ rid i j, b.right = .variable rid i j

theorem varSymbol_some {rid : Nat} {tail : List N} {x : VarT T} {v : CsState N × BracketContent} (h : varSymbol rid tail x = some v) :
    ∃ i j n, x = .var i j ∧ tail[i]? = some n ∧ v = (.non n j, .variable rid i j) := by
  cases x with
  | t a => simp [varSymbol] at h
  | var i j =>
    simp only [varSymbol, Option.map_eq_some_iff] at h
    obtain ⟨n, h1, rfl⟩ := h
    exact ⟨i, j, n, rfl, h1, rfl⟩

theorem leftBranch_brackets [One W] {inner : Nat → CsState N} {lhs : CsState N} {rid cid : Nat} :
    ∀ (c : List (CsState N × BracketContent)) (off : Nat) (q₀ : CsState N × BracketContent) (w : W),
      (q₀.2 = .ignore ∨ ∃ rid i j, q₀.2 = .variable rid i j) → (∀ v ∈ c, ∃ rid i j, v.2 = .variable rid i j) →
      ∀ p ∈ leftBranch (T := T) inner lhs (.component rid cid) off q₀ c w, BracketsOf p
  | [], _, _, _, _, _, p, hp => by simp [leftBranch] at hp
  | [q₁], off, q₀, w, h0, hc, p, hp => by
    simp only [leftBranch, List.mem_singleton] at hp
    subst hp
    exact ⟨.inr ⟨rid, cid, rfl⟩, h0, hc q₁ (by simp)⟩
  | q₁ :: q₂ :: c, off, q₀, w, h0, hc, p, hp => by
    simp only [leftBranch, List.mem_cons] at hp
    rcases hp with rfl | hp
    · exact ⟨.inl rfl, h0, hc q₁ (by simp)⟩
    · exact leftBranch_brackets (q₂ :: c) _ _ 1 (.inl rfl) (fun v hv => hc v (List.mem_cons_of_mem _ hv)) p hp

theorem componentProds_brackets [One W] {rid cid : Nat} {head : N} {tail : List N} {c : List (VarT T)} {w : W}
    {ps : List (CsProd N T W × TdBrackets)} (h : componentProds rid cid head tail c w = some ps) : ∀ p ∈ ps, BracketsOf p := by
  unfold componentProds at h
  split at h
  · simp at h
  · cases h
    simp only [List.mem_singleton]
    rintro p rfl
    exact ⟨rid, cid, rfl⟩
  · rw [Option.map_eq_some_iff] at h
    obtain ⟨v, hv, rfl⟩ := h
    obtain ⟨i, j, n, _, _, rfl⟩ := varSymbol_some hv
    simp only [List.mem_singleton]
    rintro p rfl
    exact ⟨rid, cid, i, j, rfl⟩
  · rename_i x y c
    split at h
    · rename_i v vs hv hvs
      cases h
      refine leftBranch_brackets _ _ _ _ (.inr ?_) fun u hu => ?_
      · obtain ⟨i, j, n, _, _, rfl⟩ := varSymbol_some hv
        exact ⟨rid, i, j, rfl⟩
      · rw [mapM_some_iff] at hvs
        obtain ⟨z, _, hz⟩ : ∃ z ∈ y :: c, varSymbol rid tail z = some u := by
          have := hvs.flip
          obtain ⟨k, hk⟩ := List.getElem?_of_mem hu
          obtain ⟨hlt, hget⟩ := List.getElem?_eq_some_iff.1 hk
          have h2 := (List.forall₂_iff_get.1 hvs).2 k (hvs.length_eq ▸ hlt) hlt
          simp only [List.get_eq_getElem] at h2
          rw [hget] at h2
          exact ⟨_, List.getElem_mem _, h2⟩
        obtain ⟨i, j, n, _, _, rfl⟩ := varSymbol_some hz
        exact ⟨rid, i, j, rfl⟩
    · simp at h

theorem componentsProds_brackets [One W] {rid : Nat} {head : N} {tail : List N} :
    ∀ (cs : List (List (VarT T) × W)) (cid : Nat) (ps : List (CsProd N T W × TdBrackets)),
      componentsProds rid head tail cs cid = some ps → ∀ p ∈ ps, BracketsOf p
  | [], cid, ps, h => by
    simp only [componentsProds, Option.some.injEq] at h
    subst h
    simp
  | (c, w) :: cs, cid, ps, h => by
    simp only [componentsProds] at h
    split at h
    · rename_i ps₁ ps₂ h1 h2
      cases h
      intro p hp
      rw [List.mem_append] at hp
      rcases hp with hp | hp
      · exact componentProds_brackets h1 p hp
      · exact componentsProds_brackets cs _ _ h2 p hp
    · simp at h

theorem grammarProds_brackets [One W] {factorize : W → Nat → List W} :
    ∀ (rules : List (Nat × PMCFGRule N T W)) (ps : List (CsProd N T W × TdBrackets)), grammarProds factorize rules = some ps → ∀ p ∈ ps, BracketsOf p
  | [], ps, h => by
    simp only [grammarProds, Option.some.injEq] at h
    subst h
    simp
  | (rid, r) :: rs, ps, h => by
    simp only [grammarProds] at h
    split at h
    · rename_i ps₁ ps₂ h1 h2
      cases h
      intro p hp
      rw [List.mem_append] at hp
      rcases hp with hp | hp
      · exact componentsProds_brackets _ _ _ h1 p hp
      · exact grammarProds_brackets rs _ h2 p hp
    · simp at h

theorem brackets_of_prods [One W] {factorize : W → Nat → List W} {rules : List (Nat × PMCFGRule N T W)} {st : List (CsState N)} {ps : List (CsProd N T W × TdBrackets)}
    (h : grammarProds factorize rules = some ps) (filter : List Bool) : BracketsOK (numGrammar st ps filter) (ps.map Prod.snd) := by
  have hb := grammarProds_brackets rules ps h
  have key : ∀ (rid : Nat) p, (ps[rid]?).map Prod.fst = some p → ∃ b, (ps.map Prod.snd)[rid]? = some b ∧ BracketsOf (p, b) := by
    intro rid p hp
    rw [Option.map_eq_some_iff] at hp
    obtain ⟨⟨p', b⟩, h1, rfl⟩ := hp
    exact ⟨b, by rw [List.getElem?_map, h1]; rfl, hb _ (List.mem_of_getElem? h1)⟩
  refine ⟨?_, ?_, ?_⟩
  · rintro rid q a w ⟨_, Q, hp, _⟩
    obtain ⟨b, h1, r, c, rfl⟩ := key rid _ hp
    exact ⟨_, h1, rfl, rfl⟩
  · rintro rid q q₁ w ⟨_, Q, S, hp, _⟩
    obtain ⟨b, h1, r, c, i, j, rfl⟩ := key rid _ hp
    exact ⟨_, h1, rfl, rfl⟩
  · rintro rid q q₁ q₂ w ⟨_, Q, L, R, hp, _⟩
    obtain ⟨b, h1, _, _, r, i, j, hr⟩ := key rid _ hp
    exact ⟨b, h1, by rw [hr]; rfl⟩

end

section
variable {N T W : Type _} [DecidableEq N] [DecidableEq T] [RoundedWeight W]

omit [DecidableEq N] [DecidableEq T] in
theorem chartWeight_some {chart : DenseChart W} {i j q : Nat} {w : W} : chartWeight chart i j q = some w ↔ chart.getWeight i j q = some (some w) := by
  unfold chartWeight
  cases chart.getWeight i j q <;> simp

omit [DecidableEq N] in
/-- The chart contains the greatest weights, if the terminal rules of the states in the chart fit the sentence. -/
theorem fillChart_best {A : CsAutomaton T W} {word : List T} {beam : Nat} {delta : W} {outs : SxOutside W} {filter : List Bool} {chart : DenseChart W}
    (hA : A.BuWF) (hn : word.length ≤ 255) (h : fillChart A word beam delta outs filter = some chart) (hu : ChainsLeOne (buGrammar A filter))
    (hT : ∀ i q rid a v, i < word.length → (∃ w, chart.getWeight i (i + 1) q = some (some w)) → (buGrammar A filter).nullary rid q a v → word[i]? = some a) :
    (∀ i j q, i < j → j ≤ word.length → q < A.states → ∃ o, chart.getWeight i j q = some o) ∧
      ChartBest (buGrammar A filter) (chartWeight chart) word.length A.states := by
  obtain ⟨a, hcn, hcs, hcb, href, hok, hemp⟩ := fillChart_spec hA hn h
  have hget : ∀ i j q, i < j → j ≤ word.length → q < A.states → chart.getWeight i j q = some ((lastWeight q (a i j)).filter fun w => w ≠ 0) :=
    fun i j q h1 h2 h3 => href.getWeight h1 (hcn ▸ h2) (hcs ▸ h3)
  have hmem : ∀ i j q w, i < j → j ≤ word.length → q < A.states → (chartWeight chart i j q = some w ↔ (q, w) ∈ a i j ∧ w ≠ 0) := by
    intro i j q w h1 h2 h3
    rw [chartWeight_some, hget i j q h1 h2 h3, Option.some.injEq, Option.filter_eq_some_iff]
    obtain ⟨H, hinv, _⟩ := hok i j h1 h2
    constructor
    · rintro ⟨g1, g2⟩
      exact ⟨lastWeight_mem g1, by simpa using g2⟩
    · rintro ⟨g1, g2⟩
      exact ⟨lastWeight_of_mem hinv.nodup g1, by simpa using g2⟩
  refine ⟨fun i j q h1 h2 h3 => ⟨_, hget i j q h1 h2 h3⟩, ?_⟩
  intro i j q w hij hj hq hw
  obtain ⟨H, hinv, hst, hstop⟩ := hok i j hij hj
  obtain ⟨hin, hw0⟩ := (hmem i j q w hij hj hq).1 hw
  obtain ⟨k, hk⟩ := List.getElem?_of_mem hin
  have hcand := hinv.entry k _ hk
  have halive : CsAlive outs word.length q i j := by
    rcases hcand with (⟨_, _, _, _, _, ho⟩ | ⟨_, _, _, _, _, _, _, _, _, _, _, _, _, ho, _⟩) | ⟨_, _, _, _, _, _, ho, _⟩ <;> exact ho
  constructor
  · rcases hcand with (⟨rid, t, h1, h2, h3, _⟩ | ⟨rid, m, q₁, w₁, q₂, w₂, v, h1, h2, h3, h4, h5, h6, _, h7⟩) | ⟨rid, q₁, w₁, v, h1, h2, _, h3⟩
    · simp only at h3
      subst h1
      exact .nullary h3
    · simp only at h4 h7
      subst h7
      have hw₁ : w₁ ≠ 0 := fun h0 => hw0 (by rw [h0, zero_mul, zero_mul])
      have hq₁ : q₁ < A.states := by
        obtain ⟨H', hinv', hst', _⟩ := hok i m h1 (by omega)
        exact hst' _ h3
      have hq₂ : q₂ < A.states := by
        obtain ⟨H', hinv', hst', _⟩ := hok m j h2 hj
        exact hst' _ (lastWeight_mem h5)
      rw [mul_comm w₁ v]
      exact .binary h1 h2 h4 ((hmem i m q₁ w₁ h1 (by omega) hq₁).2 ⟨h3, hw₁⟩) ((hmem m j q₂ w₂ h2 hj hq₂).2 ⟨lastWeight_mem h5, h6⟩)
    · simp only at h2 h3
      subst h3
      have hw₁ : w₁ ≠ 0 := fun h0 => hw0 (by rw [h0, mul_zero])
      have h1' := List.mem_of_mem_take h1
      exact .unary h2 ((hmem i j q₁ w₁ hij hj (hst _ h1')).2 ⟨h1', hw₁⟩)
  · intro w' hway
    have hc : CsCand (buGrammar A filter) (fun q => CsAlive outs word.length q i j) (CsBase (buGrammar A filter) word (CsAlive outs word.length) a i j) (a i j) (w', q) := by
      cases hway with
      | nullary h1 =>
        rename_i rid b
        exact .inl (.inl ⟨rid, b, rfl, hT i q rid b w' (by omega) ⟨w, chartWeight_some.1 hw⟩ h1, h1, halive⟩)
      | unary h1 h2 =>
        rename_i q₁ rid v w₁
        have hq₁ : q₁ < A.states := by
          obtain ⟨_, l, hl, _⟩ := h1
          have := (List.getElem?_eq_some_iff.1 hl).1
          rw [hA.unaries] at this
          exact this
        exact .inr ⟨rid, q₁, w₁, v, ((hmem i j q₁ w₁ hij hj hq₁).1 h2).1, h1, halive, rfl⟩
      | binary h1 h2 h3 h4 h5 =>
        rename_i m q₁ q₂ rid v w₁ w₂
        have hq₁ : q₁ < A.states := by
          obtain ⟨_, l, hl, _⟩ := h3
          exact (List.getElem?_eq_some_iff.1 hl).1
        have hq₂ : q₂ < A.states := by
          obtain ⟨_, l, hl, hm⟩ := h3
          exact (hA.binary _ _ hl _ hm).2.1
        obtain ⟨g1, g2⟩ := (hmem i m q₁ w₁ h1 (by omega) hq₁).1 h4
        obtain ⟨g3, g4⟩ := (hmem m j q₂ w₂ h2 hj hq₂).1 h5
        obtain ⟨H', hinv', _⟩ := hok m j h2 hj
        exact .inl (.inr ⟨rid, m, q₁, w₁, q₂, w₂, v, h1, h2, g1, h3, lastWeight_of_mem hinv'.nodup g3, g4, halive, by rw [mul_comm v w₁]⟩)
    rcases hinv.cover hu.shrink _ hc with hH | ⟨w'', h1, h2⟩
    · exact hinv.order hu.shrink _ hH _ hin
    · have := lastWeight_of_mem hinv.nodup h1
      rw [lastWeight_of_mem hinv.nodup hin] at this
      cases this
      exact h2

end

section
variable {N T W : Type _} [DecidableEq N] [DecidableEq T] [LinearOrderedCommMonoidWithZero W]

/-- The first `m` calls of the iterator return the bracket words of the best derivations in the chart, in descending order; if there are fewer derivations, all of
them. -/
def Enumerates (A : CsAutomaton T W) (chart : DenseChart W) (filter : List Bool) (n m : Nat) : Prop :=
  ∃ (ts : List (BinTree × W)) (words : List (List (Bracket BracketContent))), ts.length ≤ m ∧ (ts.map Prod.fst).Nodup ∧ ts.Pairwise (fun x y => y.2 ≤ x.2) ∧
    (∀ x ∈ ts, ChartDerives (buGrammar A filter) (fun i j q => ∃ w, chart.getWeight i j q = some (some w)) 0 n A.initial x.1 x.2) ∧
    (∀ t w, ChartDerives (buGrammar A filter) (fun i j q => ∃ w, chart.getWeight i j q = some (some w)) 0 n A.initial t w → (t, w) ∈ ts ∨
      (ts.length = m ∧ ∀ x ∈ ts, w ≤ x.2)) ∧
    List.Forall₂ (fun x v => treeWord A.brackets x.1 = some v) ts words ∧
    ∃ fuel₀, ∀ fuel ≥ fuel₀, KIter.run A chart filter fuel n m KIter.new = some ((List.range m).map fun k => words[k]?)

/-- All derivations in the chart in descending order; the first `m` calls of the iterator return the bracket words of the first ones. -/
def EnumeratesAll (A : CsAutomaton T W) (chart : DenseChart W) (filter : List Bool) (n : Nat) : Prop :=
  ∃ (ts : List (BinTree × W)) (words : List (List (Bracket BracketContent))), (ts.map Prod.fst).Nodup ∧ ts.Pairwise (fun x y => y.2 ≤ x.2) ∧
    (∀ x, x ∈ ts ↔ ChartDerives (buGrammar A filter) (fun i j q => ∃ w, chart.getWeight i j q = some (some w)) 0 n A.initial x.1 x.2) ∧
    List.Forall₂ (fun x v => treeWord A.brackets x.1 = some v) ts words ∧
    ∃ fuel₀, ∀ m, ∀ fuel ≥ fuel₀, KIter.run A chart filter fuel n m KIter.new = some ((List.range m).map fun k => words[k]?)

theorem enumeratesAll {factorize : W → Nat → List W} {rules : List (Nat × PMCFGRule N T W)} {st : List (CsState N)} {ps : List (CsProd N T W × TdBrackets)}
    {A : CsAutomaton T W} {filter : List Bool} {chart : DenseChart W} {n : Nat} (hp : grammarProds factorize rules = some ps) (hA : A.Rep st ps)
    (hi : A.initial < A.states) (hf : filter.length = A.brackets.length)
    (hget : ∀ i j q, i < j → j ≤ n → q < A.states → ∃ o, chart.getWeight i j q = some o) (hbest : ChartBest (buGrammar A filter) (chartWeight chart) n A.states)
    (hcyc : NoChainCycle (buGrammar A filter)) (hn0 : 0 < n) (hn : n ≤ 255) : EnumeratesAll A chart filter n := by
  obtain ⟨rank, hrank⟩ := hcyc
  obtain ⟨R, hR⟩ := exists_bound rank A.states
  have hF := chartForest_ok hA hf hget hR hrank hbest
  have hB := chartForest_bt hA hf hget R rank
  have hG := chartForest_of hA hf hget R rank
  have hbr : BracketsOK (buGrammar A filter) A.brackets := by
    rw [hA.grammar, hA.brackets]
    exact brackets_of_prods hp filter
  have hok : (chartForest A chart filter n R rank).ok 0 n A.initial := ⟨hn0, le_refl _, hi⟩
  have hcw : (fun i j q => ∃ w, (chartForest A chart filter n R rank).cw i j q = some w) = fun i j q => ∃ w, chart.getWeight i j q = some (some w) := by
    funext i j q
    simp only [chartForest, chartWeight_some]
  obtain ⟨ts, hts⟩ := exists_forall₂ (R := fun (p : Backtrace W × W) (t : BinTree) => Denotes (chartForest A chart filter n R rank) 0 n p.1 t ∧
      ChartDerives (buGrammar A filter) (fun i j q => ∃ w, (chartForest A chart filter n R rank).cw i j q = some w) 0 n A.initial t p.2)
    ((chartForest A chart filter n R rank).L 0 n A.initial) fun p hp => denotes_total hF hG _ hok rfl hp
  have hts' := hts.imp (fun p t h => h.1)
  obtain ⟨words, hwords⟩ := exists_forall₂ (R := fun t v => treeWord A.brackets t = some v) ts fun t ht => by
    obtain ⟨k, hk⟩ := List.getElem?_of_mem ht
    obtain ⟨hlt, hget'⟩ := List.getElem?_eq_some_iff.1 hk
    have h2 := (List.forall₂_iff_get.1 hts').2 k (hts'.length_eq ▸ hlt) hlt
    simp only [List.get_eq_getElem] at h2
    rw [hget'] at h2
    obtain ⟨t', v, d', f1, f2, _⟩ := readBt_spec hF hB hG hbr _ (d := []) hok (Nat.lt_succ_self _) (List.getElem_mem (hts'.length_eq ▸ hlt))
      (by intro i j q cell h; cases h)
    rw [f1.det h2] at f2
    exact ⟨v, f2⟩
  have hrun : ∀ m fuel, (chartForest A chart filter n R rank).rank 0 n A.initial < fuel →
      KIter.run A chart filter fuel n m KIter.new = some ((List.range m).map fun k => words[k]?) := fun m fuel hfuel => by
    have := run_spec hF hB hG hbr hn hok hfuel hts' hwords m (it := KIter.new) (by intro i j q cell h; cases h)
    rw [this]
    simp [KIter.new]
  -- the derivations with their weights
  have hlen := hts.length_eq
  have hlen' := hwords.length_eq
  have hnth : ∀ (k : Nat) t p, ts[k]? = some t → ((chartForest A chart filter n R rank).L 0 n A.initial)[k]? = some p →
      Denotes (chartForest A chart filter n R rank) 0 n p.1 t ∧
      ChartDerives (buGrammar A filter) (fun i j q => ∃ w, (chartForest A chart filter n R rank).cw i j q = some w) 0 n A.initial t p.2 := by
    intro k t p h1 h2
    obtain ⟨g1, rfl⟩ := List.getElem?_eq_some_iff.1 h1
    obtain ⟨g2, rfl⟩ := List.getElem?_eq_some_iff.1 h2
    exact (List.forall₂_iff_get.1 hts).2 k g2 g1
  have hzip : ∀ (k : Nat) x, (ts.zip (((chartForest A chart filter n R rank).L 0 n A.initial).map Prod.snd))[k]? = some x ↔
      ts[k]? = some x.1 ∧ (((chartForest A chart filter n R rank).L 0 n A.initial)[k]?).map Prod.snd = some x.2 := by
    intro k x
    rw [List.getElem?_zip_eq_some, List.getElem?_map]
  have hzlen : (ts.zip (((chartForest A chart filter n R rank).L 0 n A.initial).map Prod.snd)).length = ts.length := by
    rw [List.length_zip, List.length_map]
    omega
  have hfst : (ts.zip (((chartForest A chart filter n R rank).L 0 n A.initial).map Prod.snd)).map Prod.fst = ts :=
    List.map_fst_zip (by rw [List.length_map]; omega)
  have hall : ∀ t w, ChartDerives (buGrammar A filter) (fun i j q => ∃ w, chart.getWeight i j q = some (some w)) 0 n A.initial t w →
      ∃ k : Nat, (ts.zip (((chartForest A chart filter n R rank).L 0 n A.initial).map Prod.snd))[k]? = some (t, w) := by
    intro t w hd
    rw [← hcw] at hd
    obtain ⟨b, h1, h2⟩ := denotes_complete hF hG hd hok
    obtain ⟨k, hk⟩ := List.getElem?_of_mem h1
    have hlt := (List.getElem?_eq_some_iff.1 hk).1
    have hk2 : ts[k]? = some ts[k] := List.getElem?_eq_getElem (by omega)
    have h3 := (hnth k _ _ hk2 hk).1
    refine ⟨k, (hzip k _).2 ⟨?_, by rw [hk]; rfl⟩⟩
    rw [hk2, h2.det h3]
  have hsort : (ts.zip (((chartForest A chart filter n R rank).L 0 n A.initial).map Prod.snd)).Pairwise fun x y => y.2 ≤ x.2 := by
    rw [List.pairwise_iff_getElem]
    intro k k' h1 h2 hlt
    obtain ⟨_, g1⟩ := (hzip k _).1 (List.getElem?_eq_getElem h1)
    obtain ⟨_, g2⟩ := (hzip k' _).1 (List.getElem?_eq_getElem h2)
    exact hF.L_le hok g1 g2 hlt.le
  have hndup : ts.Nodup := by
    rw [List.nodup_iff_injective_getElem]
    rintro ⟨k, h1⟩ ⟨k', h2⟩ he
    simp only at he
    rw [Fin.mk.injEq]
    have g1 : ((chartForest A chart filter n R rank).L 0 n A.initial)[k]? = some _ := List.getElem?_eq_getElem (by omega)
    have g2 : ((chartForest A chart filter n R rank).L 0 n A.initial)[k']? = some _ := List.getElem?_eq_getElem (by omega)
    have e1 := (hnth k _ _ (List.getElem?_eq_getElem h1) g1).1
    have e2 := (hnth k' _ _ (List.getElem?_eq_getElem h2) g2).1
    rw [he] at e1
    have := denotes_inj hF _ hok rfl (List.mem_of_getElem? g1) (List.mem_of_getElem? g2) e1 e2
    rw [this] at g1
    exact Ok.L_index hF hok g1 g2
  refine ⟨ts.zip (((chartForest A chart filter n R rank).L 0 n A.initial).map Prod.snd), words, ?_,
    hsort, fun x => ⟨?_, ?_⟩, ?_, (chartForest A chart filter n R rank).rank 0 n A.initial + 1, fun m fuel hfuel => hrun m fuel (by omega)⟩
  · rw [hfst]
    exact hndup
  · intro hx
    obtain ⟨k, hk⟩ := List.getElem?_of_mem hx
    obtain ⟨h1, h2⟩ := (hzip k x).1 hk
    rw [Option.map_eq_some_iff] at h2
    obtain ⟨p, hp, h2⟩ := h2
    have := (hnth k _ _ h1 hp).2
    rw [h2, hcw] at this
    exact this
  · intro hd
    obtain ⟨k, hk⟩ := hall x.1 x.2 hd
    exact List.mem_of_getElem? hk
  · rw [List.forall₂_iff_get]
    constructor
    · rw [hzlen, hlen']
    · intro k h1 h2
      have := (List.forall₂_iff_get.1 hwords).2 k (by omega) (by omega)
      simp only [List.get_eq_getElem] at this ⊢
      rw [← this]
      simp

theorem EnumeratesAll.enumerates {A : CsAutomaton T W} {chart : DenseChart W} {filter : List Bool} {n : Nat} (h : EnumeratesAll A chart filter n) (m : Nat) :
    Enumerates A chart filter n m := by
  obtain ⟨ts, words, h1, h2, h3, h4, fuel₀, h5⟩ := h
  refine ⟨ts.take m, words.take m, List.length_take_le _ _, ?_, h2.sublist (List.take_sublist _ _), fun x hx => (h3 x).1 (List.mem_of_mem_take hx), ?_,
    List.forall₂_take m h4, fuel₀, fun fuel hfuel => ?_⟩
  · rw [List.map_take]
    exact h1.sublist (List.take_sublist _ _)
  · intro t w hd
    obtain ⟨k, hk⟩ := List.getElem?_of_mem ((h3 (t, w)).2 hd)
    by_cases hkm : k < m
    · refine .inl (List.mem_of_getElem? (i := k) ?_)
      rw [List.getElem?_take_of_lt hkm, hk]
    · obtain ⟨hlt, hk⟩ := List.getElem?_eq_some_iff.1 hk
      refine .inr ⟨by rw [List.length_take]; omega, fun x hx => ?_⟩
      obtain ⟨k', hk'⟩ := List.getElem?_of_mem hx
      rw [List.getElem?_take] at hk'
      split at hk'
      · rename_i hk'm
        obtain ⟨hlt', hk'⟩ := List.getElem?_eq_some_iff.1 hk'
        have := List.pairwise_iff_getElem.1 h2 k' k hlt' hlt (by omega)
        rw [hk, hk'] at this
        exact this
      · cases hk'
  · rw [h5 m fuel hfuel]
    refine congrArg some (List.map_congr_left fun k hk => ?_)
    rw [List.mem_range] at hk
    rw [List.getElem?_take_of_lt hk]

end

end Rustomata
