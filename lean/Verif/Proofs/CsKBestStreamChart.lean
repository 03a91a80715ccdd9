import Verif.Proofs.CsKBestStreamFair
import Mathlib.Data.Finset.Card
import Mathlib.Logic.Relation

/-!
# The streams for a chart
-/

namespace Rustomata
open Spec

section
variable {N T W : Type _} [DecidableEq N] [DecidableEq T] [LinearOrderedCommMonoidWithZero W]

/-- The iterator returns the bracket words of a sequence of derivations in the chart, at least one if the chart has an item for the whole sentence; if it ends, then it
remains at the end. -/
def EnumeratesStream (A : CsAutomaton T W) (chart : DenseChart W) (filter : List Bool) (n : Nat) (ts : Nat → Option BinTree) : Prop :=
  (∀ k t, ts k = some t → (∃ w, ChartDerives (buGrammar A filter) (fun i j q => ∃ w, chart.getWeight i j q = some (some w)) 0 n A.initial t w) ∧
    ∃ v, treeWord A.brackets t = some v) ∧
  (∀ k k', k ≤ k' → ts k = none → ts k' = none) ∧
  ((∃ w, chart.getWeight 0 n A.initial = some (some w)) → (ts 0).isSome) ∧
  ∀ m, ∃ fuel₀, ∀ fuel ≥ fuel₀, KIter.run A chart filter fuel n m KIter.new = some ((List.range m).map fun k => (ts k).bind (treeWord A.brackets))

/-- No rule has the weight zero. -/
def RulesNeZero (G : BinGrammar T W) : Prop :=
  (∀ rid q a w, G.nullary rid q a w → w ≠ 0) ∧ (∀ rid q q₁ w, G.unary rid q q₁ w → w ≠ 0) ∧ ∀ rid q q₁ q₂ w, G.binary rid q q₁ q₂ w → w ≠ 0

/-- The first candidate of `q` is a chain rule to `q'`. -/
def FirstChain (h0 : Nat → Nat → Nat → List (W × Backtrace W)) (i j q q' : Nat) : Prop :=
  ∃ w b r, btPop (h0 i j q) = some ((w, b), r) ∧ ∃ rid v k, b = .unary rid q' v k

open Classical in
/-- The number of states that are reached from `q` by first candidates. -/
noncomputable def firstRank (h0 : Nat → Nat → Nat → List (W × Backtrace W)) (S i j q : Nat) : Nat :=
  ((Finset.range S).filter fun p => Relation.TransGen (FirstChain h0 i j) q p).card

open Classical in
theorem firstRank_le (h0 : Nat → Nat → Nat → List (W × Backtrace W)) (S i j q : Nat) : firstRank h0 S i j q ≤ S := by
  unfold firstRank
  exact (Finset.card_filter_le _ _).trans (by simp)

open Classical in
theorem firstRank_lt {h0 : Nat → Nat → Nat → List (W × Backtrace W)} {S i j q q' : Nat} (hq : q' < S) (h : FirstChain h0 i j q q')
    (hno : ¬ Relation.TransGen (FirstChain h0 i j) q' q') : firstRank h0 S i j q' < firstRank h0 S i j q := by
  unfold firstRank
  refine Finset.card_lt_card ((Finset.ssubset_iff_of_subset ?_).2 ⟨q', ?_, ?_⟩)
  · intro p hp
    rw [Finset.mem_filter] at hp ⊢
    exact ⟨hp.1, .head h hp.2⟩
  · rw [Finset.mem_filter, Finset.mem_range]
    exact ⟨hq, .single h⟩
  · rw [Finset.mem_filter]
    exact fun hp => hno hp.2

/-- The forest of a chart, ranked by first candidates. -/
noncomputable def streamForest (A : CsAutomaton T W) (chart : DenseChart W) (filter : List Bool) (n : Nat) : KForest W where
  I i j q := ((backtraces A chart filter i j q).getD []).map Prod.snd
  cw := chartWeight chart
  ok i j q := i < j ∧ j ≤ n ∧ q < A.states
  rank i j q := (j - i) * (A.states + 1) + firstRank (fun i j q => (backtraces A chart filter i j q).getD []) A.states i j q

variable {rules : List (Nat × PMCFGRule N T W)} {st : List (CsState N)} {ps : List (CsProd N T W × TdBrackets)} {factorize : W → Nat → List W}
  {A : CsAutomaton T W} {filter : List Bool} {chart : DenseChart W} {n : Nat}

theorem streamForest_of (hA : A.Rep st ps) (hf : filter.length = A.brackets.length)
    (hget : ∀ i j q, i < j → j ≤ n → q < A.states → ∃ o, chart.getWeight i j q = some o) : ForestOf (buGrammar A filter) (streamForest A chart filter n) := by
  have h := chartForest_of hA hf hget 0 fun _ => 0
  exact ⟨h.nullary, h.unary, h.binary⟩

theorem streamForest_kids (hA : A.Rep st ps) (hf : filter.length = A.brackets.length)
    (hget : ∀ i j q, i < j → j ≤ n → q < A.states → ∃ o, chart.getWeight i j q = some o) {i j q : Nat} {b : Backtrace W}
    (hok : (streamForest A chart filter n).ok i j q) (hb : b ∈ (streamForest A chart filter n).I i j q) (c : Nat × Nat × Nat) (hc : c ∈ b.kids i j) :
    (streamForest A chart filter n).ok c.1 c.2.1 c.2.2 ∧ ∃ w, (streamForest A chart filter n).cw c.1 c.2.1 c.2.2 = some w := by
  have hG := streamForest_of hA hf hget
  have hs : A.states = st.length := hA.len.1
  have hst : ∀ (q : Nat) Q, st[q]? = some Q → q < A.states := fun q Q h => hs ▸ (List.getElem?_eq_some_iff.1 h).1
  cases b with
  | nullary => simp [Backtrace.kids] at hc
  | unary rid q₁ v k =>
    simp only [Backtrace.kids, List.mem_singleton] at hc
    subst hc
    obtain ⟨_, hu, hw⟩ := (hG.unary hok).1 hb
    rw [hA.grammar] at hu
    obtain ⟨_, Q, S, _, _, hS⟩ := hu
    exact ⟨⟨hok.1, hok.2.1, hst _ _ hS⟩, hw⟩
  | binary rid q₁ m q₂ v k₁ k₂ =>
    obtain ⟨_, _, h1, h2, hu, h3, h4⟩ := (hG.binary hok).1 hb
    rw [hA.grammar] at hu
    obtain ⟨_, Q, L, R', _, _, hL, hR'⟩ := hu
    simp only [Backtrace.kids, List.mem_cons, List.not_mem_nil, or_false] at hc
    rcases hc with rfl | rfl
    · exact ⟨⟨h1, (show m ≤ n by have := hok.2.1; omega), hst _ _ hL⟩, h3⟩
    · exact ⟨⟨h2, hok.2.1, hst _ _ hR'⟩, h4⟩

theorem chart_ne_zero {i j q : Nat} {w : W} (h : chart.getWeight i j q = some (some w)) : w ≠ 0 := by
  unfold DenseChart.getWeight at h
  split at h
  · cases h
  · split at h
    · cases h
    · split at h
      · cases h
      · cases h
        assumption

/-- First candidates do not form cycles. -/
theorem firstChain_acyclic (hA : A.Rep st ps) (hf : filter.length = A.brackets.length)
    (hget : ∀ i j q, i < j → j ≤ n → q < A.states → ∃ o, chart.getWeight i j q = some o)
    (hreach : ChartReached (buGrammar A filter) (chartWeight chart) n A.states) (hcyc : CyclesLower (buGrammar A filter)) {i j q : Nat}
    (hok : (streamForest A chart filter n).ok i j q) {w : W} (hw : chartWeight chart i j q = some w) :
    ¬ Relation.TransGen (FirstChain (fun i j q => (backtraces A chart filter i j q).getD []) i j) q q := by
  have hG := streamForest_of hA hf hget
  have step : ∀ q q', (streamForest A chart filter n).ok i j q → FirstChain (fun i j q => (backtraces A chart filter i j q).getD []) i j q q' →
      (streamForest A chart filter n).ok i j q' ∧ ∃ rid v y, (buGrammar A filter).unary rid q q' v ∧ chartWeight chart i j q' = some y ∧
        ∀ x, chartWeight chart i j q = some x → x ≤ v * y := by
    rintro q q' hok ⟨w, b, r, h1, rid, v, k, rfl⟩
    obtain ⟨hperm, hmax⟩ := btPop_some h1
    have hmem := hperm.mem_iff.2 (List.mem_cons_self ..)
    obtain ⟨h, e1, _, e3⟩ := backtraces_spec hA hf hget hok.1 hok.2.1 hok.2.2
    simp only [e1, Option.getD_some] at hmem hperm
    obtain ⟨rfl, hu, y, hy, rfl⟩ := (e3 _ _).1 hmem
    have hI : (.unary rid q' v 0 : Backtrace W) ∈ (streamForest A chart filter n).I i j q := (hG.unary hok).2 ⟨rfl, hu, y, hy⟩
    refine ⟨(streamForest_kids hA hf hget hok hI (i, j, q') (by simp [Backtrace.kids])).1, rid, v, y, hu, hy, fun x hx => ?_⟩
    obtain ⟨b, hb⟩ := (hreach i j q x hok.1 hok.2.1 hok.2.2 hx).cand
    rw [← e3] at hb
    rcases List.mem_cons.1 (hperm.mem_iff.1 hb) with h2 | h2
    · cases h2
      exact le_refl _
    · exact le_of_btKey (hmax _ h2)
  have key : ∀ q', Relation.TransGen (FirstChain (fun i j q => (backtraces A chart filter i j q).getD []) i j) q q' →
      (streamForest A chart filter n).ok i j q' ∧ ∃ v y, ChainPath (buGrammar A filter) q q' v ∧ chartWeight chart i j q' = some y ∧ w ≤ v * y := by
    intro q' h
    induction h with
    | single h =>
      obtain ⟨h1, rid, v, y, h2, h3, h4⟩ := step _ _ hok h
      exact ⟨h1, v, y, .one h2, h3, h4 w hw⟩
    | tail h h' ih =>
      obtain ⟨g1, v', y', g2, g3, g4⟩ := ih
      obtain ⟨h1, rid, v, y, h2, h3, h4⟩ := step _ _ g1 h'
      have happ : ∀ {a b c : Nat} {u : W}, ChainPath (buGrammar A filter) a b u → ∀ {rid' : Nat} {u' : W}, (buGrammar A filter).unary rid' b c u' → ChainPath (buGrammar A filter) a c (u * u') := by
        intro a b c u hp
        induction hp with
        | one hu => exact fun hu' => .cons hu (.one hu')
        | cons hu _ ih =>
          intro rid' u' hu'
          rw [mul_assoc]
          exact .cons hu (ih hu')
      refine ⟨h1, v' * v, y, happ g2 h2, h3, g4.trans ?_⟩
      rw [mul_assoc]
      exact mul_le_mul_right (h4 y' g3) v'
  intro h
  obtain ⟨_, v, y, h1, h2, h3⟩ := key q h
  rw [hw, Option.some.injEq] at h2
  subst h2
  have hw0 : w ≠ 0 := by
    intro h0
    rw [chartWeight_some] at hw
    exact chart_ne_zero hw h0
  exact absurd (hcyc q v w h1 hw0) (not_lt.2 h3)

/-- Long chains have small weights. -/
theorem chainSteps_vanish (hA : A.Rep st ps) (hle : RulesLeOne (buGrammar A filter)) (hvan : CyclesVanish (buGrammar A filter)) {x : W} (hx : x ≠ 0) :
    ∃ L, ∀ q q' l v, ChainSteps (buGrammar A filter) q q' l v → L ≤ l → v < x := by
  refine ChainSteps.vanish (S := st.length) hle.2.1 ?_ ?_ hvan hx
  · intro rid q q₁ w hu
    rw [hA.grammar] at hu
    obtain ⟨_, Q, S, g1, g2, g3⟩ := hu
    exact ⟨(List.getElem?_eq_some_iff.1 g2).1, (List.getElem?_eq_some_iff.1 g3).1⟩
  · refine (List.finite_toSet (ps.map fun p => p.1.weight)).subset ?_
    rintro w ⟨rid, q, q₁, hu⟩
    rw [hA.grammar] at hu
    obtain ⟨_, Q, S, g1, g2, g3⟩ := hu
    rw [Option.map_eq_some_iff] at g1
    obtain ⟨p, g4, g5⟩ := g1
    rw [Set.mem_setOf_eq, List.mem_map]
    exact ⟨p, List.mem_of_getElem? g4, by rw [g5]; rfl⟩

/-- If cycles of chain rules lower the weights, then the iterator enumerates derivations in the chart, without end if there are infinitely many. If the weights are at most
one and the repetitions of cycles vanish, then it returns each derivation in the chart. -/
theorem enumeratesStream (hp : grammarProds factorize rules = some ps) (hA : A.Rep st ps) (hi : A.initial < A.states) (hf : filter.length = A.brackets.length)
    (hget : ∀ i j q, i < j → j ≤ n → q < A.states → ∃ o, chart.getWeight i j q = some o)
    (hreach : ChartReached (buGrammar A filter) (chartWeight chart) n A.states) (hcyc : CyclesLower (buGrammar A filter)) (hn0 : 0 < n) (hn : n ≤ 255) :
    ∃ ts, EnumeratesStream A chart filter n ts ∧
      (NoZeroDivisors W → RulesLeOne (buGrammar A filter) → RulesNeZero (buGrammar A filter) → CyclesVanish (buGrammar A filter) →
        (∀ i j q w, i < j → j ≤ n → q < A.states → chart.getWeight i j q = some (some w) → w ≤ 1) →
        ∀ t w, ChartDerives (buGrammar A filter) (fun i j q => ∃ w, chart.getWeight i j q = some (some w)) 0 n A.initial t w → ∃ k, ts k = some t) := by
  have hG := streamForest_of hA hf hget
  have hs : A.states = st.length := hA.len.1
  have hst : ∀ (q : Nat) Q, st[q]? = some Q → q < A.states := fun q Q h => hs ▸ (List.getElem?_eq_some_iff.1 h).1
  have hF : StreamForest (streamForest A chart filter n) (fun i j q => (backtraces A chart filter i j q).getD []) ((n + 1) * (A.states + 1)) := by
    refine ⟨rfl, chartForest_base (n := n) 0 (fun _ => 0), chartForest_inj hA hf hget 0 (fun _ => 0), streamForest_kids hA hf hget, ?_, ?_, ?_⟩
    · intro i j q w hok hw
      obtain ⟨b, hb⟩ := (hreach i j q w hok.1 hok.2.1 hok.2.2 hw).cand
      exact List.ne_nil_of_mem ((chartForest_mem hA hf hget 0 (fun _ => 0) hok b).2 ⟨_, hb⟩)
    · intro i j q w b r hok hpop c hc
      have hmem := (btPop_some hpop).1.mem_iff.2 (List.mem_cons_self ..)
      have hb : b ∈ (streamForest A chart filter n).I i j q := List.mem_map_of_mem (f := Prod.snd) hmem
      obtain ⟨hokc, y, hy⟩ := streamForest_kids hA hf hget hok hb c hc
      cases b with
      | nullary => simp [Backtrace.kids] at hc
      | unary rid q₁ v k =>
        simp only [Backtrace.kids, List.mem_singleton] at hc
        subst hc
        have := firstRank_lt hokc.2.2 ⟨w, _, r, hpop, rid, v, k, rfl⟩ (firstChain_acyclic hA hf hget hreach hcyc hokc hy)
        simp only [streamForest] at this ⊢
        omega
      | binary rid q₁ m q₂ v k₁ k₂ =>
        obtain ⟨_, _, h1, h2, _⟩ := (hG.binary hok).1 hb
        have e : j - i = (j - m) + (m - i) := by omega
        have p1 : A.states + 1 ≤ (j - m) * (A.states + 1) := Nat.le_mul_of_pos_left _ (by omega)
        have p2 : A.states + 1 ≤ (m - i) * (A.states + 1) := Nat.le_mul_of_pos_left _ (by omega)
        have f1 := firstRank_le (fun i j q => (backtraces A chart filter i j q).getD []) A.states i m q₁
        have f2 := firstRank_le (fun i j q => (backtraces A chart filter i j q).getD []) A.states m j q₂
        simp only [Backtrace.kids, List.mem_cons, List.not_mem_nil, or_false] at hc
        rcases hc with rfl | rfl
        · simp only [streamForest]
          rw [e, Nat.add_mul]
          omega
        · simp only [streamForest]
          rw [e, Nat.add_mul]
          omega
    · intro i j q hok
      have h1 : (j - i) * (A.states + 1) ≤ n * (A.states + 1) := Nat.mul_le_mul_right _ (by have := hok.2.1; omega)
      have f1 := firstRank_le (fun i j q => (backtraces A chart filter i j q).getD []) A.states i j q
      simp only [streamForest]
      rw [Nat.succ_mul]
      omega
  have hB : BtAt A chart filter (streamForest A chart filter n) fun i j q => (backtraces A chart filter i j q).getD [] := by
    intro i j q hok
    obtain ⟨h, h1, _⟩ := backtraces_spec hA hf hget hok.1 hok.2.1 hok.2.2
    simp only [h1, Option.getD_some]
  have hh : NoZeroDivisors W → RulesLeOne (buGrammar A filter) → RulesNeZero (buGrammar A filter) →
      (∀ i j q w, i < j → j ≤ n → q < A.states → chart.getWeight i j q = some (some w) → w ≤ 1) →
      ∀ i j q, (streamForest A chart filter n).ok i j q → ∀ y ∈ (fun i j q => (backtraces A chart filter i j q).getD []) i j q, y.1 ≠ 0 ∧ y.1 ≤ 1 := by
    intro hz hle hnz hone i j q hok y hy
    simp only at hy
    obtain ⟨h, h1, _, h3⟩ := backtraces_spec hA hf hget hok.1 hok.2.1 hok.2.2
    rw [h1, Option.getD_some] at hy
    obtain ⟨w, b⟩ := y
    have hkid := streamForest_kids hA hf hget hok (b := b) (by
      simp only [streamForest, h1, Option.getD_some]
      exact List.mem_map_of_mem (f := Prod.snd) hy)
    have hc := (h3 w b).1 hy
    simp only
    cases b with
    | nullary rid v =>
      obtain ⟨rfl, _, a, ha⟩ := hc
      exact ⟨hnz.1 _ _ _ _ ha, hle.1 _ _ _ _ ha⟩
    | unary rid q₁ v k =>
      obtain ⟨_, hu, w₁, g1, rfl⟩ := hc
      rw [chartWeight_some] at g1
      exact ⟨mul_ne_zero (hnz.2.1 _ _ _ _ hu) (chart_ne_zero g1), mul_le_one' (hle.2.1 _ _ _ _ hu) (hone i j q₁ _ hok.1 hok.2.1 (hkid (i, j, q₁) (by simp [Backtrace.kids])).1.2.2 g1)⟩
    | binary rid q₁ m q₂ v k₁ k₂ =>
      obtain ⟨_, _, e1, e2, hu, w₁, w₂, g1, g2, rfl⟩ := hc
      rw [chartWeight_some] at g1 g2
      exact ⟨mul_ne_zero (hnz.2.2 _ _ _ _ _ hu) (mul_ne_zero (chart_ne_zero g1) (chart_ne_zero g2)),
        mul_le_one' (hle.2.2 _ _ _ _ _ hu) (mul_le_one' (hone i m q₁ _ e1 (by have := hok.2.1; omega) (hkid (i, m, q₁) (by simp [Backtrace.kids])).1.2.2 g1) (hone m j q₂ _ e2 hok.2.1 (hkid (m, j, q₂) (by simp [Backtrace.kids])).1.2.2 g2))⟩
  generalize (fun i j q => (backtraces A chart filter i j q).getD []) = h0 at hF hB hh
  have hbr : BracketsOK (buGrammar A filter) A.brackets := by
    rw [hA.grammar, hA.brackets]
    exact brackets_of_prods hp filter
  have hok : (streamForest A chart filter n).ok 0 n A.initial := ⟨hn0, le_refl _, hi⟩
  have hcw : (fun i j q => ∃ w, (streamForest A chart filter n).cw i j q = some w) = fun i j q => ∃ w, chart.getWeight i j q = some (some w) := by
    funext i j q
    simp only [streamForest, chartWeight_some]
  have hfam : ∀ k, ∃ o : Option BinTree, (elem (streamForest A chart filter n) h0 ((n + 1) * (A.states + 1)) 0 n A.initial k = none → o = none) ∧
      ∀ p, elem (streamForest A chart filter n) h0 ((n + 1) * (A.states + 1)) 0 n A.initial k = some p → ∃ t v u, o = some t ∧
        DenotesS (elem (streamForest A chart filter n) h0 ((n + 1) * (A.states + 1))) 0 n p.1 t ∧
        ChartDerives (buGrammar A filter) (fun i j q => ∃ w, (streamForest A chart filter n).cw i j q = some w) 0 n A.initial t u ∧ treeWord A.brackets t = some v := by
    intro k
    cases hp : elem (streamForest A chart filter n) h0 ((n + 1) * (A.states + 1)) 0 n A.initial k with
    | none => exact ⟨none, fun _ => rfl, fun p h => by cases h⟩
    | some p =>
      obtain ⟨t, v, u, h1, h2, h3⟩ := elem_word hF hB hG hbr hok hp
      refine ⟨some t, nofun, fun p' h => ?_⟩
      cases h
      exact ⟨t, v, u, rfl, h1, h2, h3⟩
  choose ts hts1 hts2 using hfam
  have hiff : ∀ k, elem (streamForest A chart filter n) h0 ((n + 1) * (A.states + 1)) 0 n A.initial k = none ↔ ts k = none := by
    intro k
    refine ⟨hts1 k, fun h => ?_⟩
    cases hp : elem (streamForest A chart filter n) h0 ((n + 1) * (A.states + 1)) 0 n A.initial k with
    | none => rfl
    | some p =>
      obtain ⟨t, v, u, e, _⟩ := hts2 k p hp
      rw [h] at e
      cases e
  refine ⟨ts, ⟨?_, ?_, ?_, ?_⟩, ?_⟩
  · intro k t hk
    cases hp : elem (streamForest A chart filter n) h0 ((n + 1) * (A.states + 1)) 0 n A.initial k with
    | none =>
      rw [hts1 k hp] at hk
      cases hk
    | some p =>
      obtain ⟨t', v, u, e, h1, h2, h3⟩ := hts2 k p hp
      rw [hk, Option.some.injEq] at e
      subst e
      rw [hcw] at h2
      exact ⟨⟨u, h2⟩, v, h3⟩
  · intro k k' hkk hk
    rw [← hiff, hF.elem_eq hok] at hk ⊢
    exact pelem_none_le hkk hk
  · rintro ⟨w, hw⟩
    obtain ⟨p, hp⟩ := hF.elem_zero hok (chartWeight_some.2 hw)
    obtain ⟨t, _, _, e, _⟩ := hts2 0 p hp
    rw [e]
    rfl
  · intro m
    refine ⟨smeasure (streamForest A chart filter n) ((n + 1) * (A.states + 1)) 0 n A.initial m + 1, fun fuel hfuel => ?_⟩
    have := run_s hF hB hG hbr hn hok (fuel := fuel) (ws := fun k => (ts k).bind (treeWord A.brackets))
      (fun k hk => by rw [hts1 k hk]; rfl)
      (fun k p hk => by
        obtain ⟨t', v, u, e, h1, h2, h3⟩ := hts2 k p hk
        exact ⟨t', v, h1, h3, by rw [e]; exact h3⟩) m (it := KIter.new) (by simp only [KIter.new, Nat.zero_add]; omega) (by intro i j q cell h; cases h)
    rw [this]
    simp [KIter.new]
  · intro hz hle hnz hvan hone t w hd
    rw [← hcw] at hd
    have hv : ∀ x : W, x ≠ 0 → ∃ L, ∀ q q' l v, ChainSteps (buGrammar A filter) q q' l v → L ≤ l → v < x := by
      intro x hx
      exact chainSteps_vanish hA hle hvan hx
    obtain ⟨k, p, h1, h2⟩ := denotesS_complete hF hG hle hnz.2 (hh hz hle hnz hone) hv hd hok
    obtain ⟨t', v, u, e, h3, _⟩ := hts2 k p h1
    exact ⟨k, by rw [e, h2.det h3]⟩

end

end Rustomata
