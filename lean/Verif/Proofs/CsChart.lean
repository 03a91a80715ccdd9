import Verif.Model.CsChart
import Verif.Spec.CsChart
import Mathlib.Tactic.Ring
import Mathlib.Tactic.Linarith
import Mathlib.Algebra.Group.Nat.Even
import Mathlib.Order.Basic

/-!
# Proofs for the chart
-/

namespace Rustomata
open Spec

/-! ### index arithmetic -/

theorem chartSize_two (m : Nat) : 2 * chartSize m = m * (m + 1) := by
  unfold chartSize
  obtain ⟨k, hk⟩ := Nat.even_mul_succ_self m
  omega

theorem chartSize_succ (m : Nat) : chartSize (m + 1) = chartSize m + (m + 1) := by
  have h1 := chartSize_two m
  have h2 := chartSize_two (m + 1)
  nlinarith

theorem chartSize_mono {m k : Nat} (h : m ≤ k) : chartSize m ≤ chartSize k := by
  induction h with
  | refl => exact le_refl _
  | step _ ih => rw [chartSize_succ]; omega

theorem chartSizeWithStates_eq (n s : Nat) : chartSizeWithStates n s = chartSize n * s := by
  unfold chartSizeWithStates
  rw [← chartSize_two, mul_assoc]
  omega

/-- The position of a span: spans of smaller width come first. -/
theorem chartIndex_eq {i j n : Nat} (hij : i < j) (hj : j ≤ n) :
    chartIndex i j n = some (chartSize n - chartSize (n - (j - i) + 1) + i) := by
  have h1 : i ≤ j ∧ j - i ≤ n := by omega
  have hm : n - (j - i) + 1 ≤ n := by omega
  have hs := chartSize_mono hm
  have e1 := chartSize_two n
  have e2 := chartSize_two (n - (j - i) + 1)
  have e3 : n - (j - i) + 2 = n - (j - i) + 1 + 1 := rfl
  unfold chartIndex
  rw [if_pos h1, e3, ← e1, ← e2, if_pos (by omega)]
  congr 1
  omega

theorem chartIndex_lt {i j n k : Nat} (hij : i < j) (hj : j ≤ n) (h : chartIndex i j n = some k) : k < chartSize n := by
  rw [chartIndex_eq hij hj, Option.some.injEq] at h
  have h1 := chartSize_succ (n - (j - i))
  have hm : n - (j - i) + 1 ≤ n := by omega
  have hs := chartSize_mono hm
  omega

theorem chartIndex_inj {i j i' j' n k : Nat} (hij : i < j) (hj : j ≤ n) (hij' : i' < j') (hj' : j' ≤ n)
    (h : chartIndex i j n = some k) (h' : chartIndex i' j' n = some k) : i = i' ∧ j = j' := by
  rw [chartIndex_eq hij hj, Option.some.injEq] at h
  rw [chartIndex_eq hij' hj', Option.some.injEq] at h'
  have h1 := chartSize_succ (n - (j - i))
  have h1' := chartSize_succ (n - (j' - i'))
  have hs := chartSize_mono (show n - (j - i) + 1 ≤ n by omega)
  have hs' := chartSize_mono (show n - (j' - i') + 1 ≤ n by omega)
  rcases Nat.lt_trichotomy (j - i) (j' - i') with hd | hd | hd
  · have := chartSize_mono (show n - (j' - i') + 1 ≤ n - (j - i) by omega)
    omega
  · rw [hd] at h
    omega
  · have := chartSize_mono (show n - (j - i) + 1 ≤ n - (j' - i') by omega)
    omega

theorem chartIndex_surj {n k : Nat} (hk : k < chartSize n) : ∃ i j, i < j ∧ j ≤ n ∧ chartIndex i j n = some k := by
  -- the least `m` such that at most `k` positions are outside of the last `chartSize m`
  have hex : ∃ m, chartSize n ≤ k + chartSize m := ⟨n, by omega⟩
  let m := Nat.find hex
  have hm : chartSize n ≤ k + chartSize m := Nat.find_spec hex
  have hmn : m ≤ n := Nat.find_min' hex (by omega)
  have hm0 : m ≠ 0 := by
    intro h0
    rw [h0] at hm
    simp [chartSize] at hm
    have : chartSize n = n * (n + 1) / 2 := rfl
    omega
  have hpred : ¬ chartSize n ≤ k + chartSize (m - 1) := Nat.find_min hex (show m - 1 < m by omega)
  have h1 := chartSize_succ (m - 1)
  have h2 := chartSize_mono hmn
  have h3 : m - 1 + 1 = m := by omega
  rw [h3] at h1
  refine ⟨k + chartSize m - chartSize n, k + chartSize m - chartSize n + (n + 1 - m), by omega, by omega, ?_⟩
  rw [chartIndex_eq (by omega) (by omega)]
  have h4 : n - (k + chartSize m - chartSize n + (n + 1 - m) - (k + chartSize m - chartSize n)) + 1 = m := by omega
  rw [h4]
  congr 1
  omega

/-- Positions of states. -/
theorem mul_add_inj {s a b q q' : Nat} (hq : q < s) (hq' : q' < s) (h : a * s + q = b * s + q') : a = b ∧ q = q' := by
  have h1 : (a * s + q) / s = a := by
    rw [Nat.mul_comm, Nat.mul_add_div (by omega), Nat.div_eq_of_lt hq, Nat.add_zero]
  have h2 : (b * s + q') / s = b := by
    rw [Nat.mul_comm, Nat.mul_add_div (by omega), Nat.div_eq_of_lt hq', Nat.add_zero]
  rw [h, h2] at h1
  subst h1
  omega

theorem mul_add_lt {s a m q : Nat} (hq : q < s) (ha : a < m) : a * s + q < m * s := by
  have : (a + 1) * s ≤ m * s := Nat.mul_le_mul_right _ ha
  rw [Nat.add_mul] at this
  omega

theorem mul_add_lt_or {s a b q q' : Nat} (hq : q < s) (hq' : q' < s) (hab : a ≠ b) : a * s + q ≠ b * s + q' :=
  fun h => hab (mul_add_inj hq hq' h).1

/-! ### refinement -/

namespace DenseChart
variable {W : Type _} [Zero W] [DecidableEq W]

/-- A chart represents an abstract chart. -/
structure Refines (c : DenseChart W) (a : AbsChart W) : Prop where
  counts : c.counts.length = chartSize c.n
  entries : c.entries.length = chartSize c.n * c.beam
  weights : c.weights.length = chartSize c.n * c.states
  count : ∀ i j, i < j → j ≤ c.n → ∀ k, chartIndex i j c.n = some k → c.counts[k]? = some (a i j).length
  bound : ∀ i j, (a i j).length ≤ c.beam
  entry : ∀ i j, i < j → j ≤ c.n → ∀ k, chartIndex i j c.n = some k →
    ∀ m, m < (a i j).length → c.entries[k * c.beam + m]? = (a i j)[m]?
  weight : ∀ i j, i < j → j ≤ c.n → ∀ k, chartIndex i j c.n = some k →
    ∀ q, q < c.states → c.weights[k * c.states + q]? = some ((lastWeight q (a i j)).getD 0)

omit [DecidableEq W] in
theorem refines_new {n states beam : Nat} (hb : beam ≤ 65535) :
    ∃ c : DenseChart W, new n states beam = some c ∧ c.n = n ∧ c.states = states ∧ c.beam = beam ∧ c.Refines fun _ _ => [] := by
  refine ⟨_, by unfold new; rw [if_pos hb], rfl, rfl, rfl, ?_⟩
  constructor
  · simp
  · simp
  · simp [chartSizeWithStates_eq]
  · intro i j hij hj k hk
    simp only [List.length_nil]
    rw [List.getElem?_replicate, if_pos (chartIndex_lt hij hj hk)]
  · simp
  · intro i j _ _ k _ m hm
    simp at hm
  · intro i j hij hj k hk q hq
    simp only at hk hq ⊢
    rw [chartSizeWithStates_eq, List.getElem?_replicate, if_pos (mul_add_lt hq (chartIndex_lt hij hj hk))]
    simp [lastWeight]

omit [Zero W] [DecidableEq W] in
theorem lastWeight_append (q q' : Nat) (w : W) (l : List (Nat × W)) :
    lastWeight q (l ++ [(q', w)]) = if q' = q then some w else lastWeight q l := by
  unfold lastWeight
  simp only [List.reverse_append, List.reverse_cons, List.reverse_nil, List.nil_append, List.singleton_append, List.find?_cons]
  by_cases h : q' = q
  · simp [h]
  · rw [show (q' == q) = false by simpa using h, if_neg h]

omit [DecidableEq W] in
/-- Adding an entry. -/
theorem Refines.add {c : DenseChart W} {a : AbsChart W} (h : c.Refines a) {i j q : Nat} (w : W) (hij : i < j) (hj : j ≤ c.n) (hq : q < c.states) :
    ∃ c', c.addEntry i j q w = some c' ∧ c'.n = c.n ∧ c'.states = c.states ∧ c'.beam = c.beam ∧
      c'.Refines (a.add c.beam i j q w) := by
  obtain ⟨k, hk⟩ : ∃ k, chartIndex i j c.n = some k := ⟨_, chartIndex_eq hij hj⟩
  have hkl := chartIndex_lt hij hj hk
  have hc := h.count i j hij hj k hk
  unfold addEntry
  rw [hk]
  simp only [hc]
  by_cases hb : (a i j).length < c.beam
  swap
  · rw [if_neg hb]
    refine ⟨c, rfl, rfl, rfl, rfl, ?_⟩
    have : a.add c.beam i j q w = a := by
      funext i' j'
      simp [AbsChart.add, hb]
    rw [this]
    exact h
  rw [if_pos hb, if_pos ⟨by rw [h.entries]; exact mul_add_lt hb hkl, by rw [h.weights]; exact mul_add_lt hq hkl⟩]
  refine ⟨_, rfl, rfl, rfl, rfl, ?_⟩
  have hadd : ∀ i' j', a.add c.beam i j q w i' j' = if i' = i ∧ j' = j then a i j ++ [(q, w)] else a i' j' := by
    intro i' j'
    simp [AbsChart.add, hb]
  constructor
  · simpa using h.counts
  · simpa using h.entries
  · simpa using h.weights
  · intro i' j' hij' hj' k' hk'
    simp only at hk' hj' ⊢
    rw [hadd]
    by_cases he : i' = i ∧ j' = j
    · obtain ⟨rfl, rfl⟩ := he
      rw [hk, Option.some.injEq] at hk'
      subst hk'
      rw [if_pos ⟨rfl, rfl⟩, List.getElem?_set_self (by rw [h.counts]; exact hkl)]
      simp
    · rw [if_neg he, List.getElem?_set_ne]
      · exact h.count i' j' hij' hj' k' hk'
      · rintro rfl
        exact he (chartIndex_inj hij' hj' hij hj hk' hk)
  · intro i' j'
    rw [hadd]
    split
    · simp only [List.length_append, List.length_singleton]; omega
    · exact h.bound i' j'
  · intro i' j' hij' hj' k' hk' m hm
    simp only at hk' hj' ⊢
    rw [hadd] at hm ⊢
    by_cases he : i' = i ∧ j' = j
    · obtain ⟨rfl, rfl⟩ := he
      rw [hk, Option.some.injEq] at hk'
      subst hk'
      rw [if_pos ⟨rfl, rfl⟩] at hm ⊢
      simp only [List.length_append, List.length_singleton] at hm
      by_cases hml : m = (a i' j').length
      · subst hml
        rw [List.getElem?_set_self (by rw [h.entries]; exact mul_add_lt hb hkl)]
        simp
      · rw [List.getElem?_set_ne (by omega), h.entry i' j' hij hj k hk m (by omega), List.getElem?_append_left (by omega)]
    · rw [if_neg he] at hm ⊢
      rw [List.getElem?_set_ne]
      · exact h.entry i' j' hij' hj' k' hk' m hm
      · refine mul_add_lt_or hb (lt_of_lt_of_le hm (h.bound i' j')) ?_
        rintro rfl
        exact he (chartIndex_inj hij' hj' hij hj hk' hk)
  · intro i' j' hij' hj' k' hk' q' hq'
    simp only at hk' hj' hq' ⊢
    rw [hadd]
    by_cases he : i' = i ∧ j' = j
    · obtain ⟨rfl, rfl⟩ := he
      rw [hk, Option.some.injEq] at hk'
      subst hk'
      rw [if_pos ⟨rfl, rfl⟩]
      rw [lastWeight_append]
      by_cases hqq : q = q'
      · subst hqq
        rw [List.getElem?_set_self (by rw [h.weights]; exact mul_add_lt hq hkl)]
        simp
      · rw [List.getElem?_set_ne (by omega), if_neg hqq]
        exact h.weight i' j' hij hj k hk q' hq'
    · rw [if_neg he, List.getElem?_set_ne]
      · exact h.weight i' j' hij' hj' k' hk' q' hq'
      · refine mul_add_lt_or hq hq' ?_
        rintro rfl
        exact he (chartIndex_inj hij' hj' hij hj hk' hk)

/-- Reading a weight. -/
theorem Refines.getWeight {c : DenseChart W} {a : AbsChart W} (h : c.Refines a) {i j q : Nat} (hij : i < j) (hj : j ≤ c.n) (hq : q < c.states) :
    c.getWeight i j q = some ((lastWeight q (a i j)).filter fun w => w ≠ 0) := by
  obtain ⟨k, hk⟩ : ∃ k, chartIndex i j c.n = some k := ⟨_, chartIndex_eq hij hj⟩
  unfold DenseChart.getWeight chartIndexWithState
  rw [hk]
  simp only [Option.map_some, h.weight i j hij hj k hk q hq]
  cases lastWeight q (a i j) with
  | none => simp
  | some w => by_cases hw : w = 0 <;> simp [hw, Option.filter]

omit [DecidableEq W] in
/-- Reading the entries. -/
theorem Refines.iterateNont {c : DenseChart W} {a : AbsChart W} (h : c.Refines a) {i j : Nat} (hij : i < j) (hj : j ≤ c.n) :
    c.iterateNont i j = some (a i j) := by
  obtain ⟨k, hk⟩ : ∃ k, chartIndex i j c.n = some k := ⟨_, chartIndex_eq hij hj⟩
  have hkl := chartIndex_lt hij hj hk
  have hkb : k * c.beam + c.beam ≤ chartSize c.n * c.beam := by
    have := Nat.mul_le_mul_right c.beam (show k + 1 ≤ chartSize c.n from hkl)
    rwa [Nat.add_mul, Nat.one_mul] at this
  unfold DenseChart.iterateNont
  rw [hk]
  simp only [h.count i j hij hj k hk]
  rw [if_pos (by rw [h.entries]; have := h.bound i j; omega)]
  congr 1
  refine List.ext_getElem? fun m => ?_
  rw [List.getElem?_take]
  by_cases hm : m < (a i j).length
  · rw [if_pos hm, List.getElem?_drop]
    exact h.entry i j hij hj k hk m hm
  · rw [if_neg hm, List.getElem?_eq_none (by omega)]

end DenseChart

end Rustomata
