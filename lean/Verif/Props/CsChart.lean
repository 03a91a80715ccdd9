import Verif.Proofs.CsChart

/-!
# Property C39: chart cells do not collide
-/

namespace Rustomata.Props
open Spec

variable {W : Type _}

/-- **C39** The index of a span of a word of length `n` exists, and is a position of the allocated table. -/
theorem C39_in_range {i j n : Nat} (hij : i < j) (hj : j ≤ n) : ∃ k, chartIndex i j n = some k ∧ k < chartSize n :=
  ⟨_, chartIndex_eq hij hj, chartIndex_lt hij hj (chartIndex_eq hij hj)⟩

/-- **C39** Different spans have different indices. -/
theorem C39_injective {i j i' j' n : Nat} (hij : i < j) (hj : j ≤ n) (hij' : i' < j') (hj' : j' ≤ n)
    (h : chartIndex i j n = chartIndex i' j' n) : i = i' ∧ j = j' := by
  obtain ⟨k, hk, _⟩ := C39_in_range hij hj
  exact chartIndex_inj hij hj hij' hj' hk (h ▸ hk)

/-- **C39** Each position of the table is the index of a span. -/
theorem C39_fills {n k : Nat} (hk : k < chartSize n) : ∃ i j, i < j ∧ j ≤ n ∧ chartIndex i j n = some k :=
  chartIndex_surj hk

/-- **C39** The index of a span and a state exists, and is a position of the allocated table. -/
theorem C39_state_in_range {i j q n states : Nat} (hij : i < j) (hj : j ≤ n) (hq : q < states) :
    ∃ k, chartIndexWithState i j q n states = some k ∧ k < chartSizeWithStates n states := by
  obtain ⟨k, hk, hl⟩ := C39_in_range hij hj
  refine ⟨k * states + q, by simp [chartIndexWithState, hk], ?_⟩
  rw [chartSizeWithStates_eq]
  exact mul_add_lt hq hl

/-- **C39** Different pairs of span and state have different indices. -/
theorem C39_state_injective {i j q i' j' q' n states : Nat} (hij : i < j) (hj : j ≤ n) (hq : q < states) (hij' : i' < j') (hj' : j' ≤ n)
    (hq' : q' < states) (h : chartIndexWithState i j q n states = chartIndexWithState i' j' q' n states) : i = i' ∧ j = j' ∧ q = q' := by
  obtain ⟨k, hk, _⟩ := C39_in_range hij hj
  obtain ⟨k', hk', _⟩ := C39_in_range hij' hj'
  simp only [chartIndexWithState, hk, hk', Option.map_some, Option.some.injEq] at h
  obtain ⟨rfl, rfl⟩ := mul_add_inj hq hq' h
  exact ⟨(chartIndex_inj hij hj hij' hj' hk hk').1, (chartIndex_inj hij hj hij' hj' hk hk').2, rfl⟩

/-- **C39** Each position of the table of weights is the index of a span and a state. -/
theorem C39_state_fills {n states k : Nat} (hk : k < chartSizeWithStates n states) :
    ∃ i j q, i < j ∧ j ≤ n ∧ q < states ∧ chartIndexWithState i j q n states = some k := by
  rw [chartSizeWithStates_eq] at hk
  have hs : 0 < states := by
    rcases Nat.eq_zero_or_pos states with h | h
    · subst h; simp at hk
    · exact h
  obtain ⟨i, j, hij, hj, h⟩ := C39_fills (Nat.div_lt_of_lt_mul (by rwa [Nat.mul_comm] at hk) : k / states < chartSize n)
  refine ⟨i, j, k % states, hij, hj, Nat.mod_lt _ hs, ?_⟩
  simp only [chartIndexWithState, h, Option.map_some]
  rw [Nat.mul_comm, Nat.div_add_mod]

/-- An entry to be added. -/
structure NewEntry (W : Type _) where
  i : Nat
  j : Nat
  state : Nat
  weight : W

/-- **C39** After any sequence of additions to valid spans and states, no operation panics, the entries of a span are those added to it, in order and up to
`beam` of them, and the weight of a state in a span is the one that was added last among these (and not zero). -/
theorem C39_chart_refines [Zero W] [DecidableEq W] {n states beam : Nat} (hb : beam ≤ 65535) (es : List (NewEntry W))
    (hes : ∀ e ∈ es, e.i < e.j ∧ e.j ≤ n ∧ e.state < states) :
    ∃ c₀ c : DenseChart W, DenseChart.new n states beam = some c₀ ∧
      es.foldlM (fun c e => c.addEntry e.i e.j e.state e.weight) c₀ = some c ∧
      ∀ i j, i < j → j ≤ n →
        let l := ((es.filter fun e => e.i = i ∧ e.j = j).take beam).map fun e => (e.state, e.weight)
        c.iterateNont i j = some l ∧
        ∀ q < states, c.getWeight i j q = some ((lastWeight q l).filter fun w => w ≠ 0) := by
  obtain ⟨c₀, h0, h1, h2, h3, h4⟩ := DenseChart.refines_new (W := W) (n := n) (states := states) hb
  refine ⟨c₀, ?_⟩
  suffices H : ∀ (es : List (NewEntry W)) (c₀ : DenseChart W) (a : AbsChart W), c₀.n = n → c₀.states = states → c₀.beam = beam → c₀.Refines a →
      (∀ e ∈ es, e.i < e.j ∧ e.j ≤ n ∧ e.state < states) →
      ∃ c a', es.foldlM (fun c e => c.addEntry e.i e.j e.state e.weight) c₀ = some c ∧ c.n = n ∧ c.states = states ∧ c.Refines a' ∧
        ∀ i j, a' i j = (a i j ++ (es.filter fun e => e.i = i ∧ e.j = j).map fun e => (e.state, e.weight)).take beam by
    obtain ⟨c, a', hc, hn, hs, hr, ha⟩ := H es c₀ _ h1 h2 h3 h4 hes
    refine ⟨c, h0, hc, fun i j hij hj => ?_⟩
    have hl : ((es.filter fun e => e.i = i ∧ e.j = j).take beam).map (fun e => (e.state, e.weight)) = a' i j := by
      rw [ha, List.nil_append, List.map_take]
    simp only [hl]
    exact ⟨hr.iterateNont hij (by omega), fun q hq => hr.getWeight hij (by omega) (by omega)⟩
  intro es
  induction es with
  | nil =>
    intro c₀ a hn hs hb' hr _
    refine ⟨c₀, a, rfl, hn, hs, hr, fun i j => ?_⟩
    simp only [List.filter_nil, List.map_nil, List.append_nil]
    rw [List.take_of_length_le]
    rw [← hb']
    exact hr.bound i j
  | cons e es ih =>
    intro c₀ a hn hs hb' hr hes
    obtain ⟨he1, he2, he3⟩ := hes e (.head _)
    obtain ⟨c₁, hc₁, hn₁, hs₁, hb₁, hr₁⟩ := hr.add e.weight he1 (by omega : e.j ≤ c₀.n) (by omega : e.state < c₀.states)
    obtain ⟨c, a', hc, hcn, hcs, hcr, ha⟩ :=
      ih c₁ _ (hn₁.trans hn) (hs₁.trans hs) (hb₁.trans hb') hr₁ fun e' he' => hes e' (.tail _ he')
    refine ⟨c, a', ?_, hcn, hcs, hcr, fun i j => ?_⟩
    · rw [List.foldlM_cons, hc₁]; exact hc
    · rw [ha i j]
      unfold AbsChart.add
      by_cases h : e.i = i ∧ e.j = j
      · obtain ⟨rfl, rfl⟩ := h
        simp only [true_and, List.filter_cons, and_self, decide_true, if_true, List.map_cons]
        split
        · rw [List.append_assoc]; rfl
        · have hlen : beam ≤ (a e.i e.j).length := by omega
          rw [List.take_append_of_le_length hlen, List.take_append_of_le_length hlen]
      · have h' : ¬ (i = e.i ∧ j = e.j ∧ (a e.i e.j).length < c₀.beam) := fun h'' => h ⟨h''.1.symm, h''.2.1.symm⟩
        rw [if_neg h']
        simp [h]

example : (List.range 3).flatMap (fun i => (List.range' (i + 1) (3 - i)).map fun j => chartIndex i j 3) =
    [some 0, some 3, some 5, some 1, some 4, some 2] := by decide

example : ((DenseChart.new (W := Nat) 2 2 1).bind fun c => (c.addEntry 0 1 1 7).bind fun c => (c.addEntry 0 1 0 5).bind fun c =>
    (c.addEntry 0 2 0 3).map fun c => (c.getWeight 0 1 1, c.getWeight 0 1 0, c.getWeight 0 2 0)) =
    some (some (some 7), some none, some (some 3)) := by decide

end Rustomata.Props
