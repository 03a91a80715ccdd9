import Verif.Spec.Rounding
import Verif.Proofs.Recognise

/-!
# Rounded weights
-/

namespace Rustomata
open Spec

namespace Spec.LogWeight
variable {r : Rounding}

theorem cases_log (w : LogWeight r) : w = ofZero ∨ ∃ x h, w = ofLog x h := by
  match w with
  | none => exact .inl rfl
  | some ⟨x, h⟩ => exact .inr ⟨x, h, rfl⟩

theorem ofLog_le {x y : ℝ} {hx : r.round x = x} {hy : r.round y = y} : ofLog x hx ≤ ofLog y hy ↔ x ≤ y :=
  (WithBot.coe_le_coe (a := (⟨x, hx⟩ : {x : ℝ // r.round x = x})) (b := ⟨y, hy⟩)).trans Subtype.mk_le_mk

theorem ofZero_le (w : LogWeight r) : ofZero ≤ w := bot_le (α := WithBot {x : ℝ // r.round x = x}) (a := w)

theorem not_ofLog_le {x : ℝ} {hx : r.round x = x} : ¬ ofLog x hx ≤ ofZero := WithBot.not_coe_le_bot (⟨x, hx⟩ : {x : ℝ // r.round x = x})

theorem ofLog_mul {x y : ℝ} {hx : r.round x = x} {hy : r.round y = y} : ofLog x hx * ofLog y hy = ofLog (r.round (x + y)) (r.idem _) := rfl

theorem ofZero_mul (w : LogWeight r) : ofZero * w = ofZero := rfl

theorem mul_ofZero (w : LogWeight r) : w * ofZero = ofZero := by
  rcases w with _ | _ <;> rfl

theorem value_ofZero : (ofZero : LogWeight r).value = 0 := rfl

theorem value_ofLog {x : ℝ} {hx : r.round x = x} : ((ofLog x hx).value : ℝ) = Real.exp x := rfl

theorem value_one : (1 : LogWeight r).value = 1 := NNReal.eq (by rw [show (1 : LogWeight r) = ofLog 0 r.zero from rfl, value_ofLog]; simp)

theorem value_mono {u w : LogWeight r} (h : u ≤ w) : u.value ≤ w.value := by
  rcases cases_log u with rfl | ⟨x, hx, rfl⟩
  · simp [value_ofZero]
  · rcases cases_log w with rfl | ⟨y, hy, rfl⟩
    · exact absurd h not_ofLog_le
    · rw [← NNReal.coe_le_coe, value_ofLog, value_ofLog]
      exact Real.exp_le_exp.2 (ofLog_le.1 h)

theorem ofLog_le_one {x : ℝ} {hx : r.round x = x} : ofLog x hx ≤ 1 ↔ x ≤ 0 := ofLog_le (hy := r.zero)

/-- Multiplying with a weight of at most one does not increase, in spite of rounding. -/
theorem mul_le {u w : LogWeight r} (h : w ≤ 1) : u * w ≤ u := by
  rcases cases_log w with rfl | ⟨y, hy, rfl⟩
  · rw [mul_ofZero]; exact ofZero_le _
  · rcases cases_log u with rfl | ⟨x, hx, rfl⟩
    · rw [ofZero_mul]
    · rw [ofLog_mul, ofLog_le]
      rw [ofLog_le_one] at h
      calc r.round (x + y) ≤ r.round x := r.mono (by linarith)
        _ = x := hx

/-- Rounding is monotone. -/
theorem mul_mono {a b c d : LogWeight r} (h : a ≤ b) (h' : c ≤ d) : a * c ≤ b * d := by
  rcases cases_log a with rfl | ⟨x, hx, rfl⟩
  · rw [ofZero_mul]; exact ofZero_le _
  rcases cases_log c with rfl | ⟨y, hy, rfl⟩
  · rw [mul_ofZero]; exact ofZero_le _
  rcases cases_log b with rfl | ⟨x', hx', rfl⟩
  · exact absurd h not_ofLog_le
  rcases cases_log d with rfl | ⟨y', hy', rfl⟩
  · exact absurd h' not_ofLog_le
  rw [ofLog_mul, ofLog_mul, ofLog_le]
  exact r.mono (add_le_add (ofLog_le.1 h) (ofLog_le.1 h'))

/-- The error of one product. -/
theorem value_mul {ε : ℝ} (hε : r.Within ε) {u w : LogWeight r} (hu : u ≤ 1) (hw : w ≤ 1) :
    (u.value * w.value) ^ (1 + ε) ≤ (u * w).value ∧ (u * w).value ≤ (u.value * w.value) ^ (1 - ε) := by
  have e1 : (1 + ε) ≠ 0 := by linarith [hε.nonneg]
  have e2 : (1 - ε) ≠ 0 := by linarith [hε.lt_one]
  rcases cases_log w with rfl | ⟨y, hy, rfl⟩
  · simp [mul_ofZero, value_ofZero, NNReal.zero_rpow e1]
  rcases cases_log u with rfl | ⟨x, hx, rfl⟩
  · simp [ofZero_mul, value_ofZero, NNReal.zero_rpow e1]
  obtain ⟨h1, h2⟩ := hε.sum x y hx hy (ofLog_le_one.1 hu) (ofLog_le_one.1 hw)
  rw [ofLog_mul, ← NNReal.coe_le_coe, ← NNReal.coe_le_coe, NNReal.coe_rpow, NNReal.coe_rpow, NNReal.coe_mul, value_ofLog, value_ofLog, value_ofLog,
    ← Real.exp_add, ← Real.exp_mul, ← Real.exp_mul, Real.exp_le_exp, Real.exp_le_exp]
  constructor <;> linarith

end Spec.LogWeight

open Spec.LogWeight in
/-- The error of the weight of a sequence of transitions. -/
theorem weightOf_value {I T : Type _} {r : Rounding} {ε : ℝ} (hε : r.Within ε) (ts : List (Transition I T (LogWeight r))) (hts : ∀ t ∈ ts, t.weight ≤ 1) :
    weightOf ts ≤ 1 ∧ (ts.map fun t => t.weight.value).prod ^ ((1 + ε) ^ ts.length) ≤ (weightOf ts).value ∧
      (weightOf ts).value ≤ (ts.map fun t => t.weight.value).prod ^ ((1 - ε) ^ ts.length) := by
  induction ts using List.reverseRecOn with
  | nil => simp [weightOf, weightFrom, value_one]
  | append_singleton ts t ih =>
    obtain ⟨i1, i2, i3⟩ := ih fun t ht => hts t (by simp [ht])
    have ht := hts t (by simp)
    have hv : t.weight.value ≤ 1 := by rw [← value_one (r := r)]; exact value_mono ht
    have hs : weightOf (ts ++ [t]) = weightOf ts * t.weight := by simp [weightOf, weightFrom, List.foldl_append]
    obtain ⟨h1, h2⟩ := value_mul hε i1 ht
    have p1 : 0 ≤ 1 + ε := by linarith [hε.nonneg]
    have p2 : 0 ≤ 1 - ε := by linarith [hε.lt_one]
    rw [hs]
    refine ⟨(mul_le ht).trans i1, ?_, ?_⟩
    · refine le_trans ?_ h1
      simp only [List.map_append, List.prod_append, List.map_cons, List.map_nil, List.prod_cons, List.prod_nil, mul_one, List.length_append, List.length_cons,
        List.length_nil, zero_add, pow_succ]
      rw [NNReal.rpow_mul]
      refine NNReal.rpow_le_rpow ?_ p1
      rw [NNReal.mul_rpow]
      refine mul_le_mul' i2 ?_
      exact NNReal.rpow_le_self_of_le_one hv (one_le_pow₀ (by linarith [hε.nonneg]))
    · refine le_trans h2 ?_
      simp only [List.map_append, List.prod_append, List.map_cons, List.map_nil, List.prod_cons, List.prod_nil, mul_one, List.length_append, List.length_cons,
        List.length_nil, zero_add, pow_succ]
      rw [NNReal.rpow_mul]
      refine NNReal.rpow_le_rpow ?_ p2
      rw [NNReal.mul_rpow]
      refine mul_le_mul' i3 ?_
      calc t.weight.value = t.weight.value ^ (1 : ℝ) := by simp
        _ ≤ _ := by
          rcases eq_or_ne t.weight.value 0 with h0 | h0
          · rw [h0, NNReal.zero_rpow one_ne_zero]; simp
          · exact NNReal.rpow_le_rpow_of_exponent_ge (pos_iff_ne_zero.2 h0) hv (pow_le_one₀ p2 (by linarith [hε.nonneg]))

end Rustomata
