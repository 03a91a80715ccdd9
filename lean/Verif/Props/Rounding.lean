import Verif.Proofs.Rounding
import Verif.Proofs.Heaps
import Verif.Props.Fair
import Mathlib.Algebra.Order.Round

/-!
# Property C89: recognition with rounded weights

Only property theorems, the lemmas that combine them, and the examples that show their hypotheses to be satisfiable.
-/

namespace Rustomata.Props
open Rustomata Rustomata.Spec Rustomata.Spec.LogWeight
variable {A Q T H : Type _} [DecidableEq A] [DecidableEq Q] [DecidableEq T] {r : Rounding}

/-- **C89** Rounded products are monotone, and weights of at most one do not increase other weights: this is all that the theorems on the order of the results (C18) need. -/
theorem C89_order : (∀ u w : LogWeight r, w ≤ 1 → u * w ≤ u) ∧ (∀ a b c d : LogWeight r, a ≤ b → c ≤ d → a * c ≤ b * d) :=
  ⟨fun _ _ h => mul_le h, fun _ _ _ _ h h' => mul_mono h h'⟩

/-- The exact weight of a run: the product of the weights of its transitions, without rounding. -/
noncomputable def exactWeight {I : Type _} (ts : List (Transition I T (LogWeight r))) : NNReal := (ts.map fun t => t.weight.value).prod

omit [DecidableEq T] in
/-- **C89** The weight that is computed for a run is close to its exact weight. -/
theorem C89_error {S I : Type _} {D : Device S I T (LogWeight r)} (hw : ∀ t ∈ D.transitions, t.weight ≤ 1) {ε : ℝ} (hε : r.Within ε) {w : List T}
    {ts : List (Transition I T (LogWeight r))} {s : S} {u : LogWeight r} (h : D.Accepting w ts s u) {n : Nat} (hn : ts.length ≤ n) :
    exactWeight ts ^ ((1 + ε) ^ n) ≤ u.value ∧ u.value ≤ exactWeight ts ^ ((1 - ε) ^ n) := by
  have hts : ∀ t ∈ ts, t.weight ≤ 1 := fun t ht => hw t (h.1.2 t ht)
  have hu : u = weightOf ts := ((exec_iff_from _ _ _ _).1 h.1.1).2.2
  obtain ⟨_, h1, h2⟩ := weightOf_value hε ts hts
  have hle : exactWeight ts ≤ 1 := by
    have := List.prod_le_pow_card (ts.map fun t => t.weight.value) 1 (by
      intro x hx
      obtain ⟨t, ht, rfl⟩ := List.mem_map.1 hx
      rw [← value_one (r := r)]
      exact value_mono (hts t ht))
    simpa [exactWeight] using this
  have p1 : 1 ≤ 1 + ε := by linarith [hε.nonneg]
  have p2 : 0 < 1 - ε := by linarith [hε.lt_one]
  have key : ∀ {a b : ℝ}, 0 < b → b ≤ a → exactWeight ts ^ a ≤ exactWeight ts ^ b := by
    intro a b hb hab
    rcases eq_or_ne (exactWeight ts) 0 with h0 | h0
    · rw [h0, NNReal.zero_rpow (hb.trans_le hab).ne', NNReal.zero_rpow hb.ne']
    · exact NNReal.rpow_le_rpow_of_exponent_ge (pos_iff_ne_zero.2 h0) hle hab
  rw [hu]
  exact ⟨(key (pow_pos (by linarith) _) (pow_le_pow_right₀ p1 hn)).trans h1, h2.trans (key (pow_pos p2 _) (pow_le_pow_of_le_one p2.le (by linarith [hε.nonneg]) hn))⟩

omit [DecidableEq T] in
/-- The first result has the best weight. -/
theorem first_best {S I : Type _} {D : Device S I T (LogWeight r)} (hw : ∀ t ∈ D.transitions, t.weight ≤ 1) {w : List T} {out : List (Item S I T (LogWeight r))}
    (hs : ∀ i ∈ out, D.Accepting w i.run.toVec i.conf.storage i.conf.weight) (hp : out.Pairwise (fun i j => j.conf.weight ≤ i.conf.weight))
    (hb : ∀ ys x, out = ys ++ [x] → ∀ z : Item S I T (LogWeight r), z.conf.word = [] → D.Accepting w z.run.toVec z.conf.storage z.conf.weight →
      x.conf.weight < z.conf.weight → z ∈ ys) {x : Item S I T (LogWeight r)} (hx : out.head? = some x)
    {ts : List (Transition I T (LogWeight r))} {s : S} {u : LogWeight r} (hz : D.Accepting w ts s u) :
    u ≤ x.conf.weight ∧ ∀ ε n, r.Within ε → ts.length ≤ n → x.run.toVec.length ≤ n → exactWeight ts ^ ((1 + ε) ^ n) ≤ exactWeight x.run.toVec ^ ((1 - ε) ^ n) := by
  obtain ⟨rest, rfl⟩ : ∃ rest, out = x :: rest := by
    match out, hx with
    | _ :: rest, hx => exact ⟨rest, by rw [Option.some.inj hx]⟩
  have h1 : u ≤ x.conf.weight := by
    by_contra hlt
    rw [not_le] at hlt
    have hmax : ∀ y ∈ x :: rest, y.conf.weight ≤ x.conf.weight := by
      intro y hy
      rcases List.mem_cons.1 hy with rfl | hy
      · exact le_refl _
      · exact (List.pairwise_cons.1 hp).1 y hy
    obtain ⟨ys, y, e⟩ : ∃ ys y, x :: rest = ys ++ [y] := ⟨_, _, (List.dropLast_append_getLast (by simp)).symm⟩
    have hv : (Pushdown.ofSlice ts).toVec = ts := by unfold Pushdown.ofSlice; rw [Pushdown.toVec_foldl]; simp
    have h2 := hb ys y e ⟨⟨[], s, u⟩, Pushdown.ofSlice ts⟩ rfl (by rw [hv]; exact hz) (lt_of_le_of_lt (hmax y (by rw [e]; simp)) hlt)
    exact absurd (hmax _ (by rw [e]; exact List.mem_append_left _ h2)) (not_le.2 hlt)
  exact ⟨h1, fun ε n hε hn hn' => (C89_error hw hε hz hn).1.trans ((value_mono h1).trans (C89_error hw hε (hs x (by simp)) hn').2)⟩

/-- **C89** Finite state automata: the first result is the best, up to rounding. -/
theorem C89_fsa (ts : List (Transition (FsInstr Q) T (LogWeight r))) (initial : Q) (finals : List Q) (hw : ∀ t ∈ ts, t.weight ≤ 1)
    {G : Agenda H (Item Nat (FsInstr Nat) Nat (LogWeight r))} {content : H → Multiset (Item Nat (FsInstr Nat) Nat (LogWeight r))}
    (hG : HeapLaws G content (fun i => i.conf.weight)) {empty : H} (hempty : content empty = 0) {w : List T} {m : Nat}
    {out : List (Item Q (FsInstr Q) T (LogWeight r))} {a : H} (hrun : (FSA.new ts initial finals).recognise G empty w m = some (out, a)) :
    out.Pairwise (fun i j => j.conf.weight ≤ i.conf.weight) ∧
    ∀ x, out.head? = some x → ∀ us s u, (FSA.device ts initial finals).Accepting w us s u → u ≤ x.conf.weight ∧
      ∀ ε n, r.Within ε → us.length ≤ n → x.run.toVec.length ≤ n → exactWeight us ^ ((1 + ε) ^ n) ≤ exactWeight x.run.toVec ^ ((1 - ε) ^ n) := by
  obtain ⟨h1, h2⟩ := C18_fsa_best_first ts initial finals (fun t ht _ => mul_le (hw t ht)) hG hempty hrun
  have h3 := C16_fsa_sound ts initial finals hG.lossless.sound hempty hrun
  exact ⟨h1, fun x hx us s u hu => first_best (D := FSA.device ts initial finals) hw (fun i hi => (h3 i hi).2) h1 h2 hx hu⟩

/-- **C89** Push-down automata, whatever the sum of weights. -/
theorem C89_pda [Zero (LogWeight r)] [Add (LogWeight r)] {ts : List (Transition (PdInstr A) T (LogWeight r))} {initial : PushDown A} {P : PDA A T (LogWeight r)}
    (hP : PDA.new ts initial = some P) {L : List (Transition (PdInstr A) T (LogWeight r))} (hL : P.listTransitions = some L) (hw : ∀ t ∈ L, t.weight ≤ 1)
    {G : Agenda H (Item (PushDown Nat) (PdInstr Nat) Nat (LogWeight r))} {content : H → Multiset (Item (PushDown Nat) (PdInstr Nat) Nat (LogWeight r))}
    (hG : HeapLaws G content (fun i => i.conf.weight)) {empty : H} (hempty : content empty = 0) {w : List T} {m : Nat}
    {out : List (Item (PushDown A) (PdInstr A) T (LogWeight r))} {a : H} (hrun : P.recognise G empty w m = some (out, a)) :
    out.Pairwise (fun i j => j.conf.weight ≤ i.conf.weight) ∧
    ∀ x, out.head? = some x → ∀ us s u, (PDA.device L initial).Accepting w us s u → u ≤ x.conf.weight ∧
      ∀ ε n, r.Within ε → us.length ≤ n → x.run.toVec.length ≤ n → exactWeight us ^ ((1 + ε) ^ n) ≤ exactWeight x.run.toVec ^ ((1 - ε) ^ n) := by
  have hw' : ∀ t ∈ L, ∀ u : LogWeight r, u * t.weight ≤ u := fun t ht _ => mul_le (hw t ht)
  have h1 := C18_pda_sorted hP hL hw' hG hrun
  obtain ⟨L', h3, h4⟩ := C16_pda_sound hP hG.lossless.sound hempty hrun
  rw [hL, Option.some.injEq] at h3
  subst h3
  refine ⟨h1, fun x hx us s u hu => first_best (D := PDA.device L initial) hw (fun i hi => (h4 i hi).2) h1 ?_ hx hu⟩
  rintro ys y rfl z hz hacc hlt
  exact C18_pda_best_first hP hL hw' hG hempty hrun z hz hacc hlt

/-- **C89** Tree stack automata. -/
theorem C89_tsa (ts : List (Transition (TsInstr A) T (LogWeight r))) (initial : TreeStack A) (hw : ∀ t ∈ ts, t.weight ≤ 1)
    {G : Agenda H (Item (TreeStack Nat) (TsInstr Nat) Nat (LogWeight r))} {content : H → Multiset (Item (TreeStack Nat) (TsInstr Nat) Nat (LogWeight r))}
    (hG : HeapLaws G content (fun i => i.conf.weight)) {empty : H} (hempty : content empty = 0) {w : List T} {m : Nat}
    {out : List (Item (TreeStack A) (TsInstr A) T (LogWeight r))} {a : H} (hrun : (TSA.new ts initial).recognise G empty w m = some (out, a)) :
    out.Pairwise (fun i j => j.conf.weight ≤ i.conf.weight) ∧
    ∀ x, out.head? = some x → ∀ us s u, (TSA.device ts initial).Accepting w us s u → u ≤ x.conf.weight ∧
      ∀ ε n, r.Within ε → us.length ≤ n → x.run.toVec.length ≤ n → exactWeight us ^ ((1 + ε) ^ n) ≤ exactWeight x.run.toVec ^ ((1 - ε) ^ n) := by
  obtain ⟨h1, h2⟩ := C18_tsa_best_first ts initial (fun t ht _ => mul_le (hw t ht)) hG hempty hrun
  have h3 := C16_tsa_sound ts initial hG.lossless.sound hempty hrun
  exact ⟨h1, fun x hx us s u hu => first_best (D := TSA.device ts initial) hw (fun i hi => (h3 i hi).2) h1 h2 hx hu⟩

/-! ### Examples: numbers with few digits -/

namespace C89Example

/-- Numbers below `-4` are rounded up to even numbers, other numbers are rounded up to integers. -/
noncomputable def round (x : ℝ) : ℝ := if -4 ≤ x then (⌈x⌉ : ℝ) else 2 * (⌈x / 2⌉ : ℝ)

theorem round_int {k : ℤ} (h : -4 ≤ k) : round k = k := by
  have : (-4 : ℝ) ≤ k := by exact_mod_cast h
  simp [round, this]

theorem round_low {x : ℝ} (h : x < -4) : round x = 2 * (⌈x / 2⌉ : ℝ) := by simp [round, h]

theorem round_even (k : ℤ) : round (2 * k) = 2 * k := by
  by_cases h : (-4 : ℝ) ≤ 2 * k
  · have h' : -4 ≤ 2 * k := by exact_mod_cast h
    have := round_int h'
    push_cast at this
    exact this
  · rw [round_low (not_le.1 h)]
    simp

theorem ceil_low {x : ℝ} (h : x < -4) : ⌈x / 2⌉ ≤ -2 := Int.ceil_le.2 (by push_cast; linarith)

theorem ceil_high {x : ℝ} (h : -4 ≤ x) : -4 ≤ ⌈x⌉ := by
  have : (-4 : ℝ) ≤ ⌈x⌉ := h.trans (Int.le_ceil x)
  exact_mod_cast this

/-- Rounding up to the next number that can be represented. -/
noncomputable def few : Rounding where
  round := round
  mono := by
    intro x y hxy
    by_cases hy : -4 ≤ y
    · by_cases hx : -4 ≤ x
      · simp only [round, hx, hy, if_true]
        exact_mod_cast Int.ceil_le_ceil hxy
      · have h1 : (⌈x / 2⌉ : ℝ) ≤ -2 := by exact_mod_cast ceil_low (not_le.1 hx)
        have h2 : (-4 : ℝ) ≤ ⌈y⌉ := by exact_mod_cast ceil_high hy
        simp only [round, hx, hy, if_true, if_false]
        linarith
    · have hx : ¬ -4 ≤ x := fun h => hy (h.trans hxy)
      have : (⌈x / 2⌉ : ℝ) ≤ ⌈y / 2⌉ := by exact_mod_cast Int.ceil_le_ceil (by linarith : x / 2 ≤ y / 2)
      simp only [round, hx, hy, if_false]
      linarith
  idem := by
    intro x
    by_cases hx : -4 ≤ x
    · rw [show round x = (⌈x⌉ : ℤ) by simp [round, hx]]
      exact round_int (ceil_high hx)
    · rw [round_low (not_le.1 hx)]
      exact round_even _
  zero := by
    have := round_int (k := 0) (by decide)
    simpa using this

theorem few_int {k : ℤ} (h : -4 ≤ k) : few.round k = k := round_int h

/-- Numbers that can be represented are integers. -/
theorem few_isInt {x : ℝ} (h : few.round x = x) : ∃ k : ℤ, x = k := by
  rw [← h]
  show ∃ k : ℤ, round x = k
  by_cases hx : -4 ≤ x
  · exact ⟨⌈x⌉, by simp [round, hx]⟩
  · exact ⟨2 * ⌈x / 2⌉, by rw [round_low (not_le.1 hx)]; push_cast; rfl⟩

/-- The relative error is at most a fifth. -/
theorem few_within : few.Within (1 / 5) where
  nonneg := by norm_num
  lt_one := by norm_num
  sum := by
    intro x y hx hy hx0 hy0
    obtain ⟨a, rfl⟩ := few_isInt hx
    obtain ⟨b, rfl⟩ := few_isInt hy
    have h0 : ((a + b : ℤ) : ℝ) ≤ 0 := by push_cast; linarith
    rw [← Int.cast_add]
    by_cases h : -4 ≤ a + b
    · rw [few_int h]
      constructor <;> linarith
    · have h5 : a + b ≤ -5 := by omega
      have h5' : ((a + b : ℤ) : ℝ) ≤ -5 := by exact_mod_cast h5
      show (1 + 1 / 5) * ((a + b : ℤ) : ℝ) ≤ round ((a + b : ℤ) : ℝ) ∧ round ((a + b : ℤ) : ℝ) ≤ (1 - 1 / 5) * ((a + b : ℤ) : ℝ)
      rw [round_low (by linarith)]
      have c1 := Int.le_ceil (((a + b : ℤ) : ℝ) / 2)
      have c2 : (⌈((a + b : ℤ) : ℝ) / 2⌉ : ℝ) * 2 ≤ ((a + b : ℤ) : ℝ) + 1 := by
        have : ⌈((a + b : ℤ) : ℝ) / 2⌉ * 2 < a + b + 2 := by
          have := Int.ceil_lt_add_one (((a + b : ℤ) : ℝ) / 2)
          have h' : ((⌈((a + b : ℤ) : ℝ) / 2⌉ * 2 : ℤ) : ℝ) < ((a + b + 2 : ℤ) : ℝ) := by push_cast at this ⊢; linarith
          exact_mod_cast h'
        have : ⌈((a + b : ℤ) : ℝ) / 2⌉ * 2 ≤ a + b + 1 := by omega
        exact_mod_cast this
      constructor <;> linarith

/-- The weight with logarithm `k`. -/
noncomputable def weight (k : ℤ) (h : -4 ≤ k) : LogWeight few := ofLog k (few_int h)

theorem weight_eq {k : ℤ} (h : -4 ≤ k) {x : ℝ} {hx : few.round x = x} (e : x = k) : ofLog x hx = weight k h := by subst e; rfl

theorem absorbs : weight (-4) (by decide) * weight (-1) (by decide) = weight (-4) (by decide) := by
  refine weight_eq (by decide) ?_
  show round _ = _
  rw [round_low (by push_cast; norm_num)]
  have : ⌈(((-4 : ℤ) : ℝ) + ((-1 : ℤ) : ℝ)) / 2⌉ = -2 := by rw [Int.ceil_eq_iff]; push_cast; constructor <;> norm_num
  rw [this]; push_cast; norm_num

theorem step {k : ℤ} (h : -4 ≤ k) (h' : -4 ≤ k - 1) : weight k h * weight (-1) (by decide) = weight (k - 1) h' := by
  refine weight_eq h' ?_
  rw [show ((k : ℤ) : ℝ) + ((-1 : ℤ) : ℝ) = ((k - 1 : ℤ) : ℝ) by push_cast; ring]
  exact few_int h'

end C89Example

open C89Example in
/-- Rounded products depend on the order of multiplications. -/
theorem C89_not_associative : ∃ a b c : LogWeight few, a * b * c ≠ a * (b * c) := by
  refine ⟨weight (-4) (by decide), weight (-1) (by decide), weight (-1) (by decide), fun h => ?_⟩
  rw [absorbs, absorbs, step (k := -1) (by decide) (by decide)] at h
  have h6 : few.round (((-4 : ℤ) : ℝ) + ((-1 - 1 : ℤ) : ℝ)) = -6 := by
    have := round_even (-3)
    push_cast at this ⊢
    show round _ = _
    rw [show (-4 : ℝ) + -2 = 2 * -3 by norm_num, this]; norm_num
  have h' : ofLog ((-4 : ℤ) : ℝ) (few_int (by decide)) ≤ ofLog (few.round (((-4 : ℤ) : ℝ) + ((-1 - 1 : ℤ) : ℝ))) (few.idem _) := h.le
  rw [ofLog_le, h6] at h'
  norm_num at h'

open C89Example in
/-- **C89** Because of rounding, products of weights below one need not fade: the sufficient condition of C70 for finding a parse in the end does not hold, even though all
weights are less than one. -/
theorem C89_no_fading : ∃ w v : LogWeight few, w < 1 ∧ ofZero < v ∧ ¬ Fades [w] v := by
  refine ⟨weight (-1) (by decide), weight (-4) (by decide), ?_, ?_, ?_⟩
  · rw [lt_iff_not_ge]
    intro h
    have h' : ofLog (0 : ℝ) few.zero ≤ ofLog ((-1 : ℤ) : ℝ) (few_int (by decide)) := h
    rw [ofLog_le] at h'
    norm_num at h'
  · rw [lt_iff_not_ge]
    exact not_ofLog_le
  · rintro ⟨L, hL⟩
    have h1 : ∀ n, (List.replicate n (weight (-1) (by decide))).foldl (· * ·) (weight (-4) (by decide)) = weight (-4) (by decide) := by
      intro n
      induction n with
      | zero => rfl
      | succ n ih => rw [List.replicate_succ, List.foldl_cons, absorbs, ih]
    have h2 : (List.replicate (4 + L) (weight (-1) (by decide))).foldl (· * ·) 1 = weight (-4) (by decide) := by
      have e : (1 : LogWeight few) = weight 0 (by decide) := weight_eq (x := 0) (hx := few.zero) (by decide) (by simp)
      rw [List.replicate_add, List.foldl_append, e]
      simp only [List.replicate, List.foldl_cons, List.foldl_nil]
      rw [step (k := 0) (by decide) (by decide), step (k := 0 - 1) (by decide) (by decide), step (k := 0 - 1 - 1) (by decide) (by decide),
        step (k := 0 - 1 - 1 - 1) (by decide) (by decide)]
      exact h1 L
    have := hL (List.replicate (4 + L) (weight (-1) (by decide))) (fun u hu => by rw [List.eq_of_mem_replicate hu]; simp) (by rw [h2])
    rw [List.length_replicate] at this
    omega

open C89Example in
/-- The hypotheses are satisfiable: a rounding with a bounded error, weights of at most one, a heap. -/
example : few.Within (1 / 5) ∧ weight (-3) (by decide) ≤ 1 ∧
    ∀ X : Type, ∀ prio : X → LogWeight few, HeapLaws (listHeap prio) (fun l => (l : Multiset X)) prio :=
  ⟨few_within, ofLog_le_one.2 (by norm_num), fun _ prio => listHeap_laws prio⟩

end Rustomata.Props
