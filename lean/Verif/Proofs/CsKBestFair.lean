import Verif.Proofs.CsKBestCycles
import Mathlib.Data.Set.Finite.Lattice
import Mathlib.Data.Set.Finite.Lemmas
import Mathlib.Algebra.Order.Monoid.Unbundled.Pow

/-!
# There are finitely many derivations with at least a given weight
-/

namespace Rustomata
open Spec

section
variable {T W : Type _} [LinearOrderedCommMonoidWithZero W]

/-- A sequence of `l` chain rules. -/
inductive ChainSteps (G : BinGrammar T W) : Nat → Nat → Nat → W → Prop
  | nil {q : Nat} : ChainSteps G q q 0 1
  | cons {q q₁ q₂ rid l : Nat} {w v : W} : G.unary rid q q₁ w → ChainSteps G q₁ q₂ l v → ChainSteps G q q₂ (l + 1) (w * v)

variable {G : BinGrammar T W}

theorem ChainSteps.path {q q' l : Nat} {v : W} (h : ChainSteps G q q' l v) (hl : 0 < l) : ChainPath G q q' v := by
  induction h with
  | nil => omega
  | cons hu h ih =>
    cases h with
    | nil =>
      rw [mul_one]
      exact .one hu
    | cons hu' h' => exact .cons hu (ih (Nat.succ_pos _))

theorem ChainSteps.le_one (hle : ∀ rid q q₁ w, G.unary rid q q₁ w → w ≤ 1) {q q' l : Nat} {v : W} (h : ChainSteps G q q' l v) : v ≤ 1 := by
  induction h with
  | nil => exact le_refl _
  | cons hu _ ih => exact mul_le_one' (hle _ _ _ _ hu) ih

theorem ChainSteps.split {q q' l : Nat} {v : W} (h : ChainSteps G q q' l v) {a : Nat} (ha : a ≤ l) :
    ∃ p v₁ v₂, ChainSteps G q p a v₁ ∧ ChainSteps G p q' (l - a) v₂ ∧ v = v₁ * v₂ := by
  induction h generalizing a with
  | nil => exact ⟨_, 1, 1, by rw [Nat.le_zero.1 ha]; exact .nil, by rw [Nat.zero_sub]; exact .nil, (mul_one _).symm⟩
  | @cons q q₁ q₂ rid l w v hu h ih =>
    cases a with
    | zero => exact ⟨q, 1, w * v, .nil, .cons hu h, (one_mul _).symm⟩
    | succ a =>
      obtain ⟨p, v₁, v₂, h1, h2, h3⟩ := ih (Nat.le_of_succ_le_succ ha)
      refine ⟨p, w * v₁, v₂, .cons hu h1, ?_, by rw [h3, mul_assoc]⟩
      rw [Nat.succ_sub_succ]
      exact h2

/-- The state after some steps. -/
theorem ChainSteps.states {q q' l : Nat} {v : W} (h : ChainSteps G q q' l v) {S : Nat} (hS : ∀ rid q q₁ w, G.unary rid q q₁ w → q < S ∧ q₁ < S) :
    0 < l → q < S ∧ q' < S := by
  induction h with
  | nil => intro h; omega
  | cons hu h ih =>
    intro _
    refine ⟨(hS _ _ _ _ hu).1, ?_⟩
    cases h with
    | nil => exact (hS _ _ _ _ hu).2
    | cons hu' h' => exact (ih (Nat.succ_pos _)).2

theorem ChainSteps.append {q q' q'' l l' : Nat} {v v' : W} (h : ChainSteps G q q' l v) (h' : ChainSteps G q' q'' l' v') : ChainSteps G q q'' (l + l') (v * v') := by
  induction h with
  | nil =>
    rw [Nat.zero_add, one_mul]
    exact h'
  | @cons q q₁ q₂ rid l w v hu h ih =>
    rw [Nat.add_right_comm, mul_assoc]
    exact .cons hu (ih h')

/-- A sequence of chain rules visits different states or contains a cycle. -/
theorem ChainSteps.visits (hle : ∀ rid q q₁ w, G.unary rid q q₁ w → w ≤ 1) {q q' l : Nat} {v : W} (h : ChainSteps G q q' l v) :
    (∃ p c, ChainPath G p p c ∧ v ≤ c) ∨ ∃ ss : List Nat, ss.length = l + 1 ∧ ss.Nodup ∧ ∀ x ∈ ss, ∃ k v₁, ChainSteps G q x k v₁ ∧ v ≤ v₁ := by
  induction h with
  | nil => exact .inr ⟨[_], rfl, by simp, fun x hx => ⟨0, 1, by rw [List.mem_singleton.1 hx]; exact .nil, le_refl _⟩⟩
  | @cons q q₁ q₂ rid l w v hu h ih =>
    rcases ih with ⟨p, c, h1, h2⟩ | ⟨ss, h1, h2, h3⟩
    · exact .inl ⟨p, c, h1, le_trans (mul_le_of_le_one_left' (hle _ _ _ _ hu)) h2⟩
    · by_cases hq : q ∈ ss
      · obtain ⟨k, v₁, h4, h5⟩ := h3 q hq
        exact .inl ⟨q, w * v₁, (ChainSteps.cons hu h4).path (Nat.succ_pos _), mul_le_mul_right h5 w⟩
      · refine .inr ⟨q :: ss, by simp [h1], List.nodup_cons.2 ⟨hq, h2⟩, fun x hx => ?_⟩
        rcases List.mem_cons.1 hx with rfl | hx
        · exact ⟨0, 1, .nil, (ChainSteps.cons hu h).le_one hle⟩
        · obtain ⟨k, v₁, h4, h5⟩ := h3 x hx
          exact ⟨k + 1, w * v₁, .cons hu h4, mul_le_mul_right h5 w⟩

/-- A sequence of chain rules that is longer than the number of states contains a cycle. -/
theorem ChainSteps.cycle (hle : ∀ rid q q₁ w, G.unary rid q q₁ w → w ≤ 1) {S : Nat} (hS : ∀ rid q q₁ w, G.unary rid q q₁ w → q < S ∧ q₁ < S) {q q' l : Nat} {v : W}
    (h : ChainSteps G q q' l v) (hl : 0 < l) (hlS : S ≤ l) : ∃ p c, ChainPath G p p c ∧ v ≤ c := by
  rcases h.visits hle with h1 | ⟨ss, h1, h2, h3⟩
  · exact h1
  · exfalso
    have hsub : ss ⊆ List.range S := by
      intro x hx
      rw [List.mem_range]
      obtain ⟨k, v₁, h4, _⟩ := h3 x hx
      cases h4 with
      | nil => exact (h.states hS hl).1
      | cons hu h5 => exact ((ChainSteps.cons hu h5).states hS (Nat.succ_pos _)).2
    have := (h2.subperm hsub).length_le
    rw [List.length_range] at this
    omega

theorem ChainSteps.finite (hfin : {w | ∃ rid q q₁, G.unary rid q q₁ w}.Finite) (l : Nat) : {v | ∃ q q', ChainSteps G q q' l v}.Finite := by
  induction l with
  | zero =>
    refine (Set.finite_singleton (1 : W)).subset ?_
    rintro v ⟨q, q', h⟩
    cases h
    rfl
  | succ l ih =>
    refine (Set.Finite.image2 (fun w v => w * v) hfin ih).subset ?_
    rintro v ⟨q, q', h⟩
    cases h with
    | cons hu h => exact ⟨_, ⟨_, _, _, hu⟩, _, ⟨_, _, h⟩, rfl⟩

/-- Long sequences of chain rules have small weights. -/
theorem ChainSteps.vanish (hle : ∀ rid q q₁ w, G.unary rid q q₁ w → w ≤ 1) {S : Nat} (hS : ∀ rid q q₁ w, G.unary rid q q₁ w → q < S ∧ q₁ < S)
    (hfin : {w | ∃ rid q q₁, G.unary rid q q₁ w}.Finite) (hcyc : CyclesVanish G) {x : W} (hx : x ≠ 0) :
    ∃ L, ∀ q q' l v, ChainSteps G q q' l v → L ≤ l → v < x := by
  have hf := ChainSteps.finite hfin (S + 1)
  by_cases hne : {v | ∃ q q', ChainSteps G q q' (S + 1) v}.Nonempty
  · obtain ⟨vm, ⟨p, p', hm⟩, hmax⟩ := Set.exists_max_image _ id hf hne
    simp only [id_eq] at hmax
    obtain ⟨r, c, h1, h2⟩ := hm.cycle hle hS (Nat.succ_pos _) (Nat.le_succ _)
    obtain ⟨k, hk⟩ := hcyc r c x 1 h1 hx
    rw [mul_one] at hk
    have key : ∀ k q q' l v, ChainSteps G q q' l v → k * (S + 1) ≤ l → v ≤ vm ^ k := by
      intro k
      induction k with
      | zero =>
        intro q q' l v h _
        rw [pow_zero]
        exact h.le_one hle
      | succ k ih =>
        intro q q' l v h hl
        rw [Nat.succ_mul] at hl
        obtain ⟨s, v₁, v₂, e1, e2, rfl⟩ := h.split (a := S + 1) (by omega)
        rw [pow_succ']
        exact mul_le_mul' (hmax v₁ ⟨_, _, e1⟩) (ih _ _ _ _ e2 (by omega))
    refine ⟨k * (S + 1), fun q q' l v h hl => ?_⟩
    exact lt_of_le_of_lt ((key k q q' l v h hl).trans (pow_le_pow_left' h2 k)) hk
  · refine ⟨S + 1, fun q q' l v h hl => ?_⟩
    obtain ⟨s, v₁, v₂, e1, _⟩ := h.split hl
    exact absurd ⟨v₁, _, _, e1⟩ hne

theorem cyclesLower_of_vanish (hle : ∀ rid q q₁ w, G.unary rid q q₁ w → w ≤ 1) (hcyc : CyclesVanish G) : CyclesLower G := by
  intro q v x h hx
  have hv : v ≤ 1 := by
    have : ∀ q q' v, ChainPath G q q' v → v ≤ 1 := by
      intro q q' v h
      induction h with
      | one hu => exact hle _ _ _ _ hu
      | cons hu _ ih => exact mul_le_one' (hle _ _ _ _ hu) ih
    exact this _ _ _ h
  refine lt_of_le_of_ne (mul_le_of_le_one_left' hv) fun he => ?_
  have key : ∀ k : Nat, v ^ k * x = x := by
    intro k
    induction k with
    | zero => rw [pow_zero, one_mul]
    | succ k ih => rw [pow_succ, mul_assoc, he, ih]
  obtain ⟨k, hk⟩ := hcyc q v x x h hx
  rw [key k] at hk
  exact lt_irrefl _ hk

variable {inChart : Nat → Nat → Nat → Prop}

theorem chartDerives_le_one (hle : RulesLeOne G) {i j q : Nat} {t : BinTree} {w : W} (h : ChartDerives G inChart i j q t w) : w ≤ 1 := by
  induction h with
  | nullary h => exact hle.1 _ _ _ _ h
  | unary h _ _ ih => exact mul_le_one' (hle.2.1 _ _ _ _ h) ih
  | binary _ _ h _ _ _ _ ih₁ ih₂ => exact mul_le_one' (mul_le_one' (hle.2.2 _ _ _ _ _ h) ih₁) ih₂

/-- The chain rules at the root of a derivation. -/
theorem chartDerives_chain {i j q : Nat} {t : BinTree} {w : W} (h : ChartDerives G inChart i j q t w) :
    ∃ q' l v t' w', ChainSteps G q q' l v ∧ ChartDerives G inChart i j q' t' w' ∧ w = v * w' ∧ t.size = l + t'.size ∧ (∀ rid s, t' ≠ .unary rid s) := by
  induction h with
  | nullary h => exact ⟨_, 0, 1, _, _, .nil, .nullary h, (one_mul _).symm, (Nat.zero_add _).symm, by simp⟩
  | unary hu hc h ih =>
    obtain ⟨q', l, v, t', w', h1, h2, h3, h4, h5⟩ := ih
    exact ⟨q', l + 1, _, t', w', .cons hu h1, h2, by rw [h3, mul_assoc], by simp only [BinTree.size, h4]; omega, h5⟩
  | binary h1 h2 h3 h4 h5 h6 h7 _ _ => exact ⟨_, 0, 1, _, _, .nil, .binary h1 h2 h3 h4 h5 h6 h7, (one_mul _).symm, (Nat.zero_add _).symm, by simp⟩

/-- Derivations with at least a given weight have bounded sizes. -/
theorem chartDerives_size (hle : RulesLeOne G) {x : W} {L : Nat} (hL : ∀ q q' l v, ChainSteps G q q' l v → L ≤ l → v < x) (s : Nat) :
    ∀ {i j q : Nat} {t : BinTree} {w : W}, ChartDerives G inChart i j q t w → j - i ≤ s → x ≤ w → t.size + (L + 1) ≤ 2 * s * (L + 1) := by
  induction s using Nat.strong_induction_on with
  | _ s ih =>
    intro i j q t w h hs hx
    obtain ⟨q', l, v, t', w', h1, h2, rfl, h4, h5⟩ := chartDerives_chain h
    have hw' := chartDerives_le_one hle h2
    have hv := h1.le_one hle.2.1
    have hl : l < L := by
      by_contra hl
      exact absurd (lt_of_le_of_lt (hx.trans (mul_le_of_le_one_right' hw')) (hL _ _ _ _ h1 (by omega))) (lt_irrefl _)
    have hx' : x ≤ w' := hx.trans (mul_le_of_le_one_left' hv)
    rw [h4]
    cases h2 with
    | nullary =>
      have : 1 ≤ s := by omega
      have : 2 * 1 * (L + 1) ≤ 2 * s * (L + 1) := Nat.mul_le_mul_right _ (by omega)
      simp only [BinTree.size]
      omega
    | unary => exact absurd rfl (h5 _ _)
    | @binary i m j _ q₁ q₂ rid t₁ t₂ w₀ w₁ w₂ g1 g2 g3 _ _ g4 g5 =>
      have hw₀ := hle.2.2 _ _ _ _ _ g3
      have hw₁ := chartDerives_le_one hle g4
      have hw₂ := chartDerives_le_one hle g5
      have e₁ := ih (m - i) (by omega) g4 (le_refl _) (hx'.trans ((mul_le_of_le_one_right' hw₂).trans (mul_le_of_le_one_left' hw₀)))
      have e₂ := ih (j - m) (by omega) g5 (le_refl _) (hx'.trans (mul_le_of_le_one_left' (mul_le_one' hw₀ hw₁)))
      have e₃ : 2 * ((m - i) + (j - m)) * (L + 1) ≤ 2 * s * (L + 1) := Nat.mul_le_mul_right _ (by omega)
      rw [Nat.mul_add 2, Nat.add_mul] at e₃
      simp only [BinTree.size]
      omega

/-- There are finitely many derivations of a bounded size. -/
theorem chartDerives_finite {R : Nat} (hR : (∀ rid q a w, G.nullary rid q a w → rid < R) ∧ (∀ rid q q₁ w, G.unary rid q q₁ w → rid < R) ∧
    ∀ rid q q₁ q₂ w, G.binary rid q q₁ q₂ w → rid < R) (n B : Nat) : {t | ∃ i j q w, j ≤ n ∧ ChartDerives G inChart i j q t w ∧ t.size ≤ B}.Finite := by
  induction B with
  | zero =>
    refine Set.finite_empty.subset ?_
    rintro t ⟨i, j, q, w, _, _, h⟩
    have := t.size_pos
    omega
  | succ B ih =>
    have f1 := (Set.finite_Iio R).image BinTree.nullary
    have f2 := Set.Finite.image2 BinTree.unary (Set.finite_Iio R) ih
    have f3 := Set.Finite.image2 (fun (x : Nat × Nat) (y : BinTree × BinTree) => BinTree.binary x.1 x.2 y.1 y.2) ((Set.finite_Iio R).prod (Set.finite_Iio (n + 1))) (ih.prod ih)
    refine ((f1.union f2).union f3).subset ?_
    rintro t ⟨i, j, q, w, hj, h, hs⟩
    cases h with
    | nullary h => exact .inl (.inl ⟨_, hR.1 _ _ _ _ h, rfl⟩)
    | unary hu _ h =>
      simp only [BinTree.size] at hs
      exact .inl (.inr ⟨_, hR.2.1 _ _ _ _ hu, _, ⟨_, _, _, _, hj, h, by omega⟩, rfl⟩)
    | @binary i m j _ q₁ q₂ rid t₁ t₂ w₀ w₁ w₂ g1 g2 g3 _ _ g4 g5 =>
      simp only [BinTree.size] at hs
      exact .inr ⟨(rid, m), ⟨hR.2.2 _ _ _ _ _ g3, show m < n + 1 by omega⟩, (t₁, t₂), ⟨⟨_, _, _, _, by omega, g4, show t₁.size ≤ B by omega⟩, ⟨_, _, _, _, hj, g5, show t₂.size ≤ B by omega⟩⟩, rfl⟩

/-- Lists of best derivations contain each derivation if they are long enough. -/
theorem chartDerives_fair {R S : Nat} (hR : (∀ rid q a w, G.nullary rid q a w → rid < R) ∧ (∀ rid q q₁ w, G.unary rid q q₁ w → rid < R) ∧
    ∀ rid q q₁ q₂ w, G.binary rid q q₁ q₂ w → rid < R) (hS : ∀ rid q q₁ w, G.unary rid q q₁ w → q < S ∧ q₁ < S)
    (hfin : {w | ∃ rid q q₁, G.unary rid q q₁ w}.Finite) (hle : RulesLeOne G) (hcyc : CyclesVanish G) (n q : Nat) {x : W} (hx : x ≠ 0) :
    ∃ M, ∀ ts : List (BinTree × W), (ts.map Prod.fst).Nodup → (∀ y ∈ ts, ChartDerives G inChart 0 n q y.1 y.2 ∧ x ≤ y.2) → ts.length ≤ M := by
  obtain ⟨L, hL⟩ := ChainSteps.vanish hle.2.1 hS hfin hcyc hx
  have hf := chartDerives_finite (inChart := inChart) hR n (2 * n * (L + 1))
  refine ⟨hf.toFinset.card, fun ts hn hts => ?_⟩
  have hsub : ts.map Prod.fst ⊆ hf.toFinset.toList := by
    intro t ht
    rw [List.mem_map] at ht
    obtain ⟨y, hy, rfl⟩ := ht
    rw [Finset.mem_toList, Set.Finite.mem_toFinset]
    obtain ⟨h1, h2⟩ := hts y hy
    have := chartDerives_size hle hL n h1 (by omega) h2
    exact ⟨0, n, q, y.2, le_refl _, h1, by omega⟩
  have := (hn.subperm hsub).length_le
  rw [List.length_map, Finset.length_toList] at this
  exact this

end

end Rustomata
