import Mathlib.Data.NNReal.Basic
import Verif.Proofs.CsKBestAnyKth

/-!
# The order of the candidates with rounded weights

The weights of candidates are computed in different orders, so the candidates of an item are not in the order of their weights. They are nearly so: the costs (the sums
of the logarithms of the weights of the rules) of a candidate and of a later one differ by a factor that is a power of the relative error of one product.
-/

namespace Rustomata
open Spec KForest

/-- `x` is before `b`: the same rule, and no index is greater. -/
inductive Backtrace.Below {W : Type _} : Backtrace W → Backtrace W → Prop
  | refl {b} : Below b b
  | succ {x b b'} : Below x b → b' ∈ b.succs → Below x b'

theorem Backtrace.Below.base {W : Type _} {x b : Backtrace W} (h : x.Below b) : x.base = b.base := by
  induction h with
  | refl => rfl
  | succ _ h ih => rw [ih, Backtrace.base_succs h]

theorem Backtrace.Below.head {W : Type _} {x y b : Backtrace W} (h : y ∈ x.succs) (h' : y.Below b) : x.Below b := by
  induction h' with
  | refl => exact .succ .refl h
  | succ _ hs ih => exact .succ ih hs

section
variable {W : Type _} [RoundedWeight W]

/-- Every listed backtrace is reached from a candidate or from the last backtrace. -/
theorem Emits.source {val : Backtrace W → Option W} {last : Option (Backtrace W)} {h : List (W × Backtrace W)} {l : List (Backtrace W × W)} (he : Emits val last h l) :
    ∀ b w, (b, w) ∈ l → (∃ x ∈ h, x.2.Below b) ∨ ∃ x, last = some x ∧ x.Below b := by
  induction he with
  | done => intro b w hb; cases hb
  | @step last h w b rest l h1 _ ih =>
    obtain ⟨hperm, _⟩ := btPop_some h1
    have hm : ∀ x ∈ (w, b) :: rest, ∀ c, x.2.Below c → (∃ x ∈ h, x.2.Below c) ∨ ∃ x, last = some x ∧ x.Below c := by
      intro x hx c hc
      rcases pushAll_mem _ (hperm.mem_iff.2 hx) with hx | hx
      · exact .inl ⟨x, hx, hc⟩
      · have := (mem_weighted.1 hx).1
        cases last with
        | none => cases this
        | some y => exact .inr ⟨y, rfl, hc.head this⟩
    intro c v hc
    rw [List.mem_cons] at hc
    rcases hc with hc | hc
    · cases hc
      exact hm _ (List.mem_cons_self ..) _ .refl
    · rcases ih c v hc with ⟨x, hx, hb⟩ | ⟨x, hx, hb⟩
      · exact hm x (List.mem_cons_of_mem _ hx) c hb
      · cases hx
        exact hm _ (List.mem_cons_self ..) c hb

theorem btKey_fst {x y : W × Backtrace W} (h : btKey y ≤ btKey x) : y.1 ≤ x.1 := by
  rw [btKey_swap, btKey_swap, Prod.Lex.toLex_le_toLex] at h
  rcases h with h | h
  · exact h.le
  · exact h.1.le

/-- The first backtrace has the greatest weight of the candidates. -/
theorem Emits.first {val : Backtrace W → Option W} {last : Option (Backtrace W)} {h : List (W × Backtrace W)} {l : List (Backtrace W × W)} (he : Emits val last h l)
    {b : Backtrace W} {w : W} (hl : l[0]? = some (b, w)) : ∀ x ∈ h, x.1 ≤ w := by
  cases he with
  | done => simp at hl
  | step h1 _ =>
    obtain ⟨hperm, hmax⟩ := btPop_some h1
    simp only [List.getElem?_cons_zero, Option.some.injEq, Prod.mk.injEq] at hl
    obtain ⟨rfl, rfl⟩ := hl
    intro x hx
    have := hperm.mem_iff.1 (pushAll_sub _ hx)
    rw [List.mem_cons] at this
    rcases this with rfl | hx
    · exact le_rfl
    · exact btKey_fst (hmax x hx)

/-- The weight of a backtrace that was removed is at least that of a candidate from which each later backtrace is reached. -/
theorem Emits.order {val : Backtrace W → Option W} {last : Option (Backtrace W)} {h : List (W × Backtrace W)} {l : List (Backtrace W × W)} (he : Emits val last h l) :
    ∀ (k k' : Nat) b w b' w', k ≤ k' → l[k]? = some (b, w) → l[k']? = some (b', w') →
      ∃ x v, x.Below b' ∧ v ≤ w ∧ ((v, x) ∈ h ∨ val x = some v) := by
  induction he with
  | done => intro k k' b w b' w' _ hk; simp at hk
  | @step last h w₀ b₀ rest l h1 he ih =>
    obtain ⟨hperm, hmax⟩ := btPop_some h1
    have hm : ∀ x ∈ (w₀, b₀) :: rest, x ∈ h ∨ val x.2 = some x.1 := by
      intro x hx
      rcases pushAll_mem _ (hperm.mem_iff.2 hx) with hx | hx
      · exact .inl hx
      · exact .inr (mem_weighted.1 hx).2
    intro k k' b w b' w' hkk hk hk'
    cases k with
    | succ k =>
      obtain ⟨k', rfl⟩ : ∃ m, k' = m + 1 := ⟨k' - 1, by omega⟩
      rw [List.getElem?_cons_succ] at hk hk'
      obtain ⟨x, v, g1, g2, g3⟩ := ih k k' b w b' w' (by omega) hk hk'
      refine ⟨x, v, g1, g2, ?_⟩
      rcases g3 with g3 | g3
      · exact hm _ (List.mem_cons_of_mem _ g3)
      · exact .inr g3
    | zero =>
      simp only [List.getElem?_cons_zero, Option.some.injEq, Prod.mk.injEq] at hk
      obtain ⟨rfl, rfl⟩ := hk
      have hself : ∀ c, b₀.Below c → ∃ x v, x.Below c ∧ v ≤ w₀ ∧ ((v, x) ∈ h ∨ val x = some v) :=
        fun c hc => ⟨b₀, w₀, hc, le_rfl, hm _ (List.mem_cons_self ..)⟩
      cases k' with
      | zero =>
        simp only [List.getElem?_cons_zero, Option.some.injEq, Prod.mk.injEq] at hk'
        obtain ⟨rfl, rfl⟩ := hk'
        exact hself _ .refl
      | succ k' =>
        rw [List.getElem?_cons_succ] at hk'
        rcases he.source b' w' (List.mem_of_getElem? hk') with ⟨x, hx, hb⟩ | ⟨x, hx, hb⟩
        · exact ⟨x.2, x.1, hb, btKey_fst (hmax x hx), hm _ (List.mem_cons_of_mem _ hx)⟩
        · cases hx
          exact hself _ hb

/-! ### Costs -/

/-- The sum of the costs of the rules. -/
def _root_.Rustomata.Spec.BinTree.cost (c : Nat → NNReal) : BinTree → NNReal
  | .nullary rid => c rid
  | .unary rid t => c rid + t.cost c
  | .binary rid _ l r => c rid + (l.cost c + r.cost c)

namespace Backtrace
omit [RoundedWeight W]

/-- The weight of the rule. -/
def rule : Backtrace W → Nat × W
  | nullary rid w => (rid, w)
  | unary rid _ w _ => (rid, w)
  | binary rid _ _ _ w _ _ => (rid, w)

/-- The parts: items and indices. -/
def subitems (i j : Nat) : Backtrace W → List ((Nat × Nat × Nat) × Nat)
  | nullary _ _ => []
  | unary _ q _ k => [((i, j, q), k)]
  | binary _ q₁ m q₂ _ k₁ k₂ => [((i, m, q₁), k₁), ((m, j, q₂), k₂)]

theorem rule_base (b : Backtrace W) : b.base.rule = b.rule := by cases b <;> rfl

theorem Below.subitems {x b : Backtrace W} (h : x.Below b) (i j : Nat) : List.Forall₂ (fun c c' => c.1 = c'.1 ∧ c.2 ≤ c'.2) (x.subitems i j) (b.subitems i j) := by
  induction h with
  | refl => exact List.forall₂_same.2 fun c _ => ⟨rfl, le_rfl⟩
  | @succ b b' _ hs ih =>
    cases b with
    | nullary => simp [succs] at hs
    | unary =>
      simp only [succs, List.mem_singleton] at hs
      subst hs
      cases x <;> simp only [Backtrace.subitems, List.forall₂_cons, List.Forall₂.nil, and_true, List.forall₂_nil_left_iff, reduceCtorEq] at ih ⊢
      · simp at ih
      · exact ⟨ih.1, by omega⟩
    | binary =>
      simp only [succs, List.mem_cons, List.not_mem_nil, or_false] at hs
      rcases hs with rfl | rfl <;>
      cases x <;> simp only [Backtrace.subitems, List.forall₂_cons, List.Forall₂.nil, and_true, List.forall₂_nil_left_iff, reduceCtorEq] at ih ⊢ <;>
      first
      | exact ⟨⟨ih.1.1, by omega⟩, ih.2.1, by omega⟩
      | simp at ih

end Backtrace

omit [RoundedWeight W] in
/-- The derivations of the parts. -/
theorem DenotesAt.subitems {L : Nat → Nat → Nat → List (Backtrace W × W)} {i j : Nat} {b : Backtrace W} {t : BinTree} (h : DenotesAt L i j b t) (c : Nat → NNReal) :
    ∃ ts : List BinTree, List.Forall₂ (fun p t => ∃ x, (L p.1.1 p.1.2.1 p.1.2.2)[p.2]? = some x ∧ DenotesAt L p.1.1 p.1.2.1 x.1 t) (b.subitems i j) ts ∧
      t.cost c = c b.rule.1 + (ts.map (BinTree.cost c)).sum := by
  cases h with
  | nullary => exact ⟨[], .nil, by simp [BinTree.cost, Backtrace.rule]⟩
  | unary h1 h2 => exact ⟨[_], .cons ⟨_, h1, h2⟩ .nil, by simp [BinTree.cost, Backtrace.rule]⟩
  | binary h1 h2 h3 h4 => exact ⟨[_, _], .cons ⟨_, h1, h3⟩ (.cons ⟨_, h2, h4⟩ .nil), by simp [BinTree.cost, Backtrace.rule]⟩

/-- Logarithms of weights: a product and the sum of the logarithms differ at most by the factor `κ`. -/
structure NearLog (W : Type _) [RoundedWeight W] (ℓ : W → NNReal) (κ : NNReal) : Prop where
  one_le : 1 ≤ κ
  anti : ∀ a b : W, a ≤ b → a ≠ 0 → ℓ b ≤ ℓ a
  ne_zero : ∀ a b : W, a ≠ 0 → b ≠ 0 → a * b ≠ 0
  up : ∀ a b : W, a ≠ 0 → b ≠ 0 → a ≤ 1 → b ≤ 1 → ℓ (a * b) ≤ κ * (ℓ a + ℓ b)
  down : ∀ a b : W, a ≠ 0 → b ≠ 0 → a ≤ 1 → b ≤ 1 → ℓ a + ℓ b ≤ κ * ℓ (a * b)

/-- Weights between zero and one. -/
def Unit01 (w : W) : Prop := w ≠ 0 ∧ w ≤ 1

variable {ℓ : W → NNReal} {κ : NNReal}

theorem Unit01.mul (hℓ : NearLog W ℓ κ) {a b : W} (ha : Unit01 a) (hb : Unit01 b) : Unit01 (a * b) :=
  ⟨hℓ.ne_zero a b ha.1 hb.1, mul_le_one' ha.2 hb.2⟩

/-- `w` is a product of the weights in some order. -/
def ProductOf (ℓ : W → NNReal) (κ : NNReal) (v : W) (ws : List W) (w : W) : Prop :=
  Unit01 w ∧ ℓ w ≤ κ ^ 2 * (ℓ v + (ws.map ℓ).sum) ∧ ℓ v + (ws.map ℓ).sum ≤ κ ^ 2 * ℓ w

theorem product_nil (hℓ : NearLog W ℓ κ) {v : W} (hv : Unit01 v) : ProductOf ℓ κ v [] v := by
  have := one_le_pow₀ (n := 2) hℓ.one_le
  refine ⟨hv, ?_, ?_⟩ <;> simp only [List.map_nil, List.sum_nil, add_zero] <;> exact le_mul_of_one_le_left (zero_le) this

theorem product_one (hℓ : NearLog W ℓ κ) {v a : W} (hv : Unit01 v) (ha : Unit01 a) : ProductOf ℓ κ v [a] (v * a) := by
  have hκ : κ ≤ κ ^ 2 := le_self_pow₀ hℓ.one_le (by decide)
  have h1 := hℓ.up v a hv.1 ha.1 hv.2 ha.2
  have h2 := hℓ.down v a hv.1 ha.1 hv.2 ha.2
  refine ⟨hv.mul hℓ ha, ?_, ?_⟩ <;> simp only [List.map_cons, List.map_nil, List.sum_cons, List.sum_nil, add_zero]
  · exact h1.trans (by gcongr)
  · exact h2.trans (by gcongr)

theorem product_left (hℓ : NearLog W ℓ κ) {v a b : W} (hv : Unit01 v) (ha : Unit01 a) (hb : Unit01 b) : ProductOf ℓ κ v [a, b] (v * a * b) := by
  have hva := hv.mul hℓ ha
  have h1 := hℓ.up v a hv.1 ha.1 hv.2 ha.2
  have h2 := hℓ.down v a hv.1 ha.1 hv.2 ha.2
  have h3 := hℓ.up _ b hva.1 hb.1 hva.2 hb.2
  have h4 := hℓ.down _ b hva.1 hb.1 hva.2 hb.2
  have hk := hℓ.one_le
  refine ⟨hva.mul hℓ hb, ?_, ?_⟩ <;> simp only [List.map_cons, List.map_nil, List.sum_cons, List.sum_nil, add_zero]
  · calc ℓ (v * a * b) ≤ κ * (ℓ (v * a) + ℓ b) := h3
      _ ≤ κ * (κ * (ℓ v + ℓ a) + κ * ℓ b) := by gcongr; exact le_mul_of_one_le_left (zero_le) hk
      _ = _ := by ring
  · calc ℓ v + (ℓ a + ℓ b) = (ℓ v + ℓ a) + ℓ b := by ring
      _ ≤ κ * ℓ (v * a) + κ * ℓ b := by gcongr; exact le_mul_of_one_le_left (zero_le) hk
      _ = κ * (ℓ (v * a) + ℓ b) := by ring
      _ ≤ κ * (κ * ℓ (v * a * b)) := by gcongr
      _ = _ := by ring

theorem product_right (hℓ : NearLog W ℓ κ) {v a b : W} (hv : Unit01 v) (ha : Unit01 a) (hb : Unit01 b) : ProductOf ℓ κ v [a, b] (v * (a * b)) := by
  have h := product_left hℓ ha hb hv
  have e : v * (a * b) = a * b * v := mul_comm _ _
  rw [e]
  have e' : ∀ x y z : NNReal, x + (y + z) = y + (z + x) := fun x y z => by ring
  unfold ProductOf at h ⊢
  simp only [List.map_cons, List.map_nil, List.sum_cons, List.sum_nil, add_zero] at h ⊢
  rw [e']
  exact h

omit [RoundedWeight W] in
theorem Backtrace.subitems_kids {i j : Nat} {b : Backtrace W} : ∀ p ∈ b.subitems i j, p.1 ∈ b.base.kids i j := by
  rw [Backtrace.kids_base]
  cases b <;> simp [Backtrace.subitems, Backtrace.kids]

omit [RoundedWeight W] in
theorem Backtrace.subitems_zero {i j : Nat} {b : Backtrace W} (h : b.base = b) : ∀ p ∈ b.subitems i j, p.2 = 0 := by
  cases b <;> simp only [Backtrace.subitems, Backtrace.base, Backtrace.unary.injEq, Backtrace.binary.injEq, true_and] at h ⊢
  · obtain ⟨rfl, rfl⟩ := h; simp
  · subst h; simp
  · simp

theorem sum_le {P X Y : Type _} {f : X → NNReal} {g : Y → NNReal} {K : NNReal} {R₁ : P → X → Prop} {R₂ : P → Y → Prop} {ps : List P} {xs : List X} {ys : List Y}
    (h1 : List.Forall₂ R₁ ps xs) (h2 : List.Forall₂ R₂ ps ys) (h : ∀ p ∈ ps, ∀ x y, R₁ p x → R₂ p y → f x ≤ K * g y) :
    (xs.map f).sum ≤ K * (ys.map g).sum := by
  induction h1 generalizing ys with
  | nil => cases h2; simp
  | @cons p x ps xs h3 h4 ih =>
    cases h2 with
    | cons h5 h6 =>
      simp only [List.map_cons, List.sum_cons, mul_add]
      exact add_le_add (h p (List.mem_cons_self ..) _ _ h3 h5) (ih h6 fun p' hp => h p' (List.mem_cons_of_mem _ hp))

/-- The weights of the parts in the chart. -/
def chartParts (F : KForest W) (i j : Nat) (b : Backtrace W) (ws : List W) : Prop :=
  List.Forall₂ (fun p x => F.cw p.1.1 p.1.2.1 p.1.2.2 = some x) (b.subitems i j) ws

/-- Forests whose weights are products in some order, with `c` as the costs of the rules. -/
structure NearForest (F : KForest W) (h0 : Nat → Nat → Nat → List (W × Backtrace W)) (ℓ : W → NNReal) (κ : NNReal) (c : Nat → NNReal) : Prop where
  heap : HeapForest F h0
  log : NearLog W ℓ κ
  rule : ∀ {i j q b}, F.ok i j q → b ∈ F.I i j q → Unit01 b.rule.2 ∧ ℓ b.rule.2 = c b.rule.1
  init : ∀ {i j q w b}, F.ok i j q → (w, b) ∈ h0 i j q → ∃ ws, chartParts F i j b ws ∧ ProductOf ℓ κ b.rule.2 ws w
  reached : ∀ {i j q A}, F.ok i j q → F.cw i j q = some A → ∃ b ∈ F.I i j q, ∃ ws, chartParts F i j b ws ∧ ProductOf ℓ κ b.rule.2 ws A
  best : ∀ {i j q A b}, F.ok i j q → F.cw i j q = some A → b ∈ F.I i j q → ∃ w ws, chartParts F i j b ws ∧ ProductOf ℓ κ b.rule.2 ws w ∧ w ≤ A

variable {F : KForest W} {h0 : Nat → Nat → Nat → List (W × Backtrace W)} {c : Nat → NNReal}

/-- What holds for the lists of items of rank less than `r`. -/
structure NearAt (F : KForest W) (h0 : Nat → Nat → Nat → List (W × Backtrace W)) (ℓ : W → NNReal) (κ : NNReal) (c : Nat → NNReal) (r i j q : Nat) : Prop where
  unit : ∀ b w, (b, w) ∈ emitL F h0 i j q → Unit01 w
  up : ∀ b w t, (b, w) ∈ emitL F h0 i j q → DenotesAt (emitL F h0) i j b t → ℓ w ≤ κ ^ (2 * r) * t.cost c
  down : ∀ b w t, (b, w) ∈ emitL F h0 i j q → DenotesAt (emitL F h0) i j b t → t.cost c ≤ κ ^ (6 * r) * ℓ w
  chart_up : ∀ A b w t, F.cw i j q = some A → (b, w) ∈ emitL F h0 i j q → DenotesAt (emitL F h0) i j b t → ℓ A ≤ κ ^ (2 * r) * t.cost c
  chart_down : ∀ A b w t, F.cw i j q = some A → (emitL F h0 i j q)[0]? = some (b, w) → DenotesAt (emitL F h0) i j b t → t.cost c ≤ κ ^ (6 * r) * ℓ A
  order : ∀ (k k' : Nat) x x' t t', k ≤ k' → (emitL F h0 i j q)[k]? = some x → (emitL F h0 i j q)[k']? = some x' → DenotesAt (emitL F h0) i j x.1 t →
    DenotesAt (emitL F h0) i j x'.1 t' → t.cost c ≤ κ ^ (4 * r ^ 2) * t'.cost c

/-- The weight of a backtrace is a product of the weights of its parts. -/
theorem btW_product (hF : NearForest F h0 ℓ κ c) {i j q : Nat} (hok : F.ok i j q) {b : Backtrace W} (hb : b.base ∈ F.I i j q) {w : W}
    (hu : ∀ p ∈ b.subitems i j, ∀ b w, (b, w) ∈ emitL F h0 p.1.1 p.1.2.1 p.1.2.2 → Unit01 w) (hw : btW (listWt (emitL F h0)) i j b = some w) :
    ∃ ws, List.Forall₂ (fun p x => ∃ b, (emitL F h0 p.1.1 p.1.2.1 p.1.2.2)[p.2]? = some (b, x)) (b.subitems i j) ws ∧ ProductOf ℓ κ b.rule.2 ws w := by
  have hr := (hF.rule hok hb).1
  rw [Backtrace.rule_base] at hr
  cases b with
  | nullary => cases hw; exact ⟨[], .nil, product_nil hF.log hr⟩
  | unary rid q₁ v k =>
    simp only [btW, listWt, Option.map_eq_some_iff] at hw
    obtain ⟨_, ⟨p, hp, rfl⟩, rfl⟩ := hw
    exact ⟨[p.2], .cons ⟨p.1, hp⟩ .nil, product_one hF.log hr (hu ((i, j, q₁), k) (by simp [Backtrace.subitems]) p.1 p.2 (List.mem_of_getElem? hp))⟩
  | binary rid q₁ m q₂ v k₁ k₂ =>
    simp only [btW, listWt, Option.map_eq_some_iff, Option.bind_eq_some_iff] at hw
    obtain ⟨_, ⟨p₁, hp₁, rfl⟩, _, ⟨p₂, hp₂, rfl⟩, rfl⟩ := hw
    exact ⟨[p₁.2, p₂.2], .cons ⟨p₁.1, hp₁⟩ (.cons ⟨p₂.1, hp₂⟩ .nil), product_left hF.log hr
      (hu ((i, m, q₁), k₁) (by simp [Backtrace.subitems]) p₁.1 p₁.2 (List.mem_of_getElem? hp₁))
      (hu ((m, j, q₂), k₂) (by simp [Backtrace.subitems]) p₂.1 p₂.2 (List.mem_of_getElem? hp₂))⟩

theorem near_at (hF : NearForest F h0 ℓ κ c) {T : Type _} {G : BinGrammar T W} (hG : ForestOf G F) (r : Nat) :
    ∀ {i j q}, F.ok i j q → F.rank i j q < r → NearAt F h0 ℓ κ c r i j q := by
  have hκ := hF.log.one_le
  have hpow : ∀ {m n : Nat}, m ≤ n → κ ^ m ≤ κ ^ n := fun h => pow_le_pow_right₀ hκ h
  induction r with
  | zero => intro i j q _ h; omega
  | succ r ih =>
    intro i j q hok hr
    have he := hF.heap.emitL_emits hok
    -- the parts
    have hkid : ∀ b : Backtrace W, b.base ∈ F.I i j q → ∀ p ∈ b.subitems i j, NearAt F h0 ℓ κ c r p.1.1 p.1.2.1 p.1.2.2 := by
      intro b hb p hp
      obtain ⟨h1, h2, _⟩ := hF.heap.kids hok hb p.1 (Backtrace.subitems_kids p hp)
      exact ih h1 (by omega)
    have hcost : ∀ b : Backtrace W, b.base ∈ F.I i j q → c b.rule.1 = ℓ b.rule.2 := by
      intro b hb
      have := (hF.rule hok hb).2
      rw [Backtrace.rule_base] at this
      exact this.symm
    -- chart weights and derivations of the parts
    have hup : ∀ (b : Backtrace W) ws t, b.base ∈ F.I i j q → chartParts F i j b ws → DenotesAt (emitL F h0) i j b t →
        ℓ b.rule.2 + (ws.map ℓ).sum ≤ κ ^ (2 * r) * t.cost c := by
      intro b ws t hb hws ht
      obtain ⟨ts, h1, h2⟩ := ht.subitems c
      rw [h2, mul_add, hcost b hb]
      refine add_le_add (le_mul_of_one_le_left (zero_le) (one_le_pow₀ hκ)) (sum_le hws h1 ?_)
      rintro p hp x t hx ⟨y, hy, ht⟩
      exact (hkid b hb p hp).chart_up x y.1 y.2 t hx (List.mem_of_getElem? hy) ht
    have hdown : ∀ (b : Backtrace W) ws t, b ∈ F.I i j q → chartParts F i j b ws → DenotesAt (emitL F h0) i j b t →
        t.cost c ≤ κ ^ (6 * r) * (ℓ b.rule.2 + (ws.map ℓ).sum) := by
      intro b ws t hb hws ht
      have hbase := hF.heap.base hb
      have hb' : b.base ∈ F.I i j q := by rw [hbase]; exact hb
      obtain ⟨ts, h1, h2⟩ := ht.subitems c
      rw [h2, mul_add, hcost b hb']
      refine add_le_add (le_mul_of_one_le_left (zero_le) (one_le_pow₀ hκ)) (sum_le h1 hws ?_)
      rintro p hp t x ⟨y, hy, ht⟩ hx
      rw [Backtrace.subitems_zero hbase p hp] at hy
      exact (hkid b hb' p hp).chart_down x y.1 y.2 t hx hy ht
    -- all candidates
    have hcand : ∀ w b, (w, b) ∈ h0 i j q ∨ (b.base ∈ F.I i j q ∧ btW (listWt (emitL F h0)) i j b = some w) →
        Unit01 w ∧ ∀ t, DenotesAt (emitL F h0) i j b t → ℓ w ≤ κ ^ (2 * r + 2) * t.cost c ∧ t.cost c ≤ κ ^ (6 * r + 2) * ℓ w := by
      rintro w b (hw | ⟨hb, hw⟩)
      · have hb : b ∈ F.I i j q := by
          rw [← hF.heap.map]
          exact List.mem_map_of_mem (f := Prod.snd) hw
        have hb' : b.base ∈ F.I i j q := by rw [hF.heap.base hb]; exact hb
        obtain ⟨ws, h1, h2, h3, h4⟩ := hF.init hok hw
        refine ⟨h2, fun t ht => ⟨?_, ?_⟩⟩
        · calc ℓ w ≤ κ ^ 2 * (ℓ b.rule.2 + (ws.map ℓ).sum) := h3
            _ ≤ κ ^ 2 * (κ ^ (2 * r) * t.cost c) := by gcongr; exact hup b ws t hb' h1 ht
            _ = _ := by ring
        · calc t.cost c ≤ κ ^ (6 * r) * (ℓ b.rule.2 + (ws.map ℓ).sum) := hdown b ws t hb h1 ht
            _ ≤ κ ^ (6 * r) * (κ ^ 2 * ℓ w) := by gcongr
            _ = _ := by ring
      · obtain ⟨ws, h1, h2, h3, h4⟩ := btW_product hF hok hb (fun p hp => (hkid b hb p hp).unit) hw
        refine ⟨h2, fun t ht => ?_⟩
        obtain ⟨ts, g1, g2⟩ := ht.subitems c
        have e1 : ℓ b.rule.2 + (ws.map ℓ).sum ≤ κ ^ (2 * r) * t.cost c := by
          rw [g2, mul_add, hcost b hb]
          refine add_le_add (le_mul_of_one_le_left (zero_le) (one_le_pow₀ hκ)) (sum_le h1 g1 ?_)
          rintro p hp x t ⟨b', hx⟩ ⟨y, hy, ht⟩
          rw [hx] at hy
          cases hy
          exact (hkid b hb p hp).up b' x t (List.mem_of_getElem? hx) ht
        have e2 : t.cost c ≤ κ ^ (6 * r) * (ℓ b.rule.2 + (ws.map ℓ).sum) := by
          rw [g2, mul_add, hcost b hb]
          refine add_le_add (le_mul_of_one_le_left (zero_le) (one_le_pow₀ hκ)) (sum_le g1 h1 ?_)
          rintro p hp t x ⟨y, hy, ht⟩ ⟨b', hx⟩
          rw [hx] at hy
          cases hy
          exact (hkid b hb p hp).down b' x t (List.mem_of_getElem? hx) ht
        constructor
        · calc ℓ w ≤ κ ^ 2 * (ℓ b.rule.2 + (ws.map ℓ).sum) := h3
            _ ≤ κ ^ 2 * (κ ^ (2 * r) * t.cost c) := by gcongr
            _ = _ := by ring
        · calc t.cost c ≤ κ ^ (6 * r) * (ℓ b.rule.2 + (ws.map ℓ).sum) := e2
            _ ≤ κ ^ (6 * r) * (κ ^ 2 * ℓ w) := by gcongr
            _ = _ := by ring
    have hlisted : ∀ b w, (b, w) ∈ emitL F h0 i j q →
        Unit01 w ∧ ∀ t, DenotesAt (emitL F h0) i j b t → ℓ w ≤ κ ^ (2 * r + 2) * t.cost c ∧ t.cost c ≤ κ ^ (6 * r + 2) * ℓ w := by
      intro b w hb
      obtain ⟨h1, h2⟩ := he.mem (baseClosed F i j q) (by rintro b ⟨⟩) hF.heap.h0_base b w hb
      refine hcand w b ?_
      rcases h2 with h2 | h2
      · exact .inl h2
      · exact .inr ⟨h1, h2⟩
    refine ⟨fun b w hb => (hlisted b w hb).1, fun b w t hb ht => ?_, fun b w t hb ht => ?_, fun A b w t hA hb ht => ?_, fun A b w t hA hb ht => ?_, ?_⟩
    · exact (((hlisted b w hb).2 t ht).1).trans (mul_le_mul_left (hpow (by omega)) _)
    · exact (((hlisted b w hb).2 t ht).2).trans (mul_le_mul_left (hpow (by omega)) _)
    · have hbI := ((hF.heap.emitL_spec hok b).1 ⟨w, hb⟩).1
      obtain ⟨w', ws, h1, ⟨h2, h3, h4⟩, h5⟩ := hF.best hok hA hbI
      have h1' : chartParts F i j b ws := by
        unfold chartParts at h1 ⊢
        cases b with
        | nullary => exact h1
        | unary =>
          cases h1 with
          | cons a1 a2 => exact .cons a1 a2
        | binary =>
          cases h1 with
          | cons a1 a2 =>
            cases a2 with
            | cons a2 a3 => exact .cons a1 (.cons a2 a3)
      rw [Backtrace.rule_base] at h3
      calc ℓ A ≤ ℓ w' := hF.log.anti _ _ h5 h2.1
        _ ≤ κ ^ 2 * (ℓ b.rule.2 + (ws.map ℓ).sum) := h3
        _ ≤ κ ^ 2 * (κ ^ (2 * r) * t.cost c) := by gcongr; exact hup b ws t hbI h1' ht
        _ = _ := by ring
    · obtain ⟨b', hb', ws, h1, h2, h3, h4⟩ := hF.reached hok hA
      obtain ⟨w', hw'⟩ := hF.heap.h0_mem hb'
      obtain ⟨ws', g1, g2, g3, g4⟩ := hF.init hok hw'
      have hws : ws' = ws := by
        unfold chartParts at g1 h1
        generalize b'.subitems i j = ps at g1 h1
        clear g2 g3 g4 h2 h3 h4
        induction g1 generalizing ws with
        | nil => cases h1; rfl
        | cons a1 _ ihw =>
          cases h1 with
          | cons b1 b2 =>
            rw [a1, Option.some.injEq] at b1
            rw [b1, ihw _ b2]
      subst hws
      have hle := he.first hb _ hw'
      calc t.cost c ≤ κ ^ (6 * r + 2) * ℓ w := ((hlisted b w (List.mem_of_getElem? hb)).2 t ht).2
        _ ≤ κ ^ (6 * r + 2) * ℓ w' := by gcongr; exact hF.log.anti _ _ hle g2.1
        _ ≤ κ ^ (6 * r + 2) * (κ ^ 2 * (κ ^ 2 * ℓ A)) := by gcongr; exact g3.trans (by gcongr)
        _ = _ := by ring
    · rintro k k' ⟨b, w⟩ ⟨b', w'⟩ t t' hk hx hx' ht ht'
      obtain ⟨x, v, h1, h2, h3⟩ := he.order k k' b w b' w' hk hx hx'
      have hb' := ((hF.heap.emitL_spec hok b').1 ⟨w', List.mem_of_getElem? hx'⟩).1
      have hxI : x.base ∈ F.I i j q := by rw [h1.base]; exact hb'
      -- the derivation of the candidate
      have hmem : (v, x) ∈ h0 i j q ∨ (x.base ∈ F.I i j q ∧ btW (listWt (emitL F h0)) i j x = some v) := by
        rcases h3 with h3 | h3
        · exact .inl h3
        · exact .inr ⟨hxI, h3⟩
      obtain ⟨g1, g2⟩ := hcand v x hmem
      have hlist : ∃ v', (x, v') ∈ emitL F h0 i j q := by
        rcases hmem with hm | ⟨hm, hm'⟩
        · exact ⟨v, he.heap _ hm⟩
        · exact (hF.heap.emitL_spec hok x).2 ⟨hm, v, hm'⟩
      obtain ⟨v', hv'⟩ := hlist
      obtain ⟨tx, _, htx, _⟩ := denotesAt_total hF.heap hG _ hok rfl hv'
      have hlast : tx.cost c ≤ κ ^ (4 * r ^ 2) * t'.cost c := by
        obtain ⟨ts, e1, e2⟩ := htx.subitems c
        obtain ⟨ts', f1, f2⟩ := ht'.subitems c
        have hrule : x.rule = b'.rule := by rw [← Backtrace.rule_base x, h1.base, Backtrace.rule_base]
        rw [e2, f2, mul_add, hrule]
        refine add_le_add (le_mul_of_one_le_left (zero_le) (one_le_pow₀ hκ)) ?_
        have hp := h1.subitems i j
        have hk := hkid b' hb'
        clear e2 f2 htx ht' 
        generalize x.subitems i j = ps at hp e1
        generalize b'.subitems i j = ps' at hp f1 hk
        induction hp generalizing ts ts' with
        | nil => cases e1; cases f1; simp
        | @cons p p' ps ps' hpp _ ihp =>
          cases e1 with
          | cons a1 a2 =>
            cases f1 with
            | cons b1 b2 =>
              simp only [List.map_cons, List.sum_cons, mul_add]
              refine add_le_add ?_ (ihp _ _ a2 b2 fun p hp => hk p (List.mem_cons_of_mem _ hp))
              obtain ⟨y, y1, y2⟩ := a1
              obtain ⟨y', y1', y2'⟩ := b1
              obtain ⟨⟨i₁, j₁, q₁⟩, k₁⟩ := p
              obtain ⟨⟨i₂, j₂, q₂⟩, k₂⟩ := p'
              obtain ⟨hpp, hkk⟩ := hpp
              cases hpp
              exact (hk _ (List.mem_cons_self ..)).order k₁ k₂ y y' _ _ hkk y1 y1' y2 y2'
      calc t.cost c ≤ κ ^ (6 * r + 2) * ℓ w := ((hlisted b w (List.mem_of_getElem? hx)).2 t ht).2
        _ ≤ κ ^ (6 * r + 2) * ℓ v := by gcongr; exact hF.log.anti _ _ h2 g1.1
        _ ≤ κ ^ (6 * r + 2) * (κ ^ (2 * r + 2) * (κ ^ (4 * r ^ 2) * t'.cost c)) := by gcongr; exact ((g2 tx htx).1).trans (by gcongr)
        _ = _ := by ring

end

end Rustomata

namespace Rustomata
open Spec KForest

section
variable {N T W : Type _} [DecidableEq N] [DecidableEq T] [RoundedWeight W] {ℓ : W → NNReal} {κ : NNReal} {c : Nat → NNReal}

/-- The ranks of the states can be chosen to be at most the number of states. -/
theorem ranks_le {rank : Nat → Nat} {states : Nat} {r : Nat → Nat → Prop} (h : ∀ q q₁, r q q₁ → q₁ < states ∧ rank q₁ < rank q) :
    ∃ rank' : Nat → Nat, (∀ q, rank' q ≤ states) ∧ ∀ q q₁, r q q₁ → rank' q₁ < rank' q := by
  refine ⟨fun q => ((Finset.range states).filter fun q' => rank q' < rank q).card, fun q => ?_, fun q q₁ hq => ?_⟩
  · exact (Finset.card_filter_le _ _).trans (Finset.card_range _).le
  · obtain ⟨h1, h2⟩ := h q q₁ hq
    refine Finset.card_lt_card (Finset.ssubset_iff_of_subset ?_ |>.2 ⟨q₁, ?_, ?_⟩)
    · intro x hx
      rw [Finset.mem_filter] at hx ⊢
      exact ⟨hx.1, hx.2.trans h2⟩
    · rw [Finset.mem_filter, Finset.mem_range]
      exact ⟨h1, h2⟩
    · simp

/-- The costs of the rules of a grammar. -/
structure RuleCosts (G : BinGrammar T W) (ℓ : W → NNReal) (c : Nat → NNReal) : Prop where
  nullary : ∀ {rid q a w}, G.nullary rid q a w → Unit01 w ∧ ℓ w = c rid
  unary : ∀ {rid q q₁ w}, G.unary rid q q₁ w → Unit01 w ∧ ℓ w = c rid
  binary : ∀ {rid q q₁ q₂ w}, G.binary rid q q₁ q₂ w → Unit01 w ∧ ℓ w = c rid

variable {A : CsAutomaton T W} {st : List (CsState N)} {ps : List (CsProd N T W × TdBrackets)} {filter : List Bool} {chart : DenseChart W} {n : Nat}


theorem chartForest_near (hℓ : NearLog W ℓ κ) (hA : A.Rep st ps) (hf : filter.length = A.brackets.length)
    (hget : ∀ i j q, i < j → j ≤ n → q < A.states → ∃ o, chart.getWeight i j q = some o) (hbest : ChartBest (buGrammar A filter) (chartWeight chart) n A.states)
    (hc : RuleCosts (buGrammar A filter) ℓ c) (hu : ∀ i j q w, i < j → j ≤ n → q < A.states → chartWeight chart i j q = some w → Unit01 w) {R : Nat} {rank : Nat → Nat}
    (hF : HeapForest (chartForest A chart filter n R rank) fun i j q => (backtraces A chart filter i j q).getD []) :
    NearForest (chartForest A chart filter n R rank) (fun i j q => (backtraces A chart filter i j q).getD []) ℓ κ c := by
  have hrule : ∀ {i j q w b}, BtCand (buGrammar A filter) (chartWeight chart) i j q w b → Unit01 b.rule.2 ∧ ℓ b.rule.2 = c b.rule.1 := by
    intro i j q w b h
    cases b with
    | nullary =>
      obtain ⟨_, _, a, h⟩ := h
      exact hc.nullary h
    | unary => exact hc.unary h.2.1
    | binary => exact hc.binary h.2.2.2.2.1
  have hkids : ∀ {i j q b}, (chartForest A chart filter n R rank).ok i j q → b ∈ (chartForest A chart filter n R rank).I i j q → ∀ k ∈ b.kids i j, ∀ w,
      chartWeight chart k.1 k.2.1 k.2.2 = some w → Unit01 w := by
    intro i j q b hok hb k hk w hw
    obtain ⟨h1, _, _⟩ := hF.kids hok hb k hk
    exact hu _ _ _ _ h1.1 h1.2.1 h1.2.2 hw
  -- the weight of a backtrace in the order of the chart
  have hway : ∀ {i j q w b}, (chartForest A chart filter n R rank).ok i j q → BtCand (buGrammar A filter) (chartWeight chart) i j q w b →
      ∃ w' ws, Way (buGrammar A filter) (chartWeight chart) i j q w' ∧ chartParts (chartForest A chart filter n R rank) i j b ws ∧
        ProductOf ℓ κ b.rule.2 ws w' ∧ ProductOf ℓ κ b.rule.2 ws w := by
    intro i j q w b hok h
    have hb := (chartForest_mem hA hf hget R rank hok b).2 ⟨w, h⟩
    have hk := hkids hok hb
    have hr := (hrule h).1
    cases b with
    | nullary rid v =>
      obtain ⟨rfl, rfl, a, h⟩ := h
      exact ⟨w, [], .nullary h, .nil, product_nil hℓ hr, product_nil hℓ hr⟩
    | unary rid q₁ v k =>
      obtain ⟨_, h, w₁, h1, rfl⟩ := h
      have g1 := hk (i, j, q₁) (by simp [Backtrace.kids]) w₁ h1
      exact ⟨v * w₁, [w₁], .unary h h1, .cons h1 .nil, product_one hℓ hr g1, product_one hℓ hr g1⟩
    | binary rid q₁ m q₂ v k₁ k₂ =>
      obtain ⟨_, _, h1, h2, h, w₁, w₂, h3, h4, rfl⟩ := h
      have g1 := hk (i, m, q₁) (by simp [Backtrace.kids]) w₁ h3
      have g2 := hk (m, j, q₂) (by simp [Backtrace.kids]) w₂ h4
      exact ⟨v * w₁ * w₂, [w₁, w₂], .binary h1 h2 h h3 h4, .cons h3 (.cons h4 .nil), product_left hℓ hr g1 g2, product_right hℓ hr g1 g2⟩
  refine ⟨hF, hℓ, ?_, ?_, ?_, ?_⟩
  · intro i j q b hok hb
    obtain ⟨w, hb⟩ := (chartForest_mem hA hf hget R rank hok b).1 hb
    exact hrule hb
  · intro i j q w b hok hb
    obtain ⟨h, h1, _, h3⟩ := backtraces_spec hA hf hget hok.1 hok.2.1 hok.2.2
    simp only [h1, Option.getD_some] at hb
    obtain ⟨_, ws, _, g2, _, g4⟩ := hway hok ((h3 w b).1 hb)
    exact ⟨ws, g2, g4⟩
  · intro i j q w hok hw
    have h1 := (hbest i j q w hok.1 hok.2.1 hok.2.2 hw).1
    cases h1 with
    | nullary h =>
      rename_i rid a
      have hb : BtCand (buGrammar A filter) (chartWeight chart) i (i + 1) q w (.nullary rid w) := ⟨rfl, rfl, a, h⟩
      exact ⟨_, (chartForest_mem hA hf hget R rank hok _).2 ⟨_, hb⟩, [], .nil, product_nil hℓ (hrule hb).1⟩
    | unary h h1 =>
      rename_i q₁ rid v w₁
      have hb : BtCand (buGrammar A filter) (chartWeight chart) i j q (v * w₁) (.unary rid q₁ v 0) := ⟨rfl, h, w₁, h1, rfl⟩
      have hm := (chartForest_mem hA hf hget R rank hok _).2 ⟨_, hb⟩
      exact ⟨_, hm, [w₁], .cons h1 .nil, product_one hℓ (hrule hb).1 (hkids hok hm (i, j, q₁) (by simp [Backtrace.kids]) w₁ h1)⟩
    | binary h1 h2 h h3 h4 =>
      rename_i m q₁ q₂ rid v w₁ w₂
      have hb : BtCand (buGrammar A filter) (chartWeight chart) i j q (v * (w₁ * w₂)) (.binary rid q₁ m q₂ v 0 0) := ⟨rfl, rfl, h1, h2, h, w₁, w₂, h3, h4, rfl⟩
      have hm := (chartForest_mem hA hf hget R rank hok _).2 ⟨_, hb⟩
      exact ⟨_, hm, [w₁, w₂], .cons h3 (.cons h4 .nil), product_left hℓ (hrule hb).1 (hkids hok hm (i, m, q₁) (by simp [Backtrace.kids]) w₁ h3)
        (hkids hok hm (m, j, q₂) (by simp [Backtrace.kids]) w₂ h4)⟩
  · intro i j q w b hok hw hb
    obtain ⟨w', hb⟩ := (chartForest_mem hA hf hget R rank hok b).1 hb
    obtain ⟨w'', ws, g1, g2, g3, _⟩ := hway hok hb
    exact ⟨w'', ws, g2, g3, (hbest i j q w hok.1 hok.2.1 hok.2.2 hw).2 _ g1⟩

end

end Rustomata
