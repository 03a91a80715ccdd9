import Verif.Proofs.CsKBestStreamRead
import Verif.Proofs.CsKBestFair

/-!
# Each backtrace is an element of the stream
-/

namespace Rustomata
open Spec KForest

section
variable {W : Type _} [LinearOrderedCommMonoidWithZero W]

/-- A bound for the number of elements of depth less than `D` that can still be found. -/
def weightPot (D : Nat) (b : Backtrace W) : Nat := if b.depth < D then 3 ^ (D - b.depth) else 0

omit [LinearOrderedCommMonoidWithZero W] in
theorem pot_succs (D : Nat) (b : Backtrace W) : ((b.succs).map (weightPot D)).sum ≤ weightPot D b ∧ (b.depth < D → ((b.succs).map (weightPot D)).sum < weightPot D b) := by
  have hs : ∀ b' ∈ b.succs, 3 * weightPot D b' ≤ weightPot D b := by
    intro b' hb
    have h1 := Backtrace.depth_succs hb
    unfold weightPot
    split
    · rw [if_pos (by omega), show D - b.depth = D - b'.depth + 1 by omega, Nat.pow_succ]
      omega
    · omega
  have hpos : b.depth < D → 0 < weightPot D b := fun h => by unfold weightPot; rw [if_pos h]; positivity
  cases hb : b.succs with
  | nil => exact ⟨Nat.zero_le _, hpos⟩
  | cons x l =>
    rw [hb] at hs
    cases hl : l with
    | nil =>
      subst hl
      have := hs x (by simp)
      simp only [List.map_cons, List.map_nil, List.sum_cons, List.sum_nil]
      exact ⟨by omega, fun h => by have := hpos h; omega⟩
    | cons y l' =>
      subst hl
      have hl' : l' = [] := by
        cases b with
        | nullary => simp [Backtrace.succs] at hb
        | unary => simp [Backtrace.succs] at hb
        | binary =>
          simp only [Backtrace.succs, List.cons.injEq] at hb
          exact hb.2.2.symm
      subst hl'
      have h1 := hs x (by simp)
      have h2 := hs y (by simp)
      simp only [List.map_cons, List.map_nil, List.sum_cons, List.sum_nil]
      exact ⟨by omega, fun h => by have := hpos h; omega⟩

/-- The bound for a state. -/
def statePot (D : Nat) (s : Option (Backtrace W) × List (W × Backtrace W)) : Nat := (s.2.map fun y => weightPot D y.2).sum + ((succsOf s.1).map (weightPot D)).sum

omit [LinearOrderedCommMonoidWithZero W] in
theorem weighted_sum (f : Backtrace W → Nat) (val : Backtrace W → Option W) (bs : List (Backtrace W)) : ((weighted val bs).map fun c => f c.1).sum ≤ (bs.map f).sum := by
  unfold weighted
  induction bs with
  | nil => simp
  | cons b bs ih =>
    rw [List.filterMap_cons]
    cases val b with
    | none =>
      simp only [Option.map_none, List.map_cons, List.sum_cons]
      omega
    | some w =>
      simp only [Option.map_some, List.map_cons, List.sum_cons]
      omega

theorem statePot_step {val : Backtrace W → Option W} (D : Nat) {s : Option (Backtrace W) × List (W × Backtrace W)} {b : Backtrace W} {w : W} {r : List (W × Backtrace W)}
    (h : pstep val s = some ((b, w), r)) : statePot D (some b, r) ≤ statePot D s ∧ (b.depth < D → statePot D (some b, r) < statePot D s) := by
  rw [pstep_some] at h
  obtain ⟨hperm, _⟩ := btPop_some h
  have h1 := pushAll_sum (weightPot D) (weighted val (succsOf s.1)) s.2
  have h2 := weighted_sum (weightPot D) val (succsOf s.1)
  have h3 := (hperm.map fun y => weightPot D y.2).sum_eq
  simp only [List.map_cons, List.sum_cons] at h3
  obtain ⟨h4, h5⟩ := pot_succs D b
  unfold statePot
  simp only [succsOf] at h4 h5 ⊢
  refine ⟨?_, fun hb => ?_⟩
  · simp only [succsOf] at h1 h2 h3
    omega
  · have := h5 hb
    simp only [succsOf] at h1 h2 h3
    omega

/-- From some position on, all elements have at least the depth `D`. -/
theorem pelem_depth (val : Backtrace W → Option W) (h : List (W × Backtrace W)) (D : Nat) : ∃ K, ∀ k ≥ K, ∀ b w, pelem val h k = some (b, w) → D ≤ b.depth := by
  have key : ∀ p n s, pstate val h n = some s → statePot D s = p → ∃ K, ∀ k ≥ K, ∀ b w, pelem val h k = some (b, w) → D ≤ b.depth := by
    intro p
    induction p using Nat.strong_induction_on with
    | _ p ih =>
      intro n s hs hp
      by_cases hall : ∀ k ≥ n, ∀ b w, pelem val h k = some (b, w) → D ≤ b.depth
      · exact ⟨n, hall⟩
      · push Not at hall
        obtain ⟨k, hk, b, w, h1, h2⟩ := hall
        have hmono : ∀ m, ∀ s', pstate val h (n + m) = some s' → statePot D s' ≤ p := by
          intro m
          induction m with
          | zero =>
            intro s' hs'
            rw [Nat.add_zero, hs] at hs'
            cases hs'
            omega
          | succ m ihm =>
            intro s' hs'
            obtain ⟨s₀, b', w', e1, e2, e3⟩ := pstate_succ.1 hs'
            have := (statePot_step D e2).1
            have h5 := ihm _ e1
            obtain ⟨s1, s2⟩ := s'
            simp only at e3 this
            rw [e3]
            omega
        obtain ⟨s', r, e1, e2, e3⟩ := pelem_some.1 h1
        have h4 := hmono (k - n) s' (by rw [show n + (k - n) = k by omega]; exact e1)
        have h5 := (statePot_step D e2).2 h2
        exact ih _ (by omega) _ _ e3 rfl
  exact key _ 0 _ rfl rfl

theorem le_of_btKey {x y : W × Backtrace W} (h : btKey y ≤ btKey x) : y.1 ≤ x.1 := by
  unfold btKey at h
  rw [Prod.Lex.toLex_le_toLex] at h
  rcases h with h | h
  · exact h.le
  · exact h.1.le

/-- A candidate becomes an element if the weights of the elements fall below its weight. -/
theorem pelem_of_mem {val : Backtrace W → Option W} {h : List (W × Backtrace W)} {n : Nat} {s : Option (Backtrace W) × List (W × Backtrace W)}
    (hs : pstate val h n = some s) {y : W × Backtrace W} (hy : y ∈ pushAll s.2 (weighted val (succsOf s.1))) {K : Nat}
    (hK : ∀ k ≥ K, ∀ b w, pelem val h k = some (b, w) → w < y.1) : ∃ k, pelem val h k = some (y.2, y.1) := by
  have hstep : ∀ m s', pstate val h m = some s' → y ∈ pushAll s'.2 (weighted val (succsOf s'.1)) →
      ∃ b w r, pelem val h m = some (b, w) ∧ pstate val h (m + 1) = some (some b, r) ∧ y.1 ≤ w ∧ (y = (w, b) ∨ y ∈ r) := by
    intro m s' hs' hy'
    cases hp : btPop (pushAll s'.2 (weighted val (succsOf s'.1))) with
    | none =>
      rw [btPop_none.1 hp] at hy'
      cases hy'
    | some x =>
      obtain ⟨⟨w, b⟩, r⟩ := x
      have h1 : pstep val s' = some ((b, w), r) := pstep_some.2 hp
      have h2 : pstate val h (m + 1) = some (some b, r) := pstate_succ.2 ⟨_, b, w, hs', h1, rfl⟩
      obtain ⟨hperm, hmax⟩ := btPop_some hp
      rcases List.mem_cons.1 (hperm.mem_iff.1 hy') with rfl | hy'
      · exact ⟨b, w, r, pelem_some.2 ⟨_, _, hs', h1, h2⟩, h2, le_refl _, .inl rfl⟩
      · exact ⟨b, w, r, pelem_some.2 ⟨_, _, hs', h1, h2⟩, h2, le_of_btKey (hmax y hy'), .inr hy'⟩
  have key : ∀ m, (∃ k, pelem val h k = some (y.2, y.1)) ∨ ∃ s', pstate val h (n + m) = some s' ∧ y ∈ pushAll s'.2 (weighted val (succsOf s'.1)) := by
    intro m
    induction m with
    | zero => exact .inr ⟨s, hs, hy⟩
    | succ m ih =>
      rcases ih with ih | ⟨s', h1, h2⟩
      · exact .inl ih
      · obtain ⟨b, w, r, e1, e2, _, e3⟩ := hstep _ _ h1 h2
        rcases e3 with rfl | e3
        · exact .inl ⟨_, e1⟩
        · exact .inr ⟨_, e2, pushAll_sub _ e3⟩
  rcases key K with h1 | ⟨s', h1, h2⟩
  · exact h1
  · obtain ⟨b, w, r, e1, _, e2, _⟩ := hstep _ _ h1 h2
    exact absurd (hK _ (Nat.le_add_left _ _) _ _ e1) (not_lt.2 e2)

variable {F : KForest W} {h0 : Nat → Nat → Nat → List (W × Backtrace W)} {M : Nat} {T : Type _} {G : BinGrammar T W}

/-- The weights of the elements are not zero and at most one. -/
theorem elem_weight [NoZeroDivisors W] (hF : StreamForest F h0 M) (hG : ForestOf G F) (hle : RulesLeOne G)
    (hnz : (∀ rid q q₁ w, G.unary rid q q₁ w → w ≠ 0) ∧ ∀ rid q q₁ q₂ w, G.binary rid q q₁ q₂ w → w ≠ 0)
    (hh : ∀ i j q, F.ok i j q → ∀ y ∈ h0 i j q, y.1 ≠ 0 ∧ y.1 ≤ 1) (r : Nat) :
    ∀ {i j q k b w}, F.ok i j q → smeasure F M i j q k = r → elem F h0 M i j q k = some (b, w) → w ≠ 0 ∧ w ≤ 1 := by
  induction r using Nat.strong_induction_on with
  | _ r ih =>
    intro i j q k b w hok hr he
    obtain ⟨hb, ho, _, hargs⟩ := hF.elem_spec hok he
    rcases ho with ho | ⟨ho, hd⟩
    · exact hh i j q hok _ ho
    · cases b with
      | nullary => simp [Backtrace.depth] at hd
      | unary rid q₁ v k₁ =>
        obtain ⟨_, hu, _⟩ := (hG.unary hok).1 hb
        obtain ⟨h1, h2, p, hp⟩ := hargs (i, j, q₁, k₁) (by simp [Backtrace.args])
        simp only at h1 h2 hp
        simp only [btW, elemWt, hp, Option.map_some, Option.some.injEq] at ho
        subst ho
        obtain ⟨g1, g2⟩ := ih _ (by omega) (b := p.1) (w := p.2) h1 rfl hp
        exact ⟨mul_ne_zero (hnz.1 _ _ _ _ hu) g1, mul_le_one' (hle.2.1 _ _ _ _ hu) g2⟩
      | binary rid q₁ m q₂ v k₁ k₂ =>
        obtain ⟨_, _, _, _, hu, _⟩ := (hG.binary hok).1 hb
        obtain ⟨h1, h2, p, hp⟩ := hargs (i, m, q₁, k₁) (by simp [Backtrace.args])
        obtain ⟨h1', h2', p', hp'⟩ := hargs (m, j, q₂, k₂) (by simp [Backtrace.args])
        simp only at h1 h2 hp h1' h2' hp'
        simp only [btW, elemWt, hp, hp', Option.map_some, Option.bind_some, Option.some.injEq] at ho
        subst ho
        obtain ⟨g1, g2⟩ := ih _ (by omega) (b := p.1) (w := p.2) h1 rfl hp
        obtain ⟨g1', g2'⟩ := ih _ (by omega) (b := p'.1) (w := p'.2) h1' rfl hp'
        exact ⟨mul_ne_zero (mul_ne_zero (hnz.2 _ _ _ _ _ hu) g1) g1', mul_le_one' (mul_le_one' (hle.2.2 _ _ _ _ _ hu) g2) g2'⟩

theorem exists_depth {P : Backtrace W → Nat → Prop} (hmono : ∀ b D D', P b D → D ≤ D' → P b D') (bs : List (Backtrace W)) (h : ∀ b ∈ bs, ∃ D, P b D) :
    ∃ D, ∀ b ∈ bs, P b D := by
  induction bs with
  | nil => exact ⟨0, by simp⟩
  | cons b bs ih =>
    obtain ⟨D, hD⟩ := h b (by simp)
    obtain ⟨D', hD'⟩ := ih fun b' hb' => h b' (by simp [hb'])
    refine ⟨max D D', fun b' hb' => ?_⟩
    rcases List.mem_cons.1 hb' with rfl | hb'
    · exact hmono _ _ _ hD (Nat.le_max_left _ _)
    · exact hmono _ _ _ (hD' b' hb') (Nat.le_max_right _ _)

/-- The weights of the elements fall below each weight that is not zero. -/
theorem elem_falls [NoZeroDivisors W] (hF : StreamForest F h0 M) (hG : ForestOf G F) (hle : RulesLeOne G)
    (hnz : (∀ rid q q₁ w, G.unary rid q q₁ w → w ≠ 0) ∧ ∀ rid q q₁ q₂ w, G.binary rid q q₁ q₂ w → w ≠ 0)
    (hh : ∀ i j q, F.ok i j q → ∀ y ∈ h0 i j q, y.1 ≠ 0 ∧ y.1 ≤ 1) {x : W} {L : Nat} (hL : ∀ q q' l v, ChainSteps G q q' l v → L ≤ l → v < x) (s : Nat) :
    ∀ {i j q v₀}, j - i = s → F.ok i j q → v₀ ≤ 1 → ∃ K, ∀ k ≥ K, ∀ b w, elem F h0 M i j q k = some (b, w) → v₀ * w < x := by
  induction s using Nat.strong_induction_on with
  | _ s ihs =>
    intro i j q v₀ hs hok hv₀
    have key : ∀ c l q₀ q u, L ≤ c + l → ChainSteps G q₀ q l u → F.ok i j q → ∃ K, ∀ k ≥ K, ∀ b w, elem F h0 M i j q k = some (b, w) → v₀ * u * w < x := by
      intro c
      induction c with
      | zero =>
        intro l q₀ q u hl hc hok
        refine ⟨0, fun k _ b w he => ?_⟩
        have hw := (elem_weight hF hG hle hnz hh _ hok rfl he).2
        exact lt_of_le_of_lt ((mul_le_of_le_one_right' hw).trans (mul_le_of_le_one_left' hv₀)) (hL _ _ _ _ hc (by omega))
      | succ c ihc =>
        intro l q₀ q u hl hc hok
        have hu1 := hc.le_one hle.2.1
        obtain ⟨D, hD⟩ := exists_depth (P := fun b D => ∀ b' : Backtrace W, b'.base = b → D ≤ b'.depth → 0 < b'.depth →
            ∀ w, btW (elemWt F h0 M) i j b' = some w → v₀ * u * w < x) (fun b D D' h hDD b' h1 h2 => h b' h1 (by omega)) (F.I i j q) (by
          intro b hb
          cases b with
          | nullary rid v =>
            refine ⟨1, fun b' hb' hd => ?_⟩
            cases b' with
            | nullary => simp [Backtrace.depth] at hd
            | unary => cases hb'
            | binary => cases hb'
          | unary rid q₁ v k =>
            obtain ⟨_, hun, _⟩ := (hG.unary hok).1 hb
            have hk := (hF.kids hok hb (i, j, q₁) (by simp [Backtrace.kids])).1
            obtain ⟨K, hK⟩ := ihc (l + (0 + 1)) q₀ q₁ _ (by omega) (hc.append (.cons hun .nil)) hk
            refine ⟨K, fun b' hb' hd _ w hw => ?_⟩
            cases b' with
            | nullary => cases hb'
            | binary => cases hb'
            | unary rid' q' v' k' =>
              simp only [Backtrace.base, Backtrace.unary.injEq] at hb'
              obtain ⟨_, rfl, rfl, _⟩ := hb'
              simp only [btW, elemWt, Option.map_eq_some_iff] at hw
              obtain ⟨_, ⟨p, hp, rfl⟩, rfl⟩ := hw
              have := hK k' hd p.1 p.2 hp
              rw [mul_one] at this
              rw [← mul_assoc, mul_assoc v₀ u]
              exact this
          | binary rid q₁ m q₂ v k₁ k₂ =>
            obtain ⟨_, _, hm₁, hm₂, hun, _⟩ := (hG.binary hok).1 hb
            have hk₁ := (hF.kids hok hb (i, m, q₁) (by simp [Backtrace.kids])).1
            have hk₂ := (hF.kids hok hb (m, j, q₂) (by simp [Backtrace.kids])).1
            have hv1 : v₀ * u * v ≤ 1 := mul_le_one' (mul_le_one' hv₀ hu1) (hle.2.2 _ _ _ _ _ hun)
            obtain ⟨K₁, hK₁⟩ := ihs (m - i) (by omega) (i := i) (j := m) rfl hk₁ hv1
            obtain ⟨K₂, hK₂⟩ := ihs (j - m) (by omega) (i := m) (j := j) rfl hk₂ hv1
            refine ⟨K₁ + K₂, fun b' hb' hd _ w hw => ?_⟩
            cases b' with
            | nullary => cases hb'
            | unary => cases hb'
            | binary rid' q₁' m' q₂' v' k₁' k₂' =>
              simp only [Backtrace.base, Backtrace.binary.injEq] at hb'
              obtain ⟨_, rfl, rfl, rfl, rfl, _⟩ := hb'
              simp only [Backtrace.depth] at hd
              simp only [btW, elemWt, Option.map_eq_some_iff, Option.bind_eq_some_iff] at hw
              obtain ⟨_, ⟨p₁, hp₁, rfl⟩, _, ⟨p₂, hp₂, rfl⟩, rfl⟩ := hw
              have w1 := (elem_weight hF hG hle hnz hh _ hk₁ rfl (b := p₁.1) (w := p₁.2) hp₁).2
              have w2 := (elem_weight hF hG hle hnz hh _ hk₂ rfl (b := p₂.1) (w := p₂.2) hp₂).2
              by_cases h1 : K₁ ≤ k₁'
              · have := hK₁ k₁' h1 p₁.1 p₁.2 hp₁
                rw [← mul_assoc, ← mul_assoc]
                exact lt_of_le_of_lt (mul_le_of_le_one_right' w2) this
              · have := hK₂ k₂' (by omega) p₂.1 p₂.2 hp₂
                rw [← mul_assoc, ← mul_assoc, mul_right_comm]
                exact lt_of_le_of_lt (mul_le_of_le_one_right' w1) this)
        obtain ⟨K, hK⟩ := pelem_depth (btW (elemWt F h0 M) i j) (h0 i j q) (max D 1)
        refine ⟨K, fun k hk b w he => ?_⟩
        obtain ⟨hb, ho, _⟩ := hF.elem_spec hok he
        have hd := hK k hk b w (by rw [← hF.elem_eq hok]; exact he)
        rcases ho with ho | ⟨ho, _⟩
        · have := hF.h0_depth _ ho
          simp only at this
          omega
        · exact hD _ hb b rfl (by omega) (by omega) w ho
    obtain ⟨K, hK⟩ := key L 0 q q 1 (by omega) .nil hok
    refine ⟨K, fun k hk b w he => ?_⟩
    have := hK k hk b w he
    rw [mul_one] at this
    exact this

theorem StreamForest.elem_le (hF : StreamForest F h0 M) {i j q k k' : Nat} (hok : F.ok i j q) (hk : k ≤ k') {w : W} (h : elemWt F h0 M i j q k' = some w) :
    ∃ w', elemWt F h0 M i j q k = some w' := by
  rw [elemWt, Option.map_eq_some_iff] at h
  obtain ⟨p, hp, _⟩ := h
  rw [hF.elem_eq hok] at hp
  cases he : elem F h0 M i j q k with
  | none =>
    rw [hF.elem_eq hok] at he
    rw [pelem_none_le hk he] at hp
    cases hp
  | some p' => exact ⟨p'.2, by rw [elemWt, he]; rfl⟩

/-- Each backtrace that has a weight is an element of the stream. -/
theorem elem_complete [NoZeroDivisors W] (hF : StreamForest F h0 M) (hG : ForestOf G F) (hle : RulesLeOne G)
    (hnz : (∀ rid q q₁ w, G.unary rid q q₁ w → w ≠ 0) ∧ ∀ rid q q₁ q₂ w, G.binary rid q q₁ q₂ w → w ≠ 0)
    (hh : ∀ i j q, F.ok i j q → ∀ y ∈ h0 i j q, y.1 ≠ 0 ∧ y.1 ≤ 1) (hvan : ∀ x : W, x ≠ 0 → ∃ L, ∀ q q' l v, ChainSteps G q q' l v → L ≤ l → v < x)
    {i j q : Nat} (hok : F.ok i j q) (d : Nat) : ∀ {b : Backtrace W} {w : W}, b.depth = d → b.base ∈ F.I i j q → btW (elemWt F h0 M) i j b = some w →
      ∃ k v, elem F h0 M i j q k = some (b, v) := by
  have hfall : ∀ x : W, x ≠ 0 → ∃ K, ∀ k ≥ K, ∀ b w, pelem (btW (elemWt F h0 M) i j) (h0 i j q) k = some (b, w) → w < x := by
    intro x hx
    obtain ⟨L, hL⟩ := hvan x hx
    obtain ⟨K, hK⟩ := elem_falls hF hG hle hnz hh hL _ rfl hok (le_refl 1)
    refine ⟨K, fun k hk b w he => ?_⟩
    rw [← hF.elem_eq hok] at he
    have := hK k hk b w he
    rw [one_mul] at this
    exact this
  have hval : ∀ b : Backtrace W, ∀ w, b.base ∈ F.I i j q → 0 < b.depth → btW (elemWt F h0 M) i j b = some w → w ≠ 0 := by
    intro b w hb hd hw
    have hkid := hF.kids hok hb
    rw [Backtrace.kids_base] at hkid
    cases b with
    | nullary => simp [Backtrace.depth] at hd
    | unary rid q₁ v k₁ =>
      obtain ⟨_, hu, _⟩ := (hG.unary hok).1 hb
      simp only [btW, elemWt, Option.map_eq_some_iff] at hw
      obtain ⟨_, ⟨p, hp, rfl⟩, rfl⟩ := hw
      exact mul_ne_zero (hnz.1 _ _ _ _ hu) (elem_weight hF hG hle hnz hh _ (hkid (i, j, q₁) (by simp [Backtrace.kids])).1 rfl (b := p.1) (w := p.2) hp).1
    | binary rid q₁ m q₂ v k₁ k₂ =>
      obtain ⟨_, _, _, _, hu, _⟩ := (hG.binary hok).1 hb
      simp only [btW, elemWt, Option.map_eq_some_iff, Option.bind_eq_some_iff] at hw
      obtain ⟨_, ⟨p₁, hp₁, rfl⟩, _, ⟨p₂, hp₂, rfl⟩, rfl⟩ := hw
      exact mul_ne_zero (mul_ne_zero (hnz.2 _ _ _ _ _ hu)
        (elem_weight hF hG hle hnz hh _ (hkid (i, m, q₁) (by simp [Backtrace.kids])).1 rfl (b := p₁.1) (w := p₁.2) hp₁).1)
        (elem_weight hF hG hle hnz hh _ (hkid (m, j, q₂) (by simp [Backtrace.kids])).1 rfl (b := p₂.1) (w := p₂.2) hp₂).1
  induction d with
  | zero =>
    intro b w hd hb _
    have : b.base = b := by
      cases b with
      | nullary => rfl
      | unary => simp only [Backtrace.depth] at hd; subst hd; rfl
      | binary => simp only [Backtrace.depth, Nat.add_eq_zero_iff] at hd; obtain ⟨rfl, rfl⟩ := hd; rfl
    rw [this] at hb
    obtain ⟨v, hv⟩ := hF.h0_mem hb
    obtain ⟨K, hK⟩ := hfall v (hh i j q hok _ hv).1
    obtain ⟨k, hk⟩ := pelem_of_mem (y := (v, b)) (n := 0) (s := (none, h0 i j q)) (h := h0 i j q) rfl
      (by simpa [succsOf, weighted, pushAll] using hv) hK
    exact ⟨k, v, by rw [hF.elem_eq hok]; exact hk⟩
  | succ d ih =>
    intro b w hd hb hw
    have hkid := hF.kids hok hb
    rw [Backtrace.kids_base] at hkid
    have key : ∀ b' : Backtrace W, b'.base = b.base → b ∈ b'.succs → (∃ w', btW (elemWt F h0 M) i j b' = some w') → ∃ k v, elem F h0 M i j q k = some (b, v) := by
      rintro b' hb' hs ⟨w', hw'⟩
      have := Backtrace.depth_succs hs
      obtain ⟨k, v, hk⟩ := ih (b := b') (by omega) (hb' ▸ hb) hw'
      rw [hF.elem_eq hok] at hk
      obtain ⟨s, r, e1, e2, e3⟩ := pelem_some.1 hk
      obtain ⟨y, hy, hkey⟩ := pushAll_new (h := r) _ (mem_weighted.2 ⟨hs, hw⟩)
      have hybase : y.2.base ∈ F.I i j q ∧ y.1 ≠ 0 := by
        rcases pushAll_mem _ hy with hy | hy
        · refine ⟨((hF.near k e3).2 y hy).1, ?_⟩
          rcases pstate_origin _ e3 y hy with ho | ⟨ho, hd'⟩
          · exact (hh i j q hok _ ho).1
          · exact hval _ _ ((hF.near k e3).2 y hy).1 hd' ho
        · obtain ⟨g1, g2⟩ := mem_weighted.1 hy
          have hyb : y.2.base ∈ F.I i j q := by rw [Backtrace.base_succs g1, hb']; exact hb
          exact ⟨hyb, hval _ _ hyb (by rw [Backtrace.depth_succs g1]; omega) g2⟩
      have hyeq : y.2 = b := Backtrace.eq_of_base_key (hF.inj hok hybase.1 hb (Backtrace.base_key hkey)) hkey
      obtain ⟨K, hK⟩ := hfall y.1 hybase.2
      obtain ⟨k', hk'⟩ := pelem_of_mem (y := y) e3 hy hK
      rw [hyeq] at hk'
      exact ⟨k', y.1, by rw [hF.elem_eq hok]; exact hk'⟩
    cases b with
    | nullary => simp [Backtrace.depth] at hd
    | unary r q₁ v k =>
      simp only [Backtrace.depth] at hd
      subst hd
      refine key (.unary r q₁ v d) rfl (by simp [Backtrace.succs]) ?_
      simp only [btW, Option.map_eq_some_iff] at hw ⊢
      obtain ⟨a, ha, _⟩ := hw
      obtain ⟨a', ha'⟩ := hF.elem_le (hkid (i, j, q₁) (by simp [Backtrace.kids])).1 (Nat.le_succ d) ha
      exact ⟨_, a', ha', rfl⟩
    | binary r q₁ m q₂ v k₁ k₂ =>
      simp only [btW, Option.map_eq_some_iff, Option.bind_eq_some_iff] at hw
      obtain ⟨a, ha, c, hc, _⟩ := hw
      cases k₂ with
      | succ k₂ =>
        refine key (.binary r q₁ m q₂ v k₁ k₂) rfl (by simp [Backtrace.succs]) ?_
        obtain ⟨c', hc'⟩ := hF.elem_le (hkid (m, j, q₂) (by simp [Backtrace.kids])).1 (Nat.le_succ k₂) hc
        exact ⟨_, by simp only [btW, ha, hc', Option.bind_some, Option.map_some]; rfl⟩
      | zero =>
        cases k₁ with
        | zero => simp [Backtrace.depth] at hd
        | succ k₁ =>
          refine key (.binary r q₁ m q₂ v k₁ 0) rfl (by simp [Backtrace.succs]) ?_
          obtain ⟨a', ha'⟩ := hF.elem_le (hkid (i, m, q₁) (by simp [Backtrace.kids])).1 (Nat.le_succ k₁) ha
          exact ⟨_, by simp only [btW, ha', hc, Option.bind_some, Option.map_some]; rfl⟩

/-- Each derivation in the chart is the derivation of an element. -/
theorem denotesS_complete [NoZeroDivisors W] (hF : StreamForest F h0 M) (hG : ForestOf G F) (hle : RulesLeOne G)
    (hnz : (∀ rid q q₁ w, G.unary rid q q₁ w → w ≠ 0) ∧ ∀ rid q q₁ q₂ w, G.binary rid q q₁ q₂ w → w ≠ 0)
    (hh : ∀ i j q, F.ok i j q → ∀ y ∈ h0 i j q, y.1 ≠ 0 ∧ y.1 ≤ 1) (hvan : ∀ x : W, x ≠ 0 → ∃ L, ∀ q q' l v, ChainSteps G q q' l v → L ≤ l → v < x)
    {i j q : Nat} {t : BinTree} {w : W} (h : ChartDerives G (fun i j q => ∃ w, F.cw i j q = some w) i j q t w) (hok : F.ok i j q) :
    ∃ k p, elem F h0 M i j q k = some p ∧ DenotesS (elem F h0 M) i j p.1 t := by
  induction h with
  | nullary ha =>
    rename_i i q rid a w
    obtain ⟨k, v, hk⟩ := elem_complete hF hG hle hnz hh hvan hok _ (b := .nullary rid w) (w := w) rfl ((hG.nullary hok).2 ⟨rfl, _, ha⟩) rfl
    exact ⟨k, _, hk, .nullary⟩
  | unary hu hc _ ih =>
    rename_i i j q q₁ rid t w w₁ _
    have hb : (.unary rid q₁ w 0 : Backtrace W) ∈ F.I i j q := (hG.unary hok).2 ⟨rfl, hu, hc⟩
    obtain ⟨k, p, hk, ht⟩ := ih (hF.kids hok hb (i, j, q₁) (by simp [Backtrace.kids])).1
    obtain ⟨k', v', hk'⟩ := elem_complete hF hG hle hnz hh hvan hok _ (b := .unary rid q₁ w k) (w := w * p.2) rfl hb (by simp [btW, elemWt, hk])
    exact ⟨k', _, hk', .unary hk ht⟩
  | binary h3 h4 hu hc₁ hc₂ _ _ ih₁ ih₂ =>
    rename_i i m j q q₁ q₂ rid t₁ t₂ w w₁ w₂ _ _
    have hb : (.binary rid q₁ m q₂ w 0 0 : Backtrace W) ∈ F.I i j q := (hG.binary hok).2 ⟨rfl, rfl, h3, h4, hu, hc₁, hc₂⟩
    obtain ⟨k₁, p₁, hk₁, ht₁⟩ := ih₁ (hF.kids hok hb (i, m, q₁) (by simp [Backtrace.kids])).1
    obtain ⟨k₂, p₂, hk₂, ht₂⟩ := ih₂ (hF.kids hok hb (m, j, q₂) (by simp [Backtrace.kids])).1
    obtain ⟨k', v', hk'⟩ := elem_complete hF hG hle hnz hh hvan hok _ (b := .binary rid q₁ m q₂ w k₁ k₂) (w := w * p₁.2 * p₂.2) rfl hb (by simp [btW, elemWt, hk₁, hk₂])
    exact ⟨k', _, hk', .binary hk₁ hk₂ ht₁ ht₂⟩

end

end Rustomata
