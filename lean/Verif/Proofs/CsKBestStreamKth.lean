import Verif.Proofs.CsKBestStream

/-!
# `kth` gives the elements of the streams
-/

namespace Rustomata
open Spec KForest

section
variable {W : Type _} [RoundedWeight W]

/-- The cell of an item: the first elements, and the candidates after that many steps. -/
def CellS (F : KForest W) (h0 : Nat → Nat → Nat → List (W × Backtrace W)) (M i j q : Nat) (cell : List (Backtrace W × W) × List (W × Backtrace W)) : Prop :=
  (cell.1 = [] ∧ elem F h0 M i j q 0 = none) ∨ ∃ m b, pstate (btW (elemWt F h0 M) i j) (h0 i j q) (m + 1) = some (some b, cell.2) ∧ cell.1.length = m + 1 ∧
    ∀ k ≤ m, cell.1[k]? = elem F h0 M i j q k

/-- All cells are correct. -/
def CacheS (F : KForest W) (h0 : Nat → Nat → Nat → List (W × Backtrace W)) (M : Nat) (d : KCache W) : Prop :=
  ∀ i j q cell, d.get (i, j, q) = some cell → F.ok i j q ∧ CellS F h0 M i j q cell

/-- The cells that change become longer, but they contain only elements whose measure is less than `r`. -/
def GrowsS (F : KForest W) (M : Nat) (d d' : KCache W) (r : Nat) : Prop :=
  ∀ i j q, d'.get (i, j, q) = d.get (i, j, q) ∨ ∃ cell k, d'.get (i, j, q) = some cell ∧ cell.1.length ≤ k + 1 ∧ smeasure F M i j q k < r ∧
    ∀ c, d.get (i, j, q) = some c → c.1.length < cell.1.length

/-- `K` returns the elements whose measure is less than `r`. -/
def KSpecS (F : KForest W) (h0 : Nat → Nat → Nat → List (W × Backtrace W)) (M : Nat) (K : KthFn W) (r : Nat) : Prop :=
  ∀ i j q k d, F.ok i j q → smeasure F M i j q k < r → CacheS F h0 M d →
    ∃ d', K i j q k d = some (elem F h0 M i j q k, d') ∧ CacheS F h0 M d' ∧ GrowsS F M d d' (smeasure F M i j q k + 1)

variable {F : KForest W} {h0 : Nat → Nat → Nat → List (W × Backtrace W)} {M : Nat}

omit [RoundedWeight W] in
theorem GrowsS.refl (d : KCache W) (r : Nat) : GrowsS F M d d r := fun _ _ _ => .inl rfl

omit [RoundedWeight W] in
theorem GrowsS.mono {d d' : KCache W} {r r' : Nat} (h : GrowsS F M d d' r) (hr : r ≤ r') : GrowsS F M d d' r' := by
  intro i j q
  rcases h i j q with h | ⟨cell, k, h1, h2, h3, h4⟩
  · exact .inl h
  · exact .inr ⟨cell, k, h1, h2, by omega, h4⟩

omit [RoundedWeight W] in
theorem GrowsS.trans {d d' d'' : KCache W} {r : Nat} (h : GrowsS F M d d' r) (h' : GrowsS F M d' d'' r) : GrowsS F M d d'' r := by
  intro i j q
  rcases h' i j q with h1 | ⟨cell, k, h1, h2, h3, h4⟩
  · rw [h1]
    exact h i j q
  · refine .inr ⟨cell, k, h1, h2, h3, fun c hc => ?_⟩
    rcases h i j q with h5 | ⟨cell', k', h5, h6, h7, h8⟩
    · exact h4 c (h5.trans hc)
    · exact (h8 c hc).trans (h4 _ h5)

omit [RoundedWeight W] in
theorem GrowsS.set {d : KCache W} {i j q k r : Nat} {cell : List (Backtrace W × W) × List (W × Backtrace W)} (hk : cell.1.length ≤ k + 1) (hr : smeasure F M i j q k < r)
    (hc : ∀ c, d.get (i, j, q) = some c → c.1.length < cell.1.length) : GrowsS F M d (d.set (i, j, q) cell) r := by
  intro i' j' q'
  rw [AMap.get_set]
  split
  · rename_i he
    cases he
    exact .inr ⟨cell, k, rfl, hk, hr, hc⟩
  · exact .inl rfl

/-- Cells that are long enough do not change. -/
theorem GrowsS.keeps {d d' : KCache W} {i j q k r : Nat} (h : GrowsS F M d d' r) (hr : r ≤ smeasure F M i j q k) {c : List (Backtrace W × W) × List (W × Backtrace W)}
    (hc : d.get (i, j, q) = some c) (hk : k ≤ c.1.length) : d'.get (i, j, q) = some c := by
  rcases h i j q with h1 | ⟨cell, k', h1, h2, h3, h4⟩
  · rw [h1, hc]
  · have := lt_of_smeasure (lt_of_lt_of_le h3 hr)
    have := h4 c hc
    omega

theorem CacheS.set {d : KCache W} (hd : CacheS F h0 M d) {i j q : Nat} (hok : F.ok i j q) {cell : List (Backtrace W × W) × List (W × Backtrace W)}
    (h : CellS F h0 M i j q cell) : CacheS F h0 M (d.set (i, j, q) cell) := by
  intro i' j' q' cell' hg
  rw [AMap.get_set] at hg
  split at hg
  · rename_i he
    cases he
    cases hg
    exact ⟨hok, h⟩
  · exact hd _ _ _ _ hg

theorem btWeight_s {K : KthFn W} {i j r : Nat} (hK : KSpecS F h0 M K r) {b : Backtrace W}
    (ha : ∀ a ∈ b.args i j, F.ok a.1 a.2.1 a.2.2.1 ∧ smeasure F M a.1 a.2.1 a.2.2.1 a.2.2.2 < r) {d : KCache W} (hd : CacheS F h0 M d) :
    ∃ d', btWeight K i j b d = some (btW (elemWt F h0 M) i j b, d') ∧ CacheS F h0 M d' ∧ GrowsS F M d d' r := by
  cases b with
  | nullary => exact ⟨d, rfl, hd, .refl _ _⟩
  | unary rid q₁ w k =>
    have h1 := ha (i, j, q₁, k) (by simp [Backtrace.args])
    obtain ⟨d', h2, h3, h4⟩ := hK i j q₁ k d h1.1 h1.2 hd
    refine ⟨d', ?_, h3, h4.mono h1.2⟩
    simp only [btWeight, h2, btW, elemWt]
    cases elem F h0 M i j q₁ k <;> rfl
  | binary rid q₁ m q₂ w k₁ k₂ =>
    have h1 := ha (i, m, q₁, k₁) (by simp [Backtrace.args])
    have h1' := ha (m, j, q₂, k₂) (by simp [Backtrace.args])
    obtain ⟨d', h2, h3, h4⟩ := hK i m q₁ k₁ d h1.1 h1.2 hd
    obtain ⟨d₂, h2', h3', h4'⟩ := hK m j q₂ k₂ d' h1'.1 h1'.2 h3
    simp only [btWeight, h2, btW, elemWt]
    cases elem F h0 M i m q₁ k₁ with
    | none => exact ⟨d', rfl, h3, h4.mono h1.2⟩
    | some p =>
      refine ⟨d₂, ?_, h3', (h4.mono h1.2).trans (h4'.mono h1'.2)⟩
      simp only [h2']
      cases elem F h0 M m j q₂ k₂ <;> rfl

theorem btWorse_s {K : KthFn W} {i j r : Nat} (hK : KSpecS F h0 M K r) (bs : List (Backtrace W)) :
    ∀ {d : KCache W}, (∀ b ∈ bs, ∀ a ∈ b.args i j, F.ok a.1 a.2.1 a.2.2.1 ∧ smeasure F M a.1 a.2.1 a.2.2.1 a.2.2.2 < r) → CacheS F h0 M d →
    ∃ d', btWorse K i j bs d = some (weighted (btW (elemWt F h0 M) i j) bs, d') ∧ CacheS F h0 M d' ∧ GrowsS F M d d' r := by
  induction bs with
  | nil => exact fun _ hd => ⟨_, rfl, hd, .refl _ _⟩
  | cons b bs ih =>
    intro d hb hd
    obtain ⟨d₁, h1, h2, h3⟩ := btWeight_s hK (hb b (by simp)) hd
    obtain ⟨d₂, h4, h5, h6⟩ := ih (fun b' h => hb b' (by simp [h])) h2
    refine ⟨d₂, ?_, h5, h3.trans h6⟩
    simp only [btWorse, h1, h4, weighted, List.filterMap_cons]
    cases btW (elemWt F h0 M) i j b <;> rfl

theorem kthLoop_s (hF : StreamForest F h0 M) {K : KthFn W} {i j q k : Nat} (hK : KSpecS F h0 M K (smeasure F M i j q k)) (hok : F.ok i j q) (fuel : Nat) :
    ∀ {m : Nat} {last : Backtrace W} {lw : W} {d : KCache W} {derivs : List (Backtrace W × W)} {h : List (W × Backtrace W)}, k + 1 ≤ fuel + (m + 1) → CacheS F h0 M d →
      elem F h0 M i j q m = some (last, lw) → d.get (i, j, q) = some (derivs, h) → derivs.length = m + 1 → (∀ k' ≤ m, derivs[k']? = elem F h0 M i j q k') →
      pstate (btW (elemWt F h0 M) i j) (h0 i j q) (m + 1) = some (some last, h) →
      ∃ m' last' lw' d' derivs' h', kthLoop K i j q k fuel (m + 1) last lw d = some (m' + 1, last', lw', d') ∧ CacheS F h0 M d' ∧
        elem F h0 M i j q m' = some (last', lw') ∧
        d'.get (i, j, q) = some (derivs', h') ∧ (∀ k' ≤ m', derivs'[k']? = elem F h0 M i j q k') ∧ (k + 1 ≤ m' + 1 ∨ elem F h0 M i j q (m' + 1) = none) ∧
        GrowsS F M d d' (smeasure F M i j q k + 1) := by
  induction fuel with
  | zero =>
    intro m last lw d derivs h hfuel hd hlast hget hlen hel hst
    refine ⟨m, last, lw, d, derivs, h, ?_, hd, hlast, hget, hel, .inl (by omega), .refl _ _⟩
    rw [kthLoop, if_neg (by omega)]
  | succ fuel ih =>
    intro m last lw d derivs h hfuel hd hlast hget hlen hel hst
    by_cases hk : m + 1 < k + 1
    · have hle : smeasure F M i j q (m + 1) ≤ smeasure F M i j q k := smeasure_le _ _ _ (by omega)
      obtain ⟨⟨b₀, hb₀, hnear⟩, _⟩ := hF.near m hst
      simp only [Option.some.injEq] at hb₀
      subst hb₀
      have hK' : KSpecS F h0 M K (smeasure F M i j q (m + 1)) := fun i' j' q' k' d hok' hlt hd => hK i' j' q' k' d hok' (by omega) hd
      obtain ⟨d₁, h1, h2, h3⟩ := btWorse_s hK' last.succs (fun b hb a ha => (hnear.succ hb).args hF hok ha) hd
      have hg1 : d₁.get (i, j, q) = some (derivs, h) := h3.keeps (le_refl _) hget (by simp only; omega)
      cases hp : btPop (pushAll h (weighted (btW (elemWt F h0 M) i j) last.succs)) with
      | none =>
        have hnil := btPop_none.1 hp
        have hh : h = [] := by
          cases h with
          | nil => rfl
          | cons x h =>
            have := pushAll_sub (weighted (btW (elemWt F h0 M) i j) last.succs) (List.mem_cons_self (a := x) (l := h))
            rw [hnil] at this
            cases this
        subst hh
        have hnone : elem F h0 M i j q (m + 1) = none := by
          rw [hF.elem_eq hok, pelem, hst, Option.bind_some, pstep]
          simp only [succsOf, hp, Option.map_none]
        refine ⟨m, last, lw, d₁.set (i, j, q) (derivs, []), derivs, [], ?_, h2.set hok (h2 _ _ _ _ hg1).2, hlast, AMap.get_set_self _ _ _, hel, .inr hnone, ?_⟩
        · rw [kthLoop, if_pos hk]
          simp only [pushAll] at hp
          simp only [h1, hg1, hp]
        · refine (h3.mono (by omega)).trans fun i' j' q' => ?_
          rw [AMap.get_set]
          split
          · rename_i he
            cases he
            exact .inl hg1.symm
          · exact .inl rfl
      | some x =>
        obtain ⟨⟨w, b⟩, rest⟩ := x
        have hstep : pstep (btW (elemWt F h0 M) i j) (some last, h) = some ((b, w), rest) := pstep_some.2 hp
        have hst' : pstate (btW (elemWt F h0 M) i j) (h0 i j q) (m + 1 + 1) = some (some b, rest) := pstate_succ.2 ⟨_, b, w, hst, hstep, rfl⟩
        have hb : elem F h0 M i j q (m + 1) = some (b, w) := by
          rw [hF.elem_eq hok]
          exact pelem_some.2 ⟨_, _, hst, hstep, hst'⟩
        have hlen' : (derivs ++ [(b, w)]).length = m + 1 + 1 := by simp [hlen]
        have hel' : ∀ k' ≤ m + 1, (derivs ++ [(b, w)])[k']? = elem F h0 M i j q k' := by
          intro k' hk'
          by_cases he : k' = m + 1
          · subst he
            rw [List.getElem?_append_right (by omega), hlen, Nat.sub_self, hb]
            rfl
          · rw [List.getElem?_append_left (by omega)]
            exact hel k' (by omega)
        obtain ⟨m', last', lw', d', derivs', h', g1, g2, g3, g4, g5, g6, g7⟩ := ih (m := m + 1) (last := b) (lw := w)
          (d := d₁.set (i, j, q) (derivs ++ [(b, w)], rest)) (h := rest) (by omega) (h2.set hok (.inr ⟨m + 1, b, hst', hlen', hel'⟩)) hb
          (AMap.get_set_self _ _ _) hlen' hel' hst'
        refine ⟨m', last', lw', d', derivs', h', ?_, g2, g3, g4, g5, g6, ?_⟩
        · rw [kthLoop, if_pos hk]
          simp only [pushAll] at hp
          simp only [h1, hg1, hp]
          exact g1
        · refine (h3.mono (by omega)).trans (.trans (.set (k := k) (by simp only; omega) (by omega) fun c hc => ?_) g7)
          rw [hg1, Option.some.injEq] at hc
          subst hc
          simp
    · refine ⟨m, last, lw, d, derivs, h, ?_, hd, hlast, hget, hel, .inl (by omega), .refl _ _⟩
      rw [kthLoop, if_neg hk]

theorem kthFinish_s (hF : StreamForest F h0 M) {K : KthFn W} {i j q k m : Nat} (hK : KSpecS F h0 M K (smeasure F M i j q k)) (hok : F.ok i j q)
    {last : Backtrace W} {lw : W} {d : KCache W} {derivs : List (Backtrace W × W)} {h : List (W × Backtrace W)} (hd : CacheS F h0 M d)
    (hlast : elem F h0 M i j q m = some (last, lw)) (hget : d.get (i, j, q) = some (derivs, h)) (hlen : derivs.length = m + 1)
    (hel : ∀ k' ≤ m, derivs[k']? = elem F h0 M i j q k') (hst : pstate (btW (elemWt F h0 M) i j) (h0 i j q) (m + 1) = some (some last, h)) :
    ∃ d', kthFinish K i j q k (m + 1) last lw d = some (elem F h0 M i j q k, d') ∧ CacheS F h0 M d' ∧ GrowsS F M d d' (smeasure F M i j q k + 1) := by
  obtain ⟨m', last', lw', d', derivs', h', g1, g2, g3, g4, g5, g6, g7⟩ := kthLoop_s hF (k := k) hK hok (k + 1) (m := m) (by omega) hd hlast hget hlen hel hst
  refine ⟨d', ?_, g2, g7⟩
  unfold kthFinish
  simp only [g1]
  rcases Nat.lt_trichotomy (m' + 1) (k + 1) with hlt | heq | hgt
  · rw [Nat.compare_eq_lt.2 hlt]
    simp only
    rcases g6 with g6 | g6
    · omega
    · rw [hF.elem_eq hok] at g6 ⊢
      rw [pelem_none_le (by omega) g6]
  · rw [Nat.compare_eq_eq.2 heq]
    simp only
    rw [← Nat.succ.inj heq, g3]
  · rw [Nat.compare_eq_gt.2 hgt]
    simp only [g4, g5 k (by omega)]
    have : ∃ p, elem F h0 M i j q k = some p := by
      rw [hF.elem_eq hok] at g3 ⊢
      obtain ⟨_, _, _, _, h3⟩ := pelem_some.1 g3
      exact pelem_of_state (by omega) h3
    obtain ⟨p, hp⟩ := this
    rw [hp]

theorem kth_s {T : Type _} [DecidableEq T] {A : CsAutomaton T W} {chart : DenseChart W} {filter : List Bool} (hF : StreamForest F h0 M) (hB : BtAt A chart filter F h0)
    (fuel : Nat) : KSpecS F h0 M (kth A chart filter fuel) fuel := by
  induction fuel with
  | zero => intro i j q k d _ h; omega
  | succ fuel ih =>
    intro i j q k d hok hr hd
    have ih' : KSpecS F h0 M (kth A chart filter fuel) (smeasure F M i j q k) := fun i' j' q' k' d hok' hlt hd => ih i' j' q' k' d hok' (by omega) hd
    unfold kth
    cases hg : d.get (i, j, q) with
    | none =>
      simp only [hB i j q hok]
      cases hp : btPop (h0 i j q) with
      | none =>
        have hnone : ∀ k, elem F h0 M i j q k = none := by
          intro k
          rw [hF.elem_eq hok]
          refine pelem_none_le (Nat.zero_le k) ?_
          simp only [pelem, pstate, Option.bind_some, pstep, succsOf, weighted, List.filterMap_nil, pushAll, List.foldl_nil, hp, Option.map_none]
        simp only [hnone k]
        exact ⟨d.set (i, j, q) ([], []), rfl, hd.set hok (.inl ⟨rfl, hnone 0⟩), .set (k := k) (by simp) (by omega) fun c hc => by rw [hg] at hc; cases hc⟩
      | some x =>
        obtain ⟨⟨w, b⟩, rest⟩ := x
        have hstep : pstep (btW (elemWt F h0 M) i j) (none, h0 i j q) = some ((b, w), rest) := by
          refine pstep_some.2 ?_
          simp only [succsOf, weighted, List.filterMap_nil, pushAll, List.foldl_nil, hp]
        have hst : pstate (btW (elemWt F h0 M) i j) (h0 i j q) (0 + 1) = some (some b, rest) := pstate_succ.2 ⟨_, b, w, rfl, hstep, rfl⟩
        have hb : elem F h0 M i j q 0 = some (b, w) := by
          rw [hF.elem_eq hok]
          exact pelem_some.2 ⟨_, _, rfl, hstep, hst⟩
        have hel : ∀ k' ≤ 0, [(b, w)][k']? = elem F h0 M i j q k' := by
          intro k' hk'
          rw [Nat.le_zero.1 hk', hb]
          rfl
        obtain ⟨d', g1, g2, g3⟩ := kthFinish_s hF (k := k) ih' hok (m := 0) (d := d.set (i, j, q) ([(b, w)], rest))
          (hd.set hok (.inr ⟨0, b, hst, rfl, hel⟩)) hb (AMap.get_set_self _ _ _) rfl hel hst
        exact ⟨d', g1, g2, .trans (.set (k := k) (by simp) (by omega) fun c hc => by rw [hg] at hc; cases hc) g3⟩
    | some cell =>
      obtain ⟨derivs, h⟩ := cell
      obtain ⟨_, hcell⟩ := hd _ _ _ _ hg
      rcases hcell with ⟨h1, h2⟩ | ⟨m, b, hst, hlen, hel⟩
      · simp only at h1
        subst h1
        refine ⟨d, ?_, hd, .refl _ _⟩
        rw [hF.elem_eq hok] at h2 ⊢
        rw [pelem_none_le (Nat.zero_le k) h2]
        rfl
      · simp only at hst hlen hel
        obtain ⟨s, b', w, e1, e2, e3⟩ := pstate_succ.1 hst
        simp only [Option.some.injEq] at e3
        subst e3
        have hb : elem F h0 M i j q m = some (b, w) := by
          rw [hF.elem_eq hok]
          exact pelem_some.2 ⟨_, _, e1, e2, hst⟩
        have hl : derivs.getLast? = some (b, w) := by
          rw [List.getLast?_eq_getElem?, hlen, Nat.add_sub_cancel, hel m (le_refl _), hb]
        simp only [hl, hlen]
        exact kthFinish_s hF ih' hok hd hb hg hlen hel hst

end

end Rustomata
