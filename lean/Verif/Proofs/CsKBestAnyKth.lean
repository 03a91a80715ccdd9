import Verif.Proofs.CsKBestAny

/-!
# `kth` enumerates the lists of the process
-/

namespace Rustomata
open Spec KForest

section
variable {W : Type _} [RoundedWeight W]

/-- The cell of an item: the first backtraces, and candidates from which the process gives the other ones. -/
def CellAt (F : KForest W) (h0 : Nat → Nat → Nat → List (W × Backtrace W)) (i j q : Nat) (cell : List (Backtrace W × W) × List (W × Backtrace W)) : Prop :=
  (cell.1 = [] ∧ emitL F h0 i j q = []) ∨ ∃ m b w, (emitL F h0 i j q)[m]? = some (b, w) ∧ cell.1 = (emitL F h0 i j q).take (m + 1) ∧
    Emits (btW (listWt (emitL F h0)) i j) (some b) cell.2 ((emitL F h0 i j q).drop (m + 1))

/-- All cells are correct. -/
def CacheAt (F : KForest W) (h0 : Nat → Nat → Nat → List (W × Backtrace W)) (d : KCache W) : Prop :=
  ∀ i j q cell, d.get (i, j, q) = some cell → F.ok i j q ∧ CellAt F h0 i j q cell

/-- `K` returns the elements of the lists for items of rank less than `r`. -/
def KSpecAt (F : KForest W) (h0 : Nat → Nat → Nat → List (W × Backtrace W)) (K : KthFn W) (r : Nat) : Prop :=
  ∀ i j q k d, F.ok i j q → F.rank i j q < r → CacheAt F h0 d → ∃ d', K i j q k d = some ((emitL F h0 i j q)[k]?, d') ∧ CacheAt F h0 d' ∧
    ∀ i' j' q', F.rank i j q < F.rank i' j' q' → d'.get (i', j', q') = d.get (i', j', q')

variable {F : KForest W} {h0 : Nat → Nat → Nat → List (W × Backtrace W)}

theorem btWeight_at (hF : HeapForest F h0) {K : KthFn W} {i j q r : Nat} (hK : KSpecAt F h0 K r) (hok : F.ok i j q) (hr : F.rank i j q ≤ r) {b : Backtrace W}
    (hb : b.base ∈ F.I i j q) {d : KCache W} (hd : CacheAt F h0 d) :
    ∃ d', btWeight K i j b d = some (btW (listWt (emitL F h0)) i j b, d') ∧ CacheAt F h0 d' ∧
      ∀ i' j' q', F.rank i j q ≤ F.rank i' j' q' → d'.get (i', j', q') = d.get (i', j', q') := by
  have hk := hF.kids hok hb
  rw [Backtrace.kids_base] at hk
  cases b with
  | nullary => exact ⟨d, rfl, hd, fun _ _ _ _ => rfl⟩
  | unary rid q₁ w k =>
    have h1 := hk (i, j, q₁) (by simp [Backtrace.kids])
    obtain ⟨d', h2, h3, h4⟩ := hK i j q₁ k d h1.1 (lt_of_lt_of_le h1.2.1 hr) hd
    refine ⟨d', ?_, h3, fun i' j' q' h => h4 _ _ _ (lt_of_lt_of_le h1.2.1 h)⟩
    simp only [btWeight, h2, btW, listWt]
    cases (emitL F h0 i j q₁)[k]? <;> rfl
  | binary rid q₁ m q₂ w k₁ k₂ =>
    have h1 := hk (i, m, q₁) (by simp [Backtrace.kids])
    have h1' := hk (m, j, q₂) (by simp [Backtrace.kids])
    obtain ⟨d', h2, h3, h4⟩ := hK i m q₁ k₁ d h1.1 (lt_of_lt_of_le h1.2.1 hr) hd
    obtain ⟨d₂, h2', h3', h4'⟩ := hK m j q₂ k₂ d' h1'.1 (lt_of_lt_of_le h1'.2.1 hr) h3
    simp only [btWeight, h2, btW, listWt]
    cases (emitL F h0 i m q₁)[k₁]? with
    | none => exact ⟨d', rfl, h3, fun i' j' q' h => h4 _ _ _ (lt_of_lt_of_le h1.2.1 h)⟩
    | some p =>
      refine ⟨d₂, ?_, h3', fun i' j' q' h => (h4' _ _ _ (lt_of_lt_of_le h1'.2.1 h)).trans (h4 _ _ _ (lt_of_lt_of_le h1.2.1 h))⟩
      simp only [h2']
      cases (emitL F h0 m j q₂)[k₂]? <;> rfl

theorem btWorse_at (hF : HeapForest F h0) {K : KthFn W} {i j q r : Nat} (hK : KSpecAt F h0 K r) (hok : F.ok i j q) (hr : F.rank i j q ≤ r) (bs : List (Backtrace W)) :
    ∀ {d : KCache W}, (∀ b ∈ bs, b.base ∈ F.I i j q) → CacheAt F h0 d →
    ∃ d', btWorse K i j bs d = some (weighted (btW (listWt (emitL F h0)) i j) bs, d') ∧ CacheAt F h0 d' ∧
      ∀ i' j' q', F.rank i j q ≤ F.rank i' j' q' → d'.get (i', j', q') = d.get (i', j', q') := by
  induction bs with
  | nil => exact fun _ hd => ⟨_, rfl, hd, fun _ _ _ _ => rfl⟩
  | cons b bs ih =>
    intro d hb hd
    obtain ⟨d₁, h1, h2, h3⟩ := btWeight_at hF hK hok hr (hb b (by simp)) hd
    obtain ⟨d₂, h4, h5, h6⟩ := ih (fun b' h => hb b' (by simp [h])) h2
    refine ⟨d₂, ?_, h5, fun i' j' q' h => (h6 _ _ _ h).trans (h3 _ _ _ h)⟩
    simp only [btWorse, h1, h4, weighted, List.filterMap_cons]
    cases btW (listWt (emitL F h0)) i j b <;> rfl

theorem CacheAt.set {d : KCache W} (hd : CacheAt F h0 d) {i j q : Nat} (hok : F.ok i j q) {cell : List (Backtrace W × W) × List (W × Backtrace W)}
    (h : CellAt F h0 i j q cell) : CacheAt F h0 (d.set (i, j, q) cell) := by
  intro i' j' q' cell' hg
  rw [AMap.get_set] at hg
  split at hg
  · rename_i he
    cases he
    cases hg
    exact ⟨hok, h⟩
  · exact hd _ _ _ _ hg

theorem kthLoop_at (hF : HeapForest F h0) {K : KthFn W} {i j q k r : Nat} (hK : KSpecAt F h0 K r) (hok : F.ok i j q) (hr : F.rank i j q ≤ r) (fuel : Nat) :
    ∀ {m : Nat} {last : Backtrace W} {lw : W} {d : KCache W} {h : List (W × Backtrace W)}, k + 1 ≤ fuel + (m + 1) → CacheAt F h0 d →
      (emitL F h0 i j q)[m]? = some (last, lw) → d.get (i, j, q) = some ((emitL F h0 i j q).take (m + 1), h) →
      Emits (btW (listWt (emitL F h0)) i j) (some last) h ((emitL F h0 i j q).drop (m + 1)) →
      ∃ m' last' lw' d' h', kthLoop K i j q k fuel (m + 1) last lw d = some (m' + 1, last', lw', d') ∧ CacheAt F h0 d' ∧
        (emitL F h0 i j q)[m']? = some (last', lw') ∧
        d'.get (i, j, q) = some ((emitL F h0 i j q).take (m' + 1), h') ∧ (k + 1 ≤ m' + 1 ∨ (emitL F h0 i j q).length = m' + 1) ∧
        ∀ i' j' q', F.rank i j q < F.rank i' j' q' → d'.get (i', j', q') = d.get (i', j', q') := by
  induction fuel with
  | zero =>
    intro m last lw d h hfuel hd hlast hget hheap
    refine ⟨m, last, lw, d, h, ?_, hd, hlast, hget, .inl (by omega), fun _ _ _ _ => rfl⟩
    rw [kthLoop, if_neg (by omega)]
  | succ fuel ih =>
    intro m last lw d h hfuel hd hlast hget hheap
    by_cases hk : m + 1 < k + 1
    · have hlb := ((hF.emitL_spec hok last).1 ⟨lw, List.mem_of_getElem? hlast⟩).1
      obtain ⟨d₁, h1, h2, h3⟩ := btWorse_at hF hK hok hr last.succs (fun b hb => by rw [Backtrace.base_succs hb]; exact hlb) hd
      have hg1 : d₁.get (i, j, q) = some ((emitL F h0 i j q).take (m + 1), h) := by rw [h3 _ _ _ (le_refl _), hget]
      have hlen := (List.getElem?_eq_some_iff.1 hlast).1
      generalize hdrop : (emitL F h0 i j q).drop (m + 1) = dr at hheap
      cases hheap with
      | done h4 =>
        simp only [pushAll, succsOf] at h4
        have hnil := btPop_none.1 h4
        have hh : h = [] := by
          cases h with
          | nil => rfl
          | cons x h =>
            have := pushAll_sub (weighted (btW (listWt (emitL F h0)) i j) last.succs) (List.mem_cons_self (a := x) (l := h))
            rw [pushAll, hnil] at this
            cases this
        have hle : (emitL F h0 i j q).length ≤ m + 1 := by
          rw [List.drop_eq_nil_iff] at hdrop
          exact hdrop
        have hcell : CellAt F h0 i j q ((emitL F h0 i j q).take (m + 1), []) := by
          refine .inr ⟨m, last, lw, hlast, rfl, ?_⟩
          rw [hdrop]
          refine .done ?_
          rw [← hh]
          exact h4
        refine ⟨m, last, lw, d₁.set (i, j, q) ((emitL F h0 i j q).take (m + 1), []), [], ?_, h2.set hok hcell, hlast, AMap.get_set_self _ _ _, .inr (by omega), ?_⟩
        · rw [kthLoop, if_pos hk]
          simp only [h1, hg1, h4]
        · intro i' j' q' hlt
          rw [AMap.get_set, if_neg, h3 _ _ _ hlt.le]
          rintro he
          cases he
          exact lt_irrefl _ hlt
      | @step _ _ w b rest l h4 h6 =>
        simp only [pushAll, succsOf] at h4
        have h5 : (emitL F h0 i j q)[m + 1]? = some (b, w) := by
          have : ((emitL F h0 i j q).drop (m + 1))[0]? = some (b, w) := by rw [hdrop]; rfl
          rw [List.getElem?_drop] at this
          exact this
        have hl : (emitL F h0 i j q).drop (m + 1 + 1) = l := by
          rw [← List.tail_drop, hdrop]; rfl
        rw [← hl] at h6
        have htake : (emitL F h0 i j q).take (m + 1) ++ [(b, w)] = (emitL F h0 i j q).take (m + 1 + 1) := by
          rw [List.take_add_one (i := m + 1), h5]; rfl
        have hcell : CellAt F h0 i j q ((emitL F h0 i j q).take (m + 1) ++ [(b, w)], rest) := .inr ⟨m + 1, b, w, h5, htake, h6⟩
        obtain ⟨m', last', lw', d', h', g1, g2, g3, g4, g5, g6⟩ := ih (m := m + 1) (last := b) (lw := w)
          (d := d₁.set (i, j, q) ((emitL F h0 i j q).take (m + 1) ++ [(b, w)], rest)) (h := rest) (by omega) (h2.set hok hcell) h5
          (by rw [AMap.get_set_self, htake]) h6
        refine ⟨m', last', lw', d', h', ?_, g2, g3, g4, g5, ?_⟩
        · rw [kthLoop, if_pos hk]
          simp only [h1, hg1, h4]
          exact g1
        · intro i' j' q' hlt
          rw [g6 _ _ _ hlt, AMap.get_set, if_neg, h3 _ _ _ hlt.le]
          rintro he
          cases he
          exact lt_irrefl _ hlt
    · refine ⟨m, last, lw, d, h, ?_, hd, hlast, hget, .inl (by omega), fun _ _ _ _ => rfl⟩
      rw [kthLoop, if_neg hk]

theorem kthFinish_at (hF : HeapForest F h0) {K : KthFn W} {i j q k r m : Nat} (hK : KSpecAt F h0 K r) (hok : F.ok i j q) (hr : F.rank i j q ≤ r)
    {last : Backtrace W} {lw : W} {d : KCache W} {h : List (W × Backtrace W)} (hd : CacheAt F h0 d)
    (hlast : (emitL F h0 i j q)[m]? = some (last, lw)) (hget : d.get (i, j, q) = some ((emitL F h0 i j q).take (m + 1), h))
    (hheap : Emits (btW (listWt (emitL F h0)) i j) (some last) h ((emitL F h0 i j q).drop (m + 1))) :
    ∃ d', kthFinish K i j q k (m + 1) last lw d = some ((emitL F h0 i j q)[k]?, d') ∧ CacheAt F h0 d' ∧
      ∀ i' j' q', F.rank i j q < F.rank i' j' q' → d'.get (i', j', q') = d.get (i', j', q') := by
  obtain ⟨m', last', lw', d', h', g1, g2, g3, g4, g5, g6⟩ := kthLoop_at hF (k := k) hK hok hr (k + 1) (m := m) (by omega) hd hlast hget hheap
  refine ⟨d', ?_, g2, g6⟩
  unfold kthFinish
  simp only [g1]
  have hlen := (List.getElem?_eq_some_iff.1 g3).1
  rcases Nat.lt_trichotomy (m' + 1) (k + 1) with hlt | heq | hgt
  · rw [Nat.compare_eq_lt.2 hlt]
    simp only
    rw [List.getElem?_eq_none (by omega)]
  · rw [Nat.compare_eq_eq.2 heq]
    simp only
    rw [← Nat.succ.inj heq, g3]
  · rw [Nat.compare_eq_gt.2 hgt]
    simp only [g4]
    rw [List.getElem?_take_of_lt (by omega), List.getElem?_eq_getElem (by omega)]

/-- The initial candidates are those that `backtraces` returns. -/
def BtAt {T : Type _} [DecidableEq T] (A : CsAutomaton T W) (chart : DenseChart W) (filter : List Bool) (F : KForest W)
    (h0 : Nat → Nat → Nat → List (W × Backtrace W)) : Prop := ∀ i j q, F.ok i j q → backtraces A chart filter i j q = some (h0 i j q)

theorem kth_at {T : Type _} [DecidableEq T] {A : CsAutomaton T W} {chart : DenseChart W} {filter : List Bool} (hF : HeapForest F h0) (hB : BtAt A chart filter F h0)
    (fuel : Nat) : KSpecAt F h0 (kth A chart filter fuel) fuel := by
  induction fuel with
  | zero => intro i j q k d _ h; omega
  | succ fuel ih =>
    intro i j q k d hok hr hd
    unfold kth
    cases hg : d.get (i, j, q) with
    | none =>
      have hheap := hF.emitL_emits hok
      simp only [hB i j q hok]
      generalize hL : emitL F h0 i j q = L at hheap
      cases hheap with
      | done h4 =>
        simp only [pushAll, succsOf, weighted, List.filterMap_nil, List.foldl_nil] at h4
        simp only [h4]
        refine ⟨d.set (i, j, q) ([], []), rfl, hd.set hok (.inl ⟨rfl, hL⟩), ?_⟩
        intro i' j' q' hlt
        rw [AMap.get_set, if_neg]
        rintro he
        cases he
        exact lt_irrefl _ hlt
      | @step _ _ w b rest l h4 h6 =>
        simp only [pushAll, succsOf, weighted, List.filterMap_nil, List.foldl_nil] at h4
        simp only [h4]
        have h5 : (emitL F h0 i j q)[0]? = some (b, w) := by rw [hL]; rfl
        have htake : [(b, w)] = (emitL F h0 i j q).take (0 + 1) := by rw [hL]; rfl
        have hdr : (emitL F h0 i j q).drop (0 + 1) = l := by rw [hL]; rfl
        rw [← hdr] at h6
        obtain ⟨d', g1, g2, g3⟩ := kthFinish_at hF (k := k) ih hok (Nat.lt_succ_iff.1 hr) (m := 0) (d := d.set (i, j, q) ([(b, w)], rest))
          (hd.set hok (.inr ⟨0, b, w, h5, htake, h6⟩)) h5 (by rw [AMap.get_set_self, ← htake]) h6
        rw [hL] at g1
        refine ⟨d', g1, g2, ?_⟩
        intro i' j' q' hlt
        rw [g3 _ _ _ hlt, AMap.get_set, if_neg]
        rintro he
        cases he
        exact lt_irrefl _ hlt
    | some cell =>
      obtain ⟨derivs, h⟩ := cell
      obtain ⟨_, hcell⟩ := hd _ _ _ _ hg
      rcases hcell with ⟨h1, h2⟩ | ⟨m, b, w, hlast, h1, h2⟩
      · simp only at h1
        subst h1
        rw [h2]
        exact ⟨d, rfl, hd, fun _ _ _ _ => rfl⟩
      · simp only at h1 h2
        subst h1
        have hlt := (List.getElem?_eq_some_iff.1 hlast).1
        have hl : ((emitL F h0 i j q).take (m + 1)).getLast? = some (b, w) := by
          rw [List.take_add_one, hlast, Option.toList_some, List.getLast?_concat]
        have hlen : ((emitL F h0 i j q).take (m + 1)).length = m + 1 := by rw [List.length_take]; omega
        simp only [hl, hlen]
        exact kthFinish_at hF ih hok (Nat.lt_succ_iff.1 hr) hd hlast hg h2

/-! ### The derivations -/

/-- `DenotesAt L i j b t`: the backtrace `b` for the span from `i` to `j` stands for the derivation `t`. -/
inductive DenotesAt (L : Nat → Nat → Nat → List (Backtrace W × W)) : Nat → Nat → Backtrace W → BinTree → Prop
  | nullary {i j rid : Nat} {w : W} : DenotesAt L i j (.nullary rid w) (.nullary rid)
  | unary {i j rid q k : Nat} {w : W} {p : Backtrace W × W} {t : BinTree} : (L i j q)[k]? = some p → DenotesAt L i j p.1 t →
      DenotesAt L i j (.unary rid q w k) (.unary rid t)
  | binary {i j rid q₁ m q₂ k₁ k₂ : Nat} {w : W} {p₁ p₂ : Backtrace W × W} {t₁ t₂ : BinTree} : (L i m q₁)[k₁]? = some p₁ → (L m j q₂)[k₂]? = some p₂ →
      DenotesAt L i m p₁.1 t₁ → DenotesAt L m j p₂.1 t₂ → DenotesAt L i j (.binary rid q₁ m q₂ w k₁ k₂) (.binary rid m t₁ t₂)

omit [RoundedWeight W] in
theorem DenotesAt.det {L : Nat → Nat → Nat → List (Backtrace W × W)} {i j : Nat} {b : Backtrace W} {t t' : BinTree} (h : DenotesAt L i j b t)
    (h' : DenotesAt L i j b t') : t = t' := by
  induction h generalizing t' with
  | nullary => cases h'; rfl
  | unary h1 _ ih =>
    cases h' with
    | unary h2 h3 =>
      rw [h1] at h2
      cases h2
      rw [ih h3]
  | binary h1 h2 _ _ ih₁ ih₂ =>
    cases h' with
    | binary g1 g2 g3 g4 =>
      rw [h1] at g1
      rw [h2] at g2
      cases g1
      cases g2
      rw [ih₁ g3, ih₂ g4]

variable {T : Type _} {G : BinGrammar T W}

/-- Every listed backtrace stands for a derivation in the chart. -/
theorem denotesAt_total (hF : HeapForest F h0) (hG : ForestOf G F) (r : Nat) : ∀ {i j q b w}, F.ok i j q → F.rank i j q = r → (b, w) ∈ emitL F h0 i j q →
    ∃ t v, DenotesAt (emitL F h0) i j b t ∧ ChartDerives G (fun i j q => ∃ w, F.cw i j q = some w) i j q t v := by
  induction r using Nat.strong_induction_on with
  | _ r ih =>
    intro i j q b w hok hr hm
    obtain ⟨hb, w', hw⟩ := (hF.emitL_spec hok b).1 ⟨w, hm⟩
    have hk := hF.kids hok hb
    cases b with
    | nullary rid v =>
      obtain ⟨rfl, a, ha⟩ := (hG.nullary hok).1 hb
      exact ⟨_, _, .nullary, .nullary ha⟩
    | unary rid q₁ v k =>
      obtain ⟨_, hu, hc⟩ := (hG.unary hok).1 hb
      have h1 := hk (i, j, q₁) (by simp [Backtrace.kids, Backtrace.base])
      simp only [btW, listWt, Option.map_eq_some_iff] at hw
      obtain ⟨_, ⟨p, hp, rfl⟩, rfl⟩ := hw
      obtain ⟨t, v', ht, ht'⟩ := ih _ (by omega) (b := p.1) (w := p.2) h1.1 rfl (List.mem_of_getElem? hp)
      exact ⟨_, _, .unary hp ht, .unary hu hc ht'⟩
    | binary rid q₁ m q₂ v k₁ k₂ =>
      obtain ⟨_, _, h3, h4, hu, hc₁, hc₂⟩ := (hG.binary hok).1 hb
      have h1 := hk (i, m, q₁) (by simp [Backtrace.kids, Backtrace.base])
      have h2 := hk (m, j, q₂) (by simp [Backtrace.kids, Backtrace.base])
      simp only [btW, listWt, Option.map_eq_some_iff, Option.bind_eq_some_iff] at hw
      obtain ⟨_, ⟨p₁, hp₁, rfl⟩, _, ⟨p₂, hp₂, rfl⟩, rfl⟩ := hw
      obtain ⟨t₁, v₁, ht₁, ht₁'⟩ := ih _ (by omega) (b := p₁.1) (w := p₁.2) h1.1 rfl (List.mem_of_getElem? hp₁)
      obtain ⟨t₂, v₂, ht₂, ht₂'⟩ := ih _ (by omega) (b := p₂.1) (w := p₂.2) h2.1 rfl (List.mem_of_getElem? hp₂)
      exact ⟨_, _, .binary hp₁ hp₂ ht₁ ht₂, .binary h3 h4 hu hc₁ hc₂ ht₁' ht₂'⟩

/-- Every derivation in the chart is listed. -/
theorem denotesAt_complete (hF : HeapForest F h0) (hG : ForestOf G F) {i j q : Nat} {t : BinTree} {w : W}
    (h : ChartDerives G (fun i j q => ∃ w, F.cw i j q = some w) i j q t w) (hok : F.ok i j q) :
    ∃ b v, (b, v) ∈ emitL F h0 i j q ∧ DenotesAt (emitL F h0) i j b t := by
  induction h with
  | nullary ha =>
    rename_i i q rid a w
    obtain ⟨v, hv⟩ := (hF.emitL_spec hok (.nullary rid w)).2 ⟨(hG.nullary hok).2 ⟨rfl, _, ha⟩, w, rfl⟩
    exact ⟨_, v, hv, .nullary⟩
  | unary hu hc _ ih =>
    rename_i i j q q₁ rid t w w₁ _
    have hb : (.unary rid q₁ w 0 : Backtrace W) ∈ F.I i j q := (hG.unary hok).2 ⟨rfl, hu, hc⟩
    have h1 := hF.kids hok hb (i, j, q₁) (by simp [Backtrace.kids])
    obtain ⟨b, v, hbm, ht⟩ := ih h1.1
    obtain ⟨k, hk⟩ := List.getElem?_of_mem hbm
    obtain ⟨v', hv'⟩ := (hF.emitL_spec hok (.unary rid q₁ w k)).2 ⟨hb, w * v, by simp [btW, listWt, hk]⟩
    exact ⟨_, v', hv', .unary hk ht⟩
  | binary h3 h4 hu hc₁ hc₂ _ _ ih₁ ih₂ =>
    rename_i i m j q q₁ q₂ rid t₁ t₂ w w₁ w₂ _ _
    have hb : (.binary rid q₁ m q₂ w 0 0 : Backtrace W) ∈ F.I i j q := (hG.binary hok).2 ⟨rfl, rfl, h3, h4, hu, hc₁, hc₂⟩
    have h1 := hF.kids hok hb (i, m, q₁) (by simp [Backtrace.kids])
    have h2 := hF.kids hok hb (m, j, q₂) (by simp [Backtrace.kids])
    obtain ⟨b₁, v₁, hbm₁, ht₁⟩ := ih₁ h1.1
    obtain ⟨b₂, v₂, hbm₂, ht₂⟩ := ih₂ h2.1
    obtain ⟨k₁, hk₁⟩ := List.getElem?_of_mem hbm₁
    obtain ⟨k₂, hk₂⟩ := List.getElem?_of_mem hbm₂
    obtain ⟨v', hv'⟩ := (hF.emitL_spec hok (.binary rid q₁ m q₂ w k₁ k₂)).2 ⟨hb, w * v₁ * v₂, by simp [btW, listWt, hk₁, hk₂]⟩
    exact ⟨_, v', hv', .binary hk₁ hk₂ ht₁ ht₂⟩

/-- `read` returns the bracket word of the derivation. -/
theorem readBt_at [DecidableEq T] {A : CsAutomaton T W} {chart : DenseChart W} {filter : List Bool} (hF : HeapForest F h0) (hB : BtAt A chart filter F h0)
    (hG : ForestOf G F) (hbr : BracketsOK G A.brackets) (fuel : Nat) : ∀ {i j q b w d}, F.ok i j q → F.rank i j q < fuel → (b, w) ∈ emitL F h0 i j q →
    CacheAt F h0 d → ∃ t v d', DenotesAt (emitL F h0) i j b t ∧ treeWord A.brackets t = some v ∧ readBt A chart filter fuel i j b d = some (v, d') ∧ CacheAt F h0 d' := by
  induction fuel with
  | zero => intro i j q b w d _ h; omega
  | succ fuel ih =>
    intro i j q b w d hok hr hm hd
    obtain ⟨hb, w', hw⟩ := (hF.emitL_spec hok b).1 ⟨w, hm⟩
    have hk := hF.kids hok hb
    cases b with
    | nullary rid v =>
      obtain ⟨rfl, a, ha⟩ := (hG.nullary hok).1 hb
      obtain ⟨br, h1, h2, h3⟩ := hbr.nullary ha
      refine ⟨_, inBrackets br.outer (inBrackets br.left []), d, .nullary, by simp [treeWord, h1], ?_, hd⟩
      simp [readBt, h1, inBrackets_eq h2, inBrackets_eq h3]
    | unary rid q₁ v k =>
      obtain ⟨_, hu, hc⟩ := (hG.unary hok).1 hb
      obtain ⟨br, g1, g2, g3⟩ := hbr.unary hu
      have h1 := hk (i, j, q₁) (by simp [Backtrace.kids, Backtrace.base])
      simp only at h1
      simp only [btW, listWt, Option.map_eq_some_iff] at hw
      obtain ⟨_, ⟨p, hp, rfl⟩, rfl⟩ := hw
      obtain ⟨d₁, e1, e2, _⟩ := kth_at hF hB fuel i j q₁ k d h1.1 (by omega) hd
      obtain ⟨t, v₁, d₂, f1, f2, f3, f4⟩ := ih (b := p.1) (w := p.2) h1.1 (by omega) (List.mem_of_getElem? hp) e2
      refine ⟨_, inBrackets br.outer (inBrackets br.left v₁), d₂, .unary hp f1, by simp [treeWord, g1, f2], ?_, f4⟩
      simp [readBt, e1, hp, f3, g1, inBrackets_eq g2, inBrackets_eq g3]
    | binary rid q₁ m q₂ v k₁ k₂ =>
      obtain ⟨_, _, h3, h4, hu, hc₁, hc₂⟩ := (hG.binary hok).1 hb
      obtain ⟨br, g1, g2⟩ := hbr.binary hu
      have h1 := hk (i, m, q₁) (by simp [Backtrace.kids, Backtrace.base])
      have h2 := hk (m, j, q₂) (by simp [Backtrace.kids, Backtrace.base])
      simp only at h1 h2
      simp only [btW, listWt, Option.map_eq_some_iff, Option.bind_eq_some_iff] at hw
      obtain ⟨_, ⟨p₁, hp₁, rfl⟩, _, ⟨p₂, hp₂, rfl⟩, rfl⟩ := hw
      obtain ⟨d₁, e1, e2, _⟩ := kth_at hF hB fuel i m q₁ k₁ d h1.1 (by omega) hd
      obtain ⟨d₂, e1', e2', _⟩ := kth_at hF hB fuel m j q₂ k₂ d₁ h2.1 (by omega) e2
      obtain ⟨t₁, v₁, d₃, f1, f2, f3, f4⟩ := ih (b := p₁.1) (w := p₁.2) h1.1 (by omega) (List.mem_of_getElem? hp₁) e2'
      obtain ⟨t₂, v₂, d₄, f1', f2', f3', f4'⟩ := ih (b := p₂.1) (w := p₂.2) h2.1 (by omega) (List.mem_of_getElem? hp₂) f4
      refine ⟨_, inBrackets br.outer (inBrackets br.left v₁ ++ inBrackets br.right v₂), d₄, .binary hp₁ hp₂ f1 f1', by simp [treeWord, g1, f2, f2'], ?_, f4'⟩
      simp [readBt, e1, hp₁, e1', hp₂, f3, f3', g1, bracketed_eq, inBrackets_eq g2]

/-- The iterator returns the bracket words of the derivations in the order of the list. -/
theorem run_at [DecidableEq T] {A : CsAutomaton T W} {chart : DenseChart W} {filter : List Bool} (hF : HeapForest F h0) (hB : BtAt A chart filter F h0) (hG : ForestOf G F)
    (hbr : BracketsOK G A.brackets) {n : Nat} (hn : n ≤ 255) (hok : F.ok 0 n A.initial) {fuel : Nat} (hfuel : F.rank 0 n A.initial < fuel)
    {ts : List BinTree} {words : List (List (Bracket BracketContent))} (hts : List.Forall₂ (fun p t => DenotesAt (emitL F h0) 0 n p.1 t) (emitL F h0 0 n A.initial) ts)
    (hwords : List.Forall₂ (fun t v => treeWord A.brackets t = some v) ts words) (m : Nat) : ∀ {it : KIter W}, CacheAt F h0 it.d →
    KIter.run A chart filter fuel n m it = some ((List.range m).map fun k => words[it.k + k]?) := by
  have hu : u8 n = n := Nat.mod_eq_of_lt (by omega)
  induction m with
  | zero => intro it _; rfl
  | succ m ih =>
    intro it hd
    obtain ⟨d₁, e1, e2, _⟩ := kth_at hF hB fuel 0 n A.initial it.k it.d hok hfuel hd
    have hlen₁ := hts.length_eq
    have hlen₂ := hwords.length_eq
    have hnext : ∃ d', it.next A chart filter fuel n = some (words[it.k]?, ⟨d', it.k + 1⟩) ∧ CacheAt F h0 d' := by
      unfold KIter.next
      rw [hu]
      simp only [e1]
      cases hp : (emitL F h0 0 n A.initial)[it.k]? with
      | none =>
        have : words[it.k]? = none := by
          rw [List.getElem?_eq_none_iff] at hp ⊢
          omega
        exact ⟨d₁, by simp only [this], e2⟩
      | some p =>
        obtain ⟨t, v, d', f1, f2, f3, f4⟩ := readBt_at hF hB hG hbr fuel (b := p.1) (w := p.2) hok hfuel (List.mem_of_getElem? hp) e2
        have hlt := (List.getElem?_eq_some_iff.1 hp).1
        have ht : ts[it.k]? = some t := by
          obtain ⟨hlt', hget⟩ := List.getElem?_eq_some_iff.1 hp
          have := (List.forall₂_iff_get.1 hts).2 it.k hlt' (by omega)
          simp only [List.get_eq_getElem] at this
          rw [hget] at this
          rw [List.getElem?_eq_getElem (by omega), f1.det this]
        have hv : words[it.k]? = some v := by
          obtain ⟨hlt', hget⟩ := List.getElem?_eq_some_iff.1 ht
          have := (List.forall₂_iff_get.1 hwords).2 it.k hlt' (by omega)
          simp only [List.get_eq_getElem] at this
          rw [hget, f2] at this
          rw [List.getElem?_eq_getElem (by omega), Option.some.inj this]
        exact ⟨d', by simp only [f3, hv], f4⟩
    obtain ⟨d', g1, g2⟩ := hnext
    simp only [KIter.run, g1]
    rw [ih (it := ⟨d', it.k + 1⟩) g2, List.range_succ_eq_map]
    simp [Nat.add_assoc, Nat.add_comm 1]

end

section
variable {N T W : Type _} [DecidableEq N] [DecidableEq T] [RoundedWeight W]

/-- Each state in the chart has a rule whose parts are in the chart. -/
def ChartSupported (G : BinGrammar T W) (cw : Nat → Nat → Nat → Option W) (n states : Nat) : Prop :=
  ∀ i j q w, i < j → j ≤ n → q < states → cw i j q = some w → ∃ w', Way G cw i j q w'

/-- Each weight in the chart is given by a rule and the weights of its parts. -/
def ChartReached (G : BinGrammar T W) (cw : Nat → Nat → Nat → Option W) (n states : Nat) : Prop :=
  ∀ i j q w, i < j → j ≤ n → q < states → cw i j q = some w → Way G cw i j q w

/-- The iterator returns the bracket words of all derivations in the chart, each at least once, and then it stops. -/
def EnumeratesEach (A : CsAutomaton T W) (chart : DenseChart W) (filter : List Bool) (n : Nat) : Prop :=
  ∃ (ts : List BinTree) (words : List (List (Bracket BracketContent))),
    (∀ t, t ∈ ts ↔ ∃ w, ChartDerives (buGrammar A filter) (fun i j q => ∃ w, chart.getWeight i j q = some (some w)) 0 n A.initial t w) ∧
    List.Forall₂ (fun t v => treeWord A.brackets t = some v) ts words ∧
    ∃ fuel₀, ∀ m, ∀ fuel ≥ fuel₀, KIter.run A chart filter fuel n m KIter.new = some ((List.range m).map fun k => words[k]?)

/-- The lists of the iterator, for given ranks of the states. -/
theorem enumeratesLists {factorize : W → Nat → List W} {rules : List (Nat × PMCFGRule N T W)} {st : List (CsState N)} {ps : List (CsProd N T W × TdBrackets)}
    {A : CsAutomaton T W} {filter : List Bool} {chart : DenseChart W} {n : Nat} (hp : grammarProds factorize rules = some ps) (hA : A.Rep st ps)
    (hi : A.initial < A.states) (hf : filter.length = A.brackets.length)
    (hget : ∀ i j q, i < j → j ≤ n → q < A.states → ∃ o, chart.getWeight i j q = some o) (hsup : ChartSupported (buGrammar A filter) (chartWeight chart) n A.states)
    {R : Nat} {rank : Nat → Nat} (hR : ∀ q < A.states, rank q ≤ R) (hrank : ∀ rid q q₁ w, (buGrammar A filter).unary rid q q₁ w → rank q₁ < rank q)
    (hn0 : 0 < n) (hn : n ≤ 255) :
    ∃ (ts : List BinTree) (words : List (List (Bracket BracketContent))),
    (HeapForest (chartForest A chart filter n R rank) (fun i j q => (backtraces A chart filter i j q).getD []) ∧
      List.Forall₂ (fun p t => DenotesAt (emitL (chartForest A chart filter n R rank) fun i j q => (backtraces A chart filter i j q).getD []) 0 n p.1 t)
        (emitL (chartForest A chart filter n R rank) (fun i j q => (backtraces A chart filter i j q).getD []) 0 n A.initial) ts) ∧
    (∀ t, t ∈ ts ↔ ∃ w, ChartDerives (buGrammar A filter) (fun i j q => ∃ w, chart.getWeight i j q = some (some w)) 0 n A.initial t w) ∧
    List.Forall₂ (fun t v => treeWord A.brackets t = some v) ts words ∧
    ∃ fuel₀, ∀ m, ∀ fuel ≥ fuel₀, KIter.run A chart filter fuel n m KIter.new = some ((List.range m).map fun k => words[k]?) := by
  have hF : HeapForest (chartForest A chart filter n R rank) fun i j q => (backtraces A chart filter i j q).getD [] := by
    refine ⟨rfl, chartForest_base R rank, chartForest_inj hA hf hget R rank, chartForest_kids hA hf hget hR hrank, ?_⟩
    intro i j q w hok hw
    obtain ⟨w', hway⟩ := hsup i j q w hok.1 hok.2.1 hok.2.2 hw
    obtain ⟨_, b, hb⟩ := hway.hasCand
    exact List.ne_nil_of_mem ((chartForest_mem hA hf hget R rank hok b).2 ⟨_, hb⟩)
  have hB : BtAt A chart filter (chartForest A chart filter n R rank) fun i j q => (backtraces A chart filter i j q).getD [] := by
    intro i j q hok
    obtain ⟨h, h1, _⟩ := backtraces_spec hA hf hget hok.1 hok.2.1 hok.2.2
    simp only [h1, Option.getD_some]
  have hG := chartForest_of hA hf hget R rank
  generalize hh0 : (fun i j q => (backtraces A chart filter i j q).getD []) = h0 at hF hB
  have hbr : BracketsOK (buGrammar A filter) A.brackets := by
    rw [hA.grammar, hA.brackets]
    exact brackets_of_prods hp filter
  have hok : (chartForest A chart filter n R rank).ok 0 n A.initial := ⟨hn0, le_refl _, hi⟩
  have hcw : (fun i j q => ∃ w, (chartForest A chart filter n R rank).cw i j q = some w) = fun i j q => ∃ w, chart.getWeight i j q = some (some w) := by
    funext i j q
    simp only [chartForest, chartWeight_some]
  obtain ⟨ts, hts⟩ := exists_forall₂ (R := fun (p : Backtrace W × W) (t : BinTree) => DenotesAt (emitL (chartForest A chart filter n R rank) h0) 0 n p.1 t ∧
      ∃ w, ChartDerives (buGrammar A filter) (fun i j q => ∃ w, (chartForest A chart filter n R rank).cw i j q = some w) 0 n A.initial t w)
    (emitL (chartForest A chart filter n R rank) h0 0 n A.initial) fun p hp => by
      obtain ⟨t, v, h1, h2⟩ := denotesAt_total hF hG _ hok rfl hp
      exact ⟨t, h1, v, h2⟩
  have hts' := hts.imp (fun p t h => h.1)
  obtain ⟨words, hwords⟩ := exists_forall₂ (R := fun t v => treeWord A.brackets t = some v) ts fun t ht => by
    obtain ⟨k, hk⟩ := List.getElem?_of_mem ht
    obtain ⟨hlt, hget'⟩ := List.getElem?_eq_some_iff.1 hk
    have h2 := (List.forall₂_iff_get.1 hts').2 k (hts'.length_eq ▸ hlt) hlt
    simp only [List.get_eq_getElem] at h2
    rw [hget'] at h2
    obtain ⟨t', v, d', f1, f2, _⟩ := readBt_at hF hB hG hbr _ (d := []) hok (Nat.lt_succ_self _) (List.getElem_mem (hts'.length_eq ▸ hlt))
      (by intro i j q cell h; cases h)
    rw [f1.det h2] at f2
    exact ⟨v, f2⟩
  refine ⟨ts, words, by subst hh0; exact ⟨hF, hts'⟩, fun t => ⟨fun ht => ?_, ?_⟩, hwords, (chartForest A chart filter n R rank).rank 0 n A.initial + 1, fun m fuel hfuel => ?_⟩
  · obtain ⟨k, hk⟩ := List.getElem?_of_mem ht
    obtain ⟨hlt, hget'⟩ := List.getElem?_eq_some_iff.1 hk
    have h2 := ((List.forall₂_iff_get.1 hts).2 k (hts'.length_eq ▸ hlt) hlt).2
    simp only [List.get_eq_getElem] at h2
    rw [hget', hcw] at h2
    exact h2
  · rintro ⟨w, hd⟩
    rw [← hcw] at hd
    obtain ⟨b, v, h1, h2⟩ := denotesAt_complete hF hG hd hok
    obtain ⟨k, hk⟩ := List.getElem?_of_mem h1
    obtain ⟨hlt, hget'⟩ := List.getElem?_eq_some_iff.1 hk
    have h3 := (List.forall₂_iff_get.1 hts').2 k hlt (hts'.length_eq ▸ hlt)
    simp only [List.get_eq_getElem] at h3
    rw [hget'] at h3
    rw [h2.det h3]
    exact List.getElem_mem _
  · have := run_at hF hB hG hbr hn hok (fuel := fuel) (by omega) hts' hwords m (it := KIter.new) (by intro i j q cell h; cases h)
    rw [this]
    simp [KIter.new]

theorem enumeratesEach {factorize : W → Nat → List W} {rules : List (Nat × PMCFGRule N T W)} {st : List (CsState N)} {ps : List (CsProd N T W × TdBrackets)}
    {A : CsAutomaton T W} {filter : List Bool} {chart : DenseChart W} {n : Nat} (hp : grammarProds factorize rules = some ps) (hA : A.Rep st ps)
    (hi : A.initial < A.states) (hf : filter.length = A.brackets.length)
    (hget : ∀ i j q, i < j → j ≤ n → q < A.states → ∃ o, chart.getWeight i j q = some o) (hsup : ChartSupported (buGrammar A filter) (chartWeight chart) n A.states)
    (hcyc : NoChainCycle (buGrammar A filter)) (hn0 : 0 < n) (hn : n ≤ 255) : EnumeratesEach A chart filter n := by
  obtain ⟨rank, hrank⟩ := hcyc
  obtain ⟨R, hR⟩ := exists_bound rank A.states
  obtain ⟨ts, words, _, h⟩ := enumeratesLists hp hA hi hf hget hsup hR hrank hn0 hn
  exact ⟨ts, words, h⟩

omit [DecidableEq N] in
/-- In filled charts, each weight is given by a rule and the weights of its parts. -/
theorem fillChart_reached {A : CsAutomaton T W} {word : List T} {beam : Nat} {delta : W} {outs : SxOutside W} {filter : List Bool} {chart : DenseChart W}
    (hA : A.BuWF) (hn : word.length ≤ 255) (h : fillChart A word beam delta outs filter = some chart) :
    (∀ i j q, i < j → j ≤ word.length → q < A.states → ∃ o, chart.getWeight i j q = some o) ∧
      ChartReached (buGrammar A filter) (chartWeight chart) word.length A.states := by
  obtain ⟨a, hcn, hcs, hcb, href, hok, hemp⟩ := fillChart_spec hA hn h
  have hget : ∀ i j q, i < j → j ≤ word.length → q < A.states → chart.getWeight i j q = some ((lastWeight q (a i j)).filter fun w => w ≠ 0) :=
    fun i j q h1 h2 h3 => href.getWeight h1 (hcn ▸ h2) (hcs ▸ h3)
  have hmem : ∀ i j q w, i < j → j ≤ word.length → q < A.states → (chartWeight chart i j q = some w ↔ (q, w) ∈ a i j ∧ w ≠ 0) := by
    intro i j q w h1 h2 h3
    rw [chartWeight_some, hget i j q h1 h2 h3, Option.some.injEq, Option.filter_eq_some_iff]
    obtain ⟨H, hinv, _⟩ := hok i j h1 h2
    constructor
    · rintro ⟨g1, g2⟩
      exact ⟨lastWeight_mem g1, by simpa using g2⟩
    · rintro ⟨g1, g2⟩
      exact ⟨lastWeight_of_mem hinv.nodup g1, by simpa using g2⟩
  refine ⟨fun i j q h1 h2 h3 => ⟨_, hget i j q h1 h2 h3⟩, ?_⟩
  intro i j q w hij hj hq hw
  obtain ⟨H, hinv, hst, hstop⟩ := hok i j hij hj
  obtain ⟨hin, hw0⟩ := (hmem i j q w hij hj hq).1 hw
  obtain ⟨k, hk⟩ := List.getElem?_of_mem hin
  rcases hinv.entry k _ hk with (⟨rid, t, h1, h2, h3, _⟩ | ⟨rid, m, q₁, w₁, q₂, w₂, v, h1, h2, h3, h4, h5, h6, _, h7⟩) | ⟨rid, q₁, w₁, v, h1, h2, _, h3⟩
  · simp only at h3
    subst h1
    exact .nullary h3
  · simp only at h4 h7
    subst h7
    have hw₁ : w₁ ≠ 0 := fun h0 => hw0 (by rw [h0, zero_mul, zero_mul])
    have hq₁ : q₁ < A.states := by
      obtain ⟨H', hinv', hst', _⟩ := hok i m h1 (by omega)
      exact hst' _ h3
    have hq₂ : q₂ < A.states := by
      obtain ⟨H', hinv', hst', _⟩ := hok m j h2 hj
      exact hst' _ (lastWeight_mem h5)
    rw [mul_comm w₁ v]
    exact .binary h1 h2 h4 ((hmem i m q₁ w₁ h1 (by omega) hq₁).2 ⟨h3, hw₁⟩) ((hmem m j q₂ w₂ h2 hj hq₂).2 ⟨lastWeight_mem h5, h6⟩)
  · simp only at h2 h3
    subst h3
    have hw₁ : w₁ ≠ 0 := fun h0 => hw0 (by rw [h0, mul_zero])
    have h1' := List.mem_of_mem_take h1
    exact .unary h2 ((hmem i j q₁ w₁ hij hj (hst _ h1')).2 ⟨h1', hw₁⟩)

omit [DecidableEq N] in
/-- Filled charts are supported. -/
theorem fillChart_supported {A : CsAutomaton T W} {word : List T} {beam : Nat} {delta : W} {outs : SxOutside W} {filter : List Bool} {chart : DenseChart W}
    (hA : A.BuWF) (hn : word.length ≤ 255) (h : fillChart A word beam delta outs filter = some chart) :
    (∀ i j q, i < j → j ≤ word.length → q < A.states → ∃ o, chart.getWeight i j q = some o) ∧
      ChartSupported (buGrammar A filter) (chartWeight chart) word.length A.states := by
  obtain ⟨h1, h2⟩ := fillChart_reached hA hn h
  exact ⟨h1, fun i j q w h3 h4 h5 h6 => ⟨w, h2 i j q w h3 h4 h5 h6⟩⟩

end

end Rustomata
