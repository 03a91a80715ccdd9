import Verif.Proofs.CsKBestFill

/-!
# Results of the k-best enumeration for all charts, and independence of the bound for the recursion
-/

namespace Rustomata
open Spec

/-! ### the bound -/

section mono
variable {W : Type _} [Mul W]

/-- `K'` returns all results of `K`. -/
def KthLe (K K' : KthFn W) : Prop := ∀ i j q k d r, K i j q k d = some r → K' i j q k d = some r

theorem btWeight_mono {K K' : KthFn W} (h : KthLe K K') {i j : Nat} {b : Backtrace W} {d : KCache W} {r} (hr : btWeight K i j b d = some r) :
    btWeight K' i j b d = some r := by
  cases b with
  | nullary rid w => exact hr
  | unary rid q₁ w k =>
    simp only [btWeight] at hr ⊢
    cases h1 : K i j q₁ k d with
    | none => simp [h1] at hr
    | some x =>
      rw [h _ _ _ _ _ _ h1]
      rw [h1] at hr
      exact hr
  | binary rid q₁ m q₂ w k₁ k₂ =>
    simp only [btWeight] at hr ⊢
    cases h1 : K i m q₁ k₁ d with
    | none => simp [h1] at hr
    | some x =>
      rw [h _ _ _ _ _ _ h1]
      rw [h1] at hr
      rcases x with ⟨_ | r₁, d₁⟩
      · exact hr
      · simp only at hr ⊢
        cases h2 : K m j q₂ k₂ d₁ with
        | none => simp [h2] at hr
        | some y =>
          rw [h _ _ _ _ _ _ h2]
          rw [h2] at hr
          exact hr

theorem btWorse_mono {K K' : KthFn W} (h : KthLe K K') {i j : Nat} : ∀ (bs : List (Backtrace W)) {d : KCache W} {r}, btWorse K i j bs d = some r →
    btWorse K' i j bs d = some r
  | [], d, r, hr => hr
  | b :: bs, d, r, hr => by
    simp only [btWorse] at hr ⊢
    cases h1 : btWeight K i j b d with
    | none => simp [h1] at hr
    | some x =>
      rw [btWeight_mono h h1]
      rw [h1] at hr
      simp only at hr ⊢
      cases h2 : btWorse K i j bs x.2 with
      | none => simp [h2] at hr
      | some y =>
        rw [btWorse_mono h bs h2]
        rw [h2] at hr
        exact hr

variable [LinearOrder W]

theorem kthLoop_mono {K K' : KthFn W} (h : KthLe K K') {i j q k : Nat} : ∀ (fuel len : Nat) (last : Backtrace W) (lw : W) (d : KCache W) {r},
    kthLoop K i j q k fuel len last lw d = some r → kthLoop K' i j q k fuel len last lw d = some r
  | fuel, len, last, lw, d, r, hr => by
    unfold kthLoop at hr ⊢
    split at hr
    · rename_i hlt
      rw [if_pos hlt]
      cases fuel with
      | zero => exact hr
      | succ fuel =>
        simp only at hr ⊢
        cases h1 : btWorse K i j last.succs d with
        | none => simp [h1] at hr
        | some x =>
          rw [btWorse_mono h _ h1]
          rw [h1] at hr
          simp only at hr ⊢
          cases h2 : x.2.get (i, j, q) with
          | none => simp [h2] at hr
          | some y =>
            rw [h2] at hr
            simp only at hr ⊢
            split
            · rename_i h3
              rw [h3] at hr
              exact hr
            · rename_i h3
              rw [h3] at hr
              exact kthLoop_mono h fuel _ _ _ _ hr
    · rename_i hlt
      rw [if_neg hlt]
      exact hr

theorem kthFinish_mono {K K' : KthFn W} (h : KthLe K K') {i j q k len : Nat} {last : Backtrace W} {lw : W} {d : KCache W} {r}
    (hr : kthFinish K i j q k len last lw d = some r) : kthFinish K' i j q k len last lw d = some r := by
  unfold kthFinish at hr ⊢
  cases h1 : kthLoop K i j q k (k + 1) len last lw d with
  | none => simp [h1] at hr
  | some x =>
    rw [kthLoop_mono h _ _ _ _ _ h1]
    rw [h1] at hr
    exact hr

variable {T : Type _} [Zero W] [DecidableEq T] {A : CsAutomaton T W} {chart : DenseChart W} {filter : List Bool}

theorem kth_mono : ∀ (fuel fuel' : Nat), fuel ≤ fuel' → KthLe (kth A chart filter fuel) (kth A chart filter fuel')
  | 0, _, _ => fun i j q k d r hr => by simp [kth] at hr
  | fuel + 1, 0, h => by omega
  | fuel + 1, fuel' + 1, h => by
    intro i j q k d r hr
    have ih := kth_mono fuel fuel' (by omega)
    simp only [kth] at hr ⊢
    cases h1 : d.get (i, j, q) with
    | none =>
      rw [h1] at hr
      simp only at hr ⊢
      cases h2 : backtraces A chart filter i j q with
      | none => simp [h2] at hr
      | some bts =>
        rw [h2] at hr
        simp only at hr ⊢
        split
        · rename_i h3
          rw [h3] at hr
          exact hr
        · rename_i h3
          rw [h3] at hr
          exact kthFinish_mono ih hr
    | some cell =>
      rw [h1] at hr
      simp only at hr ⊢
      split
      · rename_i h3
        rw [h3] at hr
        exact hr
      · rename_i h3
        rw [h3] at hr
        exact kthFinish_mono ih hr

theorem readBt_mono : ∀ (fuel fuel' : Nat), fuel ≤ fuel' → ∀ (i j : Nat) (b : Backtrace W) (d : KCache W) r, readBt A chart filter fuel i j b d = some r →
    readBt A chart filter fuel' i j b d = some r
  | 0, _, _, i, j, b, d, r, hr => by simp [readBt] at hr
  | fuel + 1, 0, h, _, _, _, _, _, _ => by omega
  | fuel + 1, fuel' + 1, h, i, j, b, d, r, hr => by
    have hk := kth_mono (A := A) (chart := chart) (filter := filter) fuel fuel' (by omega)
    have ih := readBt_mono fuel fuel' (by omega)
    cases b with
    | nullary rid w => exact hr
    | unary rid q w k =>
      simp only [readBt] at hr ⊢
      cases h1 : kth A chart filter fuel i j q k d with
      | none => simp [h1] at hr
      | some x =>
        rw [hk _ _ _ _ _ _ h1]
        rw [h1] at hr
        rcases x with ⟨_ | r₁, d₁⟩
        · simp at hr
        · simp only at hr ⊢
          cases h2 : readBt A chart filter fuel i j r₁.1 d₁ with
          | none => simp [h2] at hr
          | some y =>
            rw [ih _ _ _ _ _ h2]
            rw [h2] at hr
            exact hr
    | binary rid q₁ m q₂ w k₁ k₂ =>
      simp only [readBt] at hr ⊢
      cases h1 : kth A chart filter fuel i m q₁ k₁ d with
      | none => simp [h1] at hr
      | some x =>
        rw [hk _ _ _ _ _ _ h1]
        rw [h1] at hr
        rcases x with ⟨_ | r₁, d₁⟩
        · simp at hr
        · simp only at hr ⊢
          cases h2 : kth A chart filter fuel m j q₂ k₂ d₁ with
          | none => simp [h2] at hr
          | some y =>
            rw [hk _ _ _ _ _ _ h2]
            rw [h2] at hr
            rcases y with ⟨_ | r₂, d₂⟩
            · simp at hr
            · simp only at hr ⊢
              cases h3 : A.brackets[rid]? with
              | none => simp [h3] at hr
              | some br =>
                rw [h3] at hr
                simp only at hr ⊢
                cases h4 : readBt A chart filter fuel i m r₁.1 d₂ with
                | none => simp [h4] at hr
                | some z =>
                  rw [ih _ _ _ _ _ h4]
                  rw [h4] at hr
                  simp only at hr ⊢
                  cases h5 : readBt A chart filter fuel m j r₂.1 z.2 with
                  | none => simp [h5] at hr
                  | some z' =>
                    rw [ih _ _ _ _ _ h5]
                    rw [h5] at hr
                    exact hr

theorem KIter.next_mono {fuel fuel' n : Nat} (h : fuel ≤ fuel') {it : KIter W} {r} (hr : it.next A chart filter fuel n = some r) :
    it.next A chart filter fuel' n = some r := by
  unfold KIter.next at hr ⊢
  cases h1 : kth A chart filter fuel 0 (u8 n) A.initial it.k it.d with
  | none => simp [h1] at hr
  | some x =>
    rw [kth_mono fuel fuel' h _ _ _ _ _ _ h1]
    rw [h1] at hr
    rcases x with ⟨_ | r₁, d₁⟩
    · exact hr
    · simp only at hr ⊢
      cases h2 : readBt A chart filter fuel 0 (u8 n) r₁.1 d₁ with
      | none => simp [h2] at hr
      | some y =>
        rw [readBt_mono fuel fuel' h _ _ _ _ _ h2]
        rw [h2] at hr
        exact hr

/-- The results do not depend on the bound. -/
theorem KIter.run_mono {fuel fuel' n : Nat} (h : fuel ≤ fuel') : ∀ (m : Nat) {it : KIter W} {r}, KIter.run A chart filter fuel n m it = some r →
    KIter.run A chart filter fuel' n m it = some r
  | 0, it, r, hr => hr
  | m + 1, it, r, hr => by
    simp only [KIter.run] at hr ⊢
    cases h1 : it.next A chart filter fuel n with
    | none => simp [h1] at hr
    | some x =>
      rw [KIter.next_mono h h1]
      rw [h1] at hr
      simp only [Option.map_eq_some_iff] at hr ⊢
      obtain ⟨l, hl, rfl⟩ := hr
      exact ⟨l, KIter.run_mono h m hl, rfl⟩

end mono

/-! ### soundness without assumptions about the weights -/

section sound
variable {N T W : Type _} [DecidableEq N] [DecidableEq T] [Zero W] [Mul W] [LinearOrder W]

/-- A backtrace uses a rule of the grammar and parts in the chart. -/
def BtOk (G : BinGrammar T W) (inChart : Nat → Nat → Nat → Prop) (i j q : Nat) : Backtrace W → Prop
  | .nullary rid w => j = i + 1 ∧ ∃ a, G.nullary rid q a w
  | .unary rid q₁ w _ => G.unary rid q q₁ w ∧ inChart i j q₁
  | .binary rid q₁ m q₂ w _ _ => i < m ∧ m < j ∧ G.binary rid q q₁ q₂ w ∧ inChart i m q₁ ∧ inChart m j q₂

/-- All backtraces in the cache are of this form. -/
def CacheBt (G : BinGrammar T W) (inChart : Nat → Nat → Nat → Prop) (d : KCache W) : Prop :=
  ∀ i j q cell, d.get (i, j, q) = some cell → (∀ x ∈ cell.1, BtOk G inChart i j q x.1) ∧ ∀ x ∈ cell.2, BtOk G inChart i j q x.2

/-- A function that returns such backtraces and keeps the cache in order. -/
def KthBt (G : BinGrammar T W) (inChart : Nat → Nat → Nat → Prop) (K : KthFn W) : Prop :=
  ∀ i j q k d o d', CacheBt G inChart d → K i j q k d = some (o, d') → CacheBt G inChart d' ∧ ∀ r, o = some r → BtOk G inChart i j q r.1

variable {G : BinGrammar T W} {inChart : Nat → Nat → Nat → Prop}

omit [DecidableEq T] in
theorem BtOk.succs {i j q : Nat} {b b' : Backtrace W} (h : BtOk G inChart i j q b) (hb : b' ∈ b.succs) : BtOk G inChart i j q b' := by
  cases b with
  | nullary rid w => simp [Backtrace.succs] at hb
  | unary rid q₁ w k =>
    simp only [Backtrace.succs, List.mem_singleton] at hb
    subst hb
    exact h
  | binary rid q₁ m q₂ w k₁ k₂ =>
    simp only [Backtrace.succs, List.mem_cons, List.not_mem_nil, or_false] at hb
    rcases hb with rfl | rfl <;> exact h

omit [DecidableEq T] in
theorem btWeight_bt {K : KthFn W} (hK : KthBt G inChart K) {i j : Nat} {b : Backtrace W} {d d' : KCache W} {o : Option W} (hd : CacheBt G inChart d)
    (h : btWeight K i j b d = some (o, d')) : CacheBt G inChart d' := by
  cases b with
  | nullary rid w =>
    simp only [btWeight, Option.some.injEq, Prod.mk.injEq] at h
    exact h.2 ▸ hd
  | unary rid q₁ w k =>
    simp only [btWeight] at h
    cases h1 : K i j q₁ k d with
    | none => simp [h1] at h
    | some x =>
      rw [h1] at h
      have := (hK _ _ _ _ _ _ _ hd h1).1
      rcases x with ⟨_ | r, d₁⟩ <;> simp only [Option.some.injEq, Prod.mk.injEq] at h <;> exact h.2 ▸ this
  | binary rid q₁ m q₂ w k₁ k₂ =>
    simp only [btWeight] at h
    cases h1 : K i m q₁ k₁ d with
    | none => simp [h1] at h
    | some x =>
      rw [h1] at h
      have g1 := (hK _ _ _ _ _ _ _ hd h1).1
      rcases x with ⟨_ | r, d₁⟩
      · simp only [Option.some.injEq, Prod.mk.injEq] at h
        exact h.2 ▸ g1
      · simp only at h
        cases h2 : K m j q₂ k₂ d₁ with
        | none => simp [h2] at h
        | some y =>
          rw [h2] at h
          have g2 := (hK _ _ _ _ _ _ _ g1 h2).1
          rcases y with ⟨_ | r, d₂⟩ <;> simp only [Option.some.injEq, Prod.mk.injEq] at h <;> exact h.2 ▸ g2

omit [DecidableEq T] in
theorem btWorse_bt {K : KthFn W} (hK : KthBt G inChart K) {i j : Nat} : ∀ (bs : List (Backtrace W)) {d d' : KCache W} {l}, CacheBt G inChart d →
    btWorse K i j bs d = some (l, d') → CacheBt G inChart d' ∧ ∀ x ∈ l, x.1 ∈ bs
  | [], d, d', l, hd, h => by
    simp only [btWorse, Option.some.injEq, Prod.mk.injEq] at h
    obtain ⟨rfl, rfl⟩ := h
    exact ⟨hd, by simp⟩
  | b :: bs, d, d', l, hd, h => by
    simp only [btWorse] at h
    cases h1 : btWeight K i j b d with
    | none => simp [h1] at h
    | some x =>
      rw [h1] at h
      simp only at h
      have g1 := btWeight_bt hK hd h1
      cases h2 : btWorse K i j bs x.2 with
      | none => simp [h2] at h
      | some y =>
        rw [h2] at h
        simp only [Option.some.injEq, Prod.mk.injEq] at h
        obtain ⟨g2, g3⟩ := btWorse_bt hK bs g1 h2
        obtain ⟨rfl, rfl⟩ := h
        refine ⟨g2, fun z hz => ?_⟩
        split at hz
        · exact List.mem_cons_of_mem _ (g3 z hz)
        · rw [List.mem_cons] at hz
          rcases hz with rfl | hz
          · exact List.mem_cons_self ..
          · exact List.mem_cons_of_mem _ (g3 z hz)

omit [DecidableEq T] in
theorem CacheBt.set {d : KCache W} (hd : CacheBt G inChart d) {i j q : Nat} {cell : List (Backtrace W × W) × List (W × Backtrace W)}
    (h1 : ∀ x ∈ cell.1, BtOk G inChart i j q x.1) (h2 : ∀ x ∈ cell.2, BtOk G inChart i j q x.2) : CacheBt G inChart (d.set (i, j, q) cell) := by
  intro i' j' q' cell' h
  rw [AMap.get_set] at h
  split at h
  · rename_i he
    cases he
    cases h
    exact ⟨h1, h2⟩
  · exact hd _ _ _ _ h

omit [DecidableEq T] in
theorem btPush_foldl_sub {l : List (Backtrace W × W)} : ∀ {h : List (W × Backtrace W)} {x}, x ∈ l.foldl (fun h c => btPush h c.1 c.2) h →
    x ∈ h ∨ (x.2, x.1) ∈ l := by
  induction l with
  | nil => intro h x hx; exact .inl hx
  | cons c l ih =>
    intro h x hx
    rcases ih hx with h1 | h1
    · simp only [btPush] at h1
      split at h1
      · exact .inl h1
      · rw [List.mem_append, List.mem_singleton] at h1
        rcases h1 with h1 | rfl
        · exact .inl h1
        · exact .inr (List.mem_cons_self ..)
    · exact .inr (List.mem_cons_of_mem _ h1)

omit [DecidableEq T] in
theorem kthLoop_bt {K : KthFn W} (hK : KthBt G inChart K) {i j q k : Nat} : ∀ (fuel len : Nat) (last : Backtrace W) (lw : W) (d : KCache W) {r},
    CacheBt G inChart d → BtOk G inChart i j q last → kthLoop K i j q k fuel len last lw d = some r → CacheBt G inChart r.2.2.2 ∧ BtOk G inChart i j q r.2.1
  | fuel, len, last, lw, d, r, hd, hl, hr => by
    unfold kthLoop at hr
    split at hr
    · cases fuel with
      | zero => simp at hr
      | succ fuel =>
        simp only at hr
        cases h1 : btWorse K i j last.succs d with
        | none => simp [h1] at hr
        | some x =>
          rw [h1] at hr
          simp only at hr
          obtain ⟨g1, g2⟩ := btWorse_bt hK _ hd h1
          cases h2 : x.2.get (i, j, q) with
          | none => simp [h2] at hr
          | some y =>
            rw [h2] at hr
            simp only at hr
            obtain ⟨g3, g4⟩ := g1 _ _ _ _ h2
            split at hr
            · cases hr
              exact ⟨g1.set g3 (by simp), hl⟩
            · rename_i w b rest h3
              obtain ⟨hm, hs⟩ : (w, b) ∈ x.1.foldl (fun h c => btPush h c.1 c.2) y.2 ∧ ∀ z ∈ rest, z ∈ x.1.foldl (fun h c => btPush h c.1 c.2) y.2 := by
                have := btPop_some h3
                exact ⟨this.1.mem_iff.2 (List.mem_cons_self ..), fun z hz => this.1.mem_iff.2 (List.mem_cons_of_mem _ hz)⟩
              have hall : ∀ z ∈ x.1.foldl (fun h c => btPush h c.1 c.2) y.2, BtOk G inChart i j q z.2 := by
                intro z hz
                rcases btPush_foldl_sub hz with h | h
                · exact g4 _ h
                · exact hl.succs (g2 _ h)
              refine kthLoop_bt hK fuel _ _ _ _ (g1.set ?_ fun z hz => hall z (hs z hz)) (hall _ hm) hr
              intro z hz
              rw [List.mem_append, List.mem_singleton] at hz
              rcases hz with hz | rfl
              · exact g3 z hz
              · exact hall _ hm
    · cases hr
      exact ⟨hd, hl⟩

omit [DecidableEq T] in
theorem kthFinish_bt {K : KthFn W} (hK : KthBt G inChart K) {i j q k len : Nat} {last : Backtrace W} {lw : W} {d : KCache W} {o d'}
    (hd : CacheBt G inChart d) (hl : BtOk G inChart i j q last) (hr : kthFinish K i j q k len last lw d = some (o, d')) :
    CacheBt G inChart d' ∧ ∀ r, o = some r → BtOk G inChart i j q r.1 := by
  unfold kthFinish at hr
  cases h1 : kthLoop K i j q k (k + 1) len last lw d with
  | none => simp [h1] at hr
  | some x =>
    rw [h1] at hr
    obtain ⟨g1, g2⟩ := kthLoop_bt hK _ _ _ _ _ hd hl h1
    simp only at hr
    split at hr
    · cases hr
      exact ⟨g1, fun r hr => by cases hr; exact g2⟩
    · cases hr
      exact ⟨g1, fun r hr => by cases hr⟩
    · cases h2 : x.2.2.2.get (i, j, q) with
      | none => simp [h2] at hr
      | some y =>
        rw [h2] at hr
        simp only at hr
        split at hr
        · cases hr
        · rename_i r h3
          cases hr
          refine ⟨g1, fun r hr => ?_⟩
          cases hr
          exact (g1 _ _ _ _ h2).1 _ (List.mem_of_getElem? h3)

variable {A : CsAutomaton T W} {st : List (CsState N)} {ps : List (CsProd N T W × TdBrackets)} {filter : List Bool} {chart : DenseChart W}

theorem btPush_foldl_sub' {l : List (W × Backtrace W)} : ∀ {h : List (W × Backtrace W)} {x}, x ∈ l.foldl (fun h c => btPush h c.2 c.1) h → x ∈ h ∨ x ∈ l := by
  induction l with
  | nil => intro h x hx; exact .inl hx
  | cons c l ih =>
    intro h x hx
    rcases ih hx with h1 | h1
    · simp only [btPush] at h1
      split at h1
      · exact .inl h1
      · rw [List.mem_append, List.mem_singleton] at h1
        rcases h1 with h1 | rfl
        · exact .inl h1
        · exact .inr (List.mem_cons_self ..)
    · exact .inr (List.mem_cons_of_mem _ h1)

theorem backtraces_bt (hA : A.Rep st ps) {i j q : Nat} {bts : List (W × Backtrace W)} (h : backtraces A chart filter i j q = some bts) :
    ∀ x ∈ bts, BtOk (buGrammar A filter) (fun i j q => ∃ w, chart.getWeight i j q = some (some w)) i j q x.2 := by
  rw [hA.grammar]
  unfold backtraces at h
  split at h
  · cases h
  split at h
  · rename_i hij bs us ns hbs hus hns
    split at h
    · rename_i l₁ l₂ l₃ h1 h2 h3
      cases h
      intro x hx
      rcases btPush_foldl_sub' hx with hx | hx
      · simp at hx
      rw [List.mem_append, List.mem_append] at hx
      rcases hx with (hx | hx) | hx
      · rw [flatMapP_mem h1] at hx
        obtain ⟨b, hb, l, hl, hx⟩ := hx
        obtain ⟨Q, L, R, hp, hQ, hL, hR⟩ := (hA.tdBin q b).1 ⟨_, hbs, hb⟩
        unfold btBinaries at hl
        split at hl
        · cases hl
        · cases hl
          simp at hx
        · rename_i hf
          rw [filterMapP_mem hl] at hx
          obtain ⟨m, hm, hx⟩ := hx
          rw [List.mem_range'_1] at hm
          unfold btBinary at hx
          split at hx
          · cases hx
          · cases hx
          · rename_i lew h4
            split at hx
            · cases hx
            · cases hx
            · rename_i riw h5
              cases hx
              exact ⟨by omega, by omega, ⟨hf, Q, L, R, hp, hQ, hL, hR⟩, ⟨lew, h4⟩, ⟨riw, h5⟩⟩
      · rw [filterMapP_mem h2] at hx
        obtain ⟨b, hb, hx⟩ := hx
        obtain ⟨Q, S, hp, hQ, hS⟩ := (hA.tdUn q b).1 ⟨_, hus, hb⟩
        unfold btUnary at hx
        split at hx
        · cases hx
        · cases hx
        · rename_i hf
          split at hx
          · cases hx
          · cases hx
          · rename_i w₁ h4
            cases hx
            exact ⟨⟨hf, Q, S, hp, hQ, hS⟩, w₁, h4⟩
      · rw [filterMapP_mem h3] at hx
        obtain ⟨b, hb, hx⟩ := hx
        split at hns
        · obtain ⟨Q, a, hp, hQ⟩ := (hA.tdInit q b).1 ⟨_, hns, hb⟩
          unfold btNullary at hx
          split at hx
          · cases hx
          · cases hx
          · rename_i hf
            cases hx
            exact ⟨by omega, a, hf, Q, hp, hQ⟩
        · cases hns
          simp at hb
    · cases h
  · cases h

theorem kth_bt (hA : A.Rep st ps) : ∀ fuel : Nat, KthBt (buGrammar A filter) (fun i j q => ∃ w, chart.getWeight i j q = some (some w)) (kth A chart filter fuel)
  | 0 => fun i j q k d o d' hd h => by simp [kth] at h
  | fuel + 1 => fun i j q k d o d' hd h => by
    have ih := kth_bt hA fuel
    simp only [kth] at h
    cases h1 : d.get (i, j, q) with
    | none =>
      rw [h1] at h
      simp only at h
      cases h2 : backtraces A chart filter i j q with
      | none => simp [h2] at h
      | some bts =>
        rw [h2] at h
        simp only at h
        have hb := backtraces_bt hA h2
        split at h
        · cases h
          exact ⟨hd.set (by simp) (by simp), fun r hr => by cases hr⟩
        · rename_i w b rest h3
          have hp := (btPop_some h3).1
          have hb0 := hb _ (hp.mem_iff.2 (List.mem_cons_self ..))
          refine kthFinish_bt ih (hd.set ?_ fun z hz => hb _ (hp.mem_iff.2 (List.mem_cons_of_mem _ hz))) hb0 h
          simp only [List.mem_singleton]
          rintro z rfl
          exact hb0
    | some cell =>
      rw [h1] at h
      simp only at h
      split at h
      · cases h
        exact ⟨hd, fun r hr => by cases hr⟩
      · rename_i b w h3
        exact kthFinish_bt ih hd ((hd _ _ _ _ h1).1 _ (List.mem_of_getLast? h3)) h

/-- `read` returns bracket words of derivations in the chart. -/
theorem readBt_bt (hA : A.Rep st ps) (hbr : BracketsOK (buGrammar A filter) A.brackets) : ∀ (fuel : Nat) {i j q : Nat} {b : Backtrace W} {d : KCache W} {v d'},
    CacheBt (buGrammar A filter) (fun i j q => ∃ w, chart.getWeight i j q = some (some w)) d →
    BtOk (buGrammar A filter) (fun i j q => ∃ w, chart.getWeight i j q = some (some w)) i j q b → readBt A chart filter fuel i j b d = some (v, d') →
    CacheBt (buGrammar A filter) (fun i j q => ∃ w, chart.getWeight i j q = some (some w)) d' ∧
    ∃ t w, ChartDerives (buGrammar A filter) (fun i j q => ∃ w, chart.getWeight i j q = some (some w)) i j q t w ∧ treeWord A.brackets t = some v
  | 0, i, j, q, b, d, v, d', hd, hb, h => by simp [readBt] at h
  | fuel + 1, i, j, q, b, d, v, d', hd, hb, h => by
    have hk := kth_bt (filter := filter) (chart := chart) hA fuel
    have ih := @readBt_bt hA hbr fuel
    cases b with
    | nullary rid w =>
      obtain ⟨rfl, a, ha⟩ := hb
      obtain ⟨br, h1, h2, h3⟩ := hbr.nullary ha
      simp only [readBt, h1, Option.some.injEq, Prod.mk.injEq] at h
      obtain ⟨rfl, rfl⟩ := h
      exact ⟨hd, _, _, .nullary ha, by simp [treeWord, h1, inBrackets_eq h2, inBrackets_eq h3]⟩
    | unary rid q₁ w k =>
      obtain ⟨hu, hc⟩ := hb
      obtain ⟨br, g1, g2, g3⟩ := hbr.unary hu
      simp only [readBt] at h
      cases h1 : kth A chart filter fuel i j q₁ k d with
      | none => simp [h1] at h
      | some x =>
        rw [h1] at h
        obtain ⟨f1, f2⟩ := hk _ _ _ _ _ _ _ hd h1
        rcases x with ⟨_ | r₁, d₁⟩
        · simp at h
        · simp only at h
          cases h2 : readBt A chart filter fuel i j r₁.1 d₁ with
          | none => simp [h2] at h
          | some y =>
            rw [h2] at h
            simp only [g1, Option.some.injEq, Prod.mk.injEq] at h
            obtain ⟨rfl, rfl⟩ := h
            obtain ⟨e1, t, w', e2, e3⟩ := ih f1 (f2 _ rfl) h2
            exact ⟨e1, _, _, .unary hu hc e2, by simp [treeWord, g1, e3, inBrackets_eq g2, inBrackets_eq g3]⟩
    | binary rid q₁ m q₂ w k₁ k₂ =>
      obtain ⟨hm1, hm2, hu, hc₁, hc₂⟩ := hb
      obtain ⟨br, g1, g2⟩ := hbr.binary hu
      simp only [readBt] at h
      cases h1 : kth A chart filter fuel i m q₁ k₁ d with
      | none => simp [h1] at h
      | some x =>
        rw [h1] at h
        obtain ⟨f1, f2⟩ := hk _ _ _ _ _ _ _ hd h1
        rcases x with ⟨_ | r₁, d₁⟩
        · simp at h
        · simp only at h
          cases h2 : kth A chart filter fuel m j q₂ k₂ d₁ with
          | none => simp [h2] at h
          | some y =>
            rw [h2] at h
            obtain ⟨f3, f4⟩ := hk _ _ _ _ _ _ _ f1 h2
            rcases y with ⟨_ | r₂, d₂⟩
            · simp at h
            · simp only [g1] at h
              cases h4 : readBt A chart filter fuel i m r₁.1 d₂ with
              | none => simp [h4] at h
              | some z =>
                rw [h4] at h
                simp only at h
                obtain ⟨e1, t₁, w₁, e2, e3⟩ := ih f3 (f2 _ rfl) h4
                cases h5 : readBt A chart filter fuel m j r₂.1 z.2 with
                | none => simp [h5] at h
                | some z' =>
                  rw [h5] at h
                  simp only [Option.some.injEq, Prod.mk.injEq] at h
                  obtain ⟨rfl, rfl⟩ := h
                  obtain ⟨e1', t₂, w₂, e2', e3'⟩ := ih e1 (f4 _ rfl) h5
                  exact ⟨e1', _, _, .binary hm1 hm2 hu hc₁ hc₂ e2 e2', by simp [treeWord, g1, e3, e3', bracketed_eq, inBrackets_eq g2]⟩

/-- The iterator returns bracket words of derivations in the chart. -/
theorem KIter.run_bt (hA : A.Rep st ps) (hbr : BracketsOK (buGrammar A filter) A.brackets) {n : Nat} (hn : n ≤ 255) {fuel : Nat} : ∀ (m : Nat) {it : KIter W} {out},
    CacheBt (buGrammar A filter) (fun i j q => ∃ w, chart.getWeight i j q = some (some w)) it.d → KIter.run A chart filter fuel n m it = some out →
    ∀ v, some v ∈ out →
    ∃ t w, ChartDerives (buGrammar A filter) (fun i j q => ∃ w, chart.getWeight i j q = some (some w)) 0 n A.initial t w ∧ treeWord A.brackets t = some v
  | 0, it, out, hd, h, v, hv => by
    simp only [KIter.run, Option.some.injEq] at h
    subst h
    simp at hv
  | m + 1, it, out, hd, h, v, hv => by
    have hu : u8 n = n := Nat.mod_eq_of_lt (by omega)
    simp only [KIter.run] at h
    cases h1 : it.next A chart filter fuel n with
    | none => simp [h1] at h
    | some x =>
      rw [h1] at h
      simp only [Option.map_eq_some_iff] at h
      obtain ⟨l, hl, rfl⟩ := h
      unfold KIter.next at h1
      rw [hu] at h1
      cases h2 : kth A chart filter fuel 0 n A.initial it.k it.d with
      | none => simp [h2] at h1
      | some y =>
        rw [h2] at h1
        obtain ⟨f1, f2⟩ := kth_bt hA fuel _ _ _ _ _ _ _ hd h2
        rw [List.mem_cons] at hv
        rcases y with ⟨_ | r, d⟩
        · cases h1
          rcases hv with hv | hv
          · cases hv
          · exact KIter.run_bt hA hbr hn m f1 hl v hv
        · simp only at h1
          cases h3 : readBt A chart filter fuel 0 n r.1 d with
          | none => simp [h3] at h1
          | some z =>
            rw [h3] at h1
            cases h1
            obtain ⟨e1, e2⟩ := readBt_bt hA hbr fuel f1 (f2 _ rfl) h3
            rcases hv with hv | hv
            · cases hv
              exact e2
            · exact KIter.run_bt hA hbr hn m e1 hl v hv

end sound

end Rustomata
