import Verif.Proofs.CsKBestStreamKth

/-!
# The derivations of the elements of the streams
-/

namespace Rustomata
open Spec KForest

section
variable {W : Type _} [RoundedWeight W]

/-- Candidates are initial candidates or successors with their weights. -/
theorem pstate_origin {val : Backtrace W → Option W} {h : List (W × Backtrace W)} (n : Nat) : ∀ {s}, pstate val h n = some s →
    ∀ y ∈ s.2, y ∈ h ∨ (val y.2 = some y.1 ∧ 0 < y.2.depth) := by
  induction n with
  | zero =>
    intro s hs y hy
    obtain rfl := Option.some.inj hs
    exact .inl hy
  | succ n ih =>
    intro s hs y hy
    obtain ⟨s₀, b, w, h1, h2, h3⟩ := pstate_succ.1 hs
    rw [pstep_some] at h2
    obtain ⟨hperm, _⟩ := btPop_some h2
    rcases pushAll_mem _ (hperm.mem_iff.2 (List.mem_cons_of_mem _ hy)) with hy | hy
    · exact ih h1 y hy
    · obtain ⟨g1, g2⟩ := mem_weighted.1 hy
      cases he : s₀.1 with
      | none => rw [he] at g1; cases g1
      | some b₀ =>
        rw [he] at g1
        exact .inr ⟨g2, by rw [Backtrace.depth_succs g1]; omega⟩

theorem pelem_origin {val : Backtrace W → Option W} {h : List (W × Backtrace W)} {n : Nat} {b : Backtrace W} {w : W} (hp : pelem val h n = some (b, w)) :
    (w, b) ∈ h ∨ (val b = some w ∧ 0 < b.depth) := by
  obtain ⟨s₀, r, h1, h2, _⟩ := pelem_some.1 hp
  rw [pstep_some] at h2
  obtain ⟨hperm, _⟩ := btPop_some h2
  rcases pushAll_mem _ (hperm.mem_iff.2 (List.mem_cons_self ..)) with hy | hy
  · exact pstate_origin n h1 _ hy
  · obtain ⟨g1, g2⟩ := mem_weighted.1 hy
    cases he : s₀.1 with
    | none => rw [he] at g1; cases g1
    | some b₀ =>
      rw [he] at g1
      exact .inr ⟨g2, by rw [Backtrace.depth_succs g1]; omega⟩

theorem btW_args {g : Nat → Nat → Nat → Nat → Option W} {i j : Nat} {b : Backtrace W} : (∃ w, btW g i j b = some w) ↔ ∀ a ∈ b.args i j, ∃ w, g a.1 a.2.1 a.2.2.1 a.2.2.2 = some w := by
  cases b with
  | nullary => simp [btW, Backtrace.args]
  | unary r q w k => simp [btW, Backtrace.args]
  | binary r q₁ m q₂ w k₁ k₂ =>
    simp only [btW, Backtrace.args, List.mem_cons, List.not_mem_nil, or_false, forall_eq_or_imp, forall_eq, Option.bind_eq_some_iff, Option.map_eq_some_iff]
    constructor
    · rintro ⟨w, w₁, h1, w₂, h2, _⟩
      exact ⟨⟨w₁, h1⟩, w₂, h2⟩
    · rintro ⟨⟨w₁, h1⟩, w₂, h2⟩
      exact ⟨_, w₁, h1, w₂, h2, rfl⟩

variable {F : KForest W} {h0 : Nat → Nat → Nat → List (W × Backtrace W)} {M : Nat}

/-- The streams of items in the chart have a first element. -/
theorem StreamForest.elem_zero (hF : StreamForest F h0 M) {i j q : Nat} (hok : F.ok i j q) {w : W} (hw : F.cw i j q = some w) : ∃ p, elem F h0 M i j q 0 = some p := by
  have hne := hF.nonempty hok hw
  rw [← hF.map] at hne
  cases hp : btPop (h0 i j q) with
  | none =>
    rw [btPop_none] at hp
    rw [hp] at hne
    exact absurd rfl hne
  | some x =>
    refine ⟨(x.1.2, x.1.1), ?_⟩
    rw [hF.elem_eq hok]
    simp only [pelem, pstate, Option.bind_some, pstep, succsOf, weighted, List.filterMap_nil, pushAll, List.foldl_nil, hp, Option.map_some]

omit [RoundedWeight W] in
theorem Backtrace.args_zero {i j : Nat} {b : Backtrace W} (hb : b.base = b) {a : Nat × Nat × Nat × Nat} (ha : a ∈ b.args i j) : a.2.2.2 = 0 := by
  cases b with
  | nullary => cases ha
  | unary =>
    simp only [base, unary.injEq, true_and] at hb
    simp only [args, List.mem_singleton] at ha
    rw [ha, ← hb]
  | binary =>
    simp only [base, binary.injEq, true_and] at hb
    obtain ⟨rfl, rfl⟩ := hb
    simp only [args, List.mem_cons, List.not_mem_nil, or_false] at ha
    rcases ha with rfl | rfl <;> rfl

/-- Backtraces of the chart have weights. -/
theorem StreamForest.zero_weight (hF : StreamForest F h0 M) {i j q : Nat} (hok : F.ok i j q) {b : Backtrace W} (hb : b ∈ F.I i j q) :
    ∃ w, btW (elemWt F h0 M) i j b = some w := by
  rw [btW_args]
  intro a ha
  obtain ⟨h1, w, h2⟩ := hF.kids hok hb _ (Backtrace.args_kids ha).1
  obtain ⟨p, hp⟩ := hF.elem_zero h1 h2
  refine ⟨p.2, ?_⟩
  rw [Backtrace.args_zero (hF.base hb) ha, elemWt]
  simp only at hp
  rw [hp]
  rfl

/-- The elements refer to elements with smaller measures. -/
theorem StreamForest.elem_spec (hF : StreamForest F h0 M) {i j q k : Nat} (hok : F.ok i j q) {b : Backtrace W} {w : W} (h : elem F h0 M i j q k = some (b, w)) :
    b.base ∈ F.I i j q ∧ ((w, b) ∈ h0 i j q ∨ (btW (elemWt F h0 M) i j b = some w ∧ 0 < b.depth)) ∧ (∃ w', btW (elemWt F h0 M) i j b = some w') ∧
      ∀ a ∈ b.args i j, F.ok a.1 a.2.1 a.2.2.1 ∧ smeasure F M a.1 a.2.1 a.2.2.1 a.2.2.2 < smeasure F M i j q k ∧ ∃ p, elem F h0 M a.1 a.2.1 a.2.2.1 a.2.2.2 = some p := by
  rw [hF.elem_eq hok] at h
  have ho := pelem_origin h
  obtain ⟨_, _, _, _, hst⟩ := pelem_some.1 h
  obtain ⟨⟨b₀, hb₀, hnear⟩, _⟩ := hF.near k hst
  simp only [Option.some.injEq] at hb₀
  subst hb₀
  have hval : ∃ w', btW (elemWt F h0 M) i j b = some w' := by
    rcases ho with ho | ho
    · refine hF.zero_weight hok ?_
      rw [← hF.map]
      exact List.mem_map_of_mem (f := Prod.snd) ho
    · exact ⟨w, ho.1⟩
  refine ⟨hnear.1, ho, hval, fun a ha => ?_⟩
  obtain ⟨h1, h2⟩ := hnear.args hF hok ha
  obtain ⟨v, hv⟩ := btW_args.1 hval a ha
  rw [elemWt, Option.map_eq_some_iff] at hv
  obtain ⟨p, hp, _⟩ := hv
  exact ⟨h1, h2, p, hp⟩

/-- `DenotesS E i j b t`: the backtrace `b` for the span from `i` to `j` stands for the derivation `t`. -/
inductive DenotesS (E : Nat → Nat → Nat → Nat → Option (Backtrace W × W)) : Nat → Nat → Backtrace W → BinTree → Prop
  | nullary {i j rid : Nat} {w : W} : DenotesS E i j (.nullary rid w) (.nullary rid)
  | unary {i j rid q k : Nat} {w : W} {p : Backtrace W × W} {t : BinTree} : E i j q k = some p → DenotesS E i j p.1 t →
      DenotesS E i j (.unary rid q w k) (.unary rid t)
  | binary {i j rid q₁ m q₂ k₁ k₂ : Nat} {w : W} {p₁ p₂ : Backtrace W × W} {t₁ t₂ : BinTree} : E i m q₁ k₁ = some p₁ → E m j q₂ k₂ = some p₂ →
      DenotesS E i m p₁.1 t₁ → DenotesS E m j p₂.1 t₂ → DenotesS E i j (.binary rid q₁ m q₂ w k₁ k₂) (.binary rid m t₁ t₂)

omit [RoundedWeight W] in
theorem DenotesS.det {E : Nat → Nat → Nat → Nat → Option (Backtrace W × W)} {i j : Nat} {b : Backtrace W} {t t' : BinTree} (h : DenotesS E i j b t)
    (h' : DenotesS E i j b t') : t = t' := by
  induction h generalizing t' with
  | nullary => cases h'; rfl
  | unary h1 _ ih =>
    cases h' with
    | unary h2 h3 =>
      rw [h1] at h2
      cases h2
      rw [ih h3]
  | binary h1 h2 _ _ ih₁ ih₂ =>
    cases h' with
    | binary g1 g2 g3 g4 =>
      rw [h1] at g1
      rw [h2] at g2
      cases g1
      cases g2
      rw [ih₁ g3, ih₂ g4]

variable {T : Type _} {G : BinGrammar T W}

/-- `read` returns the bracket word of a derivation in the chart. -/
theorem readBt_s [DecidableEq T] {A : CsAutomaton T W} {chart : DenseChart W} {filter : List Bool} (hF : StreamForest F h0 M) (hB : BtAt A chart filter F h0)
    (hG : ForestOf G F) (hbr : BracketsOK G A.brackets) (fuel : Nat) : ∀ {i j q k b w d}, F.ok i j q → smeasure F M i j q k < fuel → elem F h0 M i j q k = some (b, w) →
    CacheS F h0 M d → ∃ t v u d', DenotesS (elem F h0 M) i j b t ∧ ChartDerives G (fun i j q => ∃ w, F.cw i j q = some w) i j q t u ∧ treeWord A.brackets t = some v ∧
      readBt A chart filter fuel i j b d = some (v, d') ∧ CacheS F h0 M d' := by
  induction fuel with
  | zero => intro i j q k b w d _ h; omega
  | succ fuel ih =>
    intro i j q k b w d hok hr hm hd
    obtain ⟨hb, _, _, hk⟩ := hF.elem_spec hok hm
    cases b with
    | nullary rid v =>
      obtain ⟨rfl, a, ha⟩ := (hG.nullary hok).1 hb
      obtain ⟨br, h1, h2, h3⟩ := hbr.nullary ha
      refine ⟨_, inBrackets br.outer (inBrackets br.left []), _, d, .nullary, .nullary ha, by simp [treeWord, h1], ?_, hd⟩
      simp [readBt, h1, inBrackets_eq h2, inBrackets_eq h3]
    | unary rid q₁ v k₁ =>
      obtain ⟨_, hu, hc⟩ := (hG.unary hok).1 hb
      obtain ⟨br, g1, g2, g3⟩ := hbr.unary hu
      obtain ⟨h1, h2, p, hp⟩ := hk (i, j, q₁, k₁) (by simp [Backtrace.args])
      simp only at h1 h2 hp
      obtain ⟨d₁, e1, e2, _⟩ := kth_s hF hB fuel i j q₁ k₁ d h1 (by omega) hd
      obtain ⟨t, v₁, u, d₂, f1, f5, f2, f3, f4⟩ := ih (b := p.1) (w := p.2) h1 (by omega) hp e2
      refine ⟨_, inBrackets br.outer (inBrackets br.left v₁), _, d₂, .unary hp f1, .unary hu hc f5, by simp [treeWord, g1, f2], ?_, f4⟩
      simp [readBt, e1, hp, f3, g1, inBrackets_eq g2, inBrackets_eq g3]
    | binary rid q₁ m q₂ v k₁ k₂ =>
      obtain ⟨_, _, h3, h4, hu, hc₁, hc₂⟩ := (hG.binary hok).1 hb
      obtain ⟨br, g1, g2⟩ := hbr.binary hu
      obtain ⟨h1, h2, p₁, hp₁⟩ := hk (i, m, q₁, k₁) (by simp [Backtrace.args])
      obtain ⟨h1', h2', p₂, hp₂⟩ := hk (m, j, q₂, k₂) (by simp [Backtrace.args])
      simp only at h1 h2 hp₁ h1' h2' hp₂
      obtain ⟨d₁, e1, e2, _⟩ := kth_s hF hB fuel i m q₁ k₁ d h1 (by omega) hd
      obtain ⟨d₂, e1', e2', _⟩ := kth_s hF hB fuel m j q₂ k₂ d₁ h1' (by omega) e2
      obtain ⟨t₁, v₁, u₁, d₃, f1, f5, f2, f3, f4⟩ := ih (b := p₁.1) (w := p₁.2) h1 (by omega) hp₁ e2'
      obtain ⟨t₂, v₂, u₂, d₄, f1', f5', f2', f3', f4'⟩ := ih (b := p₂.1) (w := p₂.2) h1' (by omega) hp₂ f4
      refine ⟨_, inBrackets br.outer (inBrackets br.left v₁ ++ inBrackets br.right v₂), _, d₄, .binary hp₁ hp₂ f1 f1', .binary h3 h4 hu hc₁ hc₂ f5 f5',
        by simp [treeWord, g1, f2, f2'], ?_, f4'⟩
      simp [readBt, e1, hp₁, e1', hp₂, f3, f3', g1, bracketed_eq, inBrackets_eq g2]

/-- The derivation and the word of an element of the stream. -/
theorem elem_word [DecidableEq T] {A : CsAutomaton T W} {chart : DenseChart W} {filter : List Bool} (hF : StreamForest F h0 M) (hB : BtAt A chart filter F h0) (hG : ForestOf G F)
    (hbr : BracketsOK G A.brackets) {i j q k : Nat} (hok : F.ok i j q) {p : Backtrace W × W} (hp : elem F h0 M i j q k = some p) :
    ∃ t v u, DenotesS (elem F h0 M) i j p.1 t ∧ ChartDerives G (fun i j q => ∃ w, F.cw i j q = some w) i j q t u ∧ treeWord A.brackets t = some v := by
  obtain ⟨t, v, u, _, h1, h2, h3, _⟩ := readBt_s hF hB hG hbr _ (b := p.1) (w := p.2) (d := []) hok (Nat.lt_succ_self _) hp (by intro i j q cell h; cases h)
  exact ⟨t, v, u, h1, h2, h3⟩

/-- The iterator returns the bracket words of the elements of the stream. -/
theorem run_s [DecidableEq T] {A : CsAutomaton T W} {chart : DenseChart W} {filter : List Bool} (hF : StreamForest F h0 M) (hB : BtAt A chart filter F h0) (hG : ForestOf G F)
    (hbr : BracketsOK G A.brackets) {n : Nat} (hn : n ≤ 255) (hok : F.ok 0 n A.initial) {fuel : Nat} {ws : Nat → Option (List (Bracket BracketContent))}
    (hnone : ∀ k, elem F h0 M 0 n A.initial k = none → ws k = none)
    (hsome : ∀ k p, elem F h0 M 0 n A.initial k = some p → ∃ t v, DenotesS (elem F h0 M) 0 n p.1 t ∧ treeWord A.brackets t = some v ∧ ws k = some v) (m : Nat) :
    ∀ {it : KIter W}, smeasure F M 0 n A.initial (it.k + m) < fuel → CacheS F h0 M it.d →
    KIter.run A chart filter fuel n m it = some ((List.range m).map fun k => ws (it.k + k)) := by
  have hu : u8 n = n := Nat.mod_eq_of_lt (by omega)
  induction m with
  | zero => intro it _ _; rfl
  | succ m ih =>
    intro it hfuel hd
    have hf : smeasure F M 0 n A.initial it.k < fuel := lt_of_le_of_lt (smeasure_le _ _ _ (by omega)) hfuel
    obtain ⟨d₁, e1, e2, _⟩ := kth_s hF hB fuel 0 n A.initial it.k it.d hok hf hd
    have hnext : ∃ d', it.next A chart filter fuel n = some (ws it.k, ⟨d', it.k + 1⟩) ∧ CacheS F h0 M d' := by
      unfold KIter.next
      rw [hu]
      simp only [e1]
      cases hp : elem F h0 M 0 n A.initial it.k with
      | none => exact ⟨d₁, by simp only [hnone _ hp], e2⟩
      | some p =>
        obtain ⟨t, v, u, d', f1, _, f2, f3, f4⟩ := readBt_s hF hB hG hbr fuel (b := p.1) (w := p.2) hok hf hp e2
        obtain ⟨t', v', g1, g2, g3⟩ := hsome _ _ hp
        rw [f1.det g1, g2, Option.some.injEq] at f2
        subst f2
        exact ⟨d', by simp only [f3, g3], f4⟩
    obtain ⟨d', g1, g2⟩ := hnext
    simp only [KIter.run, g1]
    rw [ih (it := ⟨d', it.k + 1⟩) (by simp only; rw [show it.k + 1 + m = it.k + (m + 1) by omega]; exact hfuel) g2, List.range_succ_eq_map]
    simp [Nat.add_assoc, Nat.add_comm 1]

end

end Rustomata
