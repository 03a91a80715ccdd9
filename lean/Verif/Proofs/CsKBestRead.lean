import Verif.Proofs.CsKBestKth
import Verif.Proofs.CsFillSound
import Verif.Spec.CsKBest

/-!
# Backtraces and the derivations they stand for
-/

namespace Rustomata
open Spec KForest

theorem exists_forall₂ {X Y : Type _} {R : X → Y → Prop} : ∀ (l : List X), (∀ x ∈ l, ∃ y, R x y) → ∃ ys, List.Forall₂ R l ys
  | [], _ => ⟨[], .nil⟩
  | x :: l, h => by
    obtain ⟨y, hy⟩ := h x (by simp)
    obtain ⟨ys, hys⟩ := exists_forall₂ l fun z hz => h z (by simp [hz])
    exact ⟨y :: ys, .cons hy hys⟩

section
variable {W : Type _} [RoundedWeight W]

/-- `Denotes F i j b t`: the backtrace `b` for the span from `i` to `j` stands for the derivation `t`. -/
inductive Denotes (F : KForest W) : Nat → Nat → Backtrace W → BinTree → Prop
  | nullary {i j rid : Nat} {w : W} : Denotes F i j (.nullary rid w) (.nullary rid)
  | unary {i j rid q k : Nat} {w : W} {p : Backtrace W × W} {t : BinTree} : (F.L i j q)[k]? = some p → Denotes F i j p.1 t → Denotes F i j (.unary rid q w k) (.unary rid t)
  | binary {i j rid q₁ m q₂ k₁ k₂ : Nat} {w : W} {p₁ p₂ : Backtrace W × W} {t₁ t₂ : BinTree} : (F.L i m q₁)[k₁]? = some p₁ → (F.L m j q₂)[k₂]? = some p₂ →
      Denotes F i m p₁.1 t₁ → Denotes F m j p₂.1 t₂ → Denotes F i j (.binary rid q₁ m q₂ w k₁ k₂) (.binary rid m t₁ t₂)

/-- The backtraces with zero indices are the rules of a grammar whose parts are in the chart. -/
structure ForestOf {T : Type _} (G : BinGrammar T W) (F : KForest W) : Prop where
  nullary : ∀ {i j q rid w}, F.ok i j q → (.nullary rid w ∈ F.I i j q ↔ j = i + 1 ∧ ∃ a, G.nullary rid q a w)
  unary : ∀ {i j q rid q₁ w k}, F.ok i j q → (.unary rid q₁ w k ∈ F.I i j q ↔ k = 0 ∧ G.unary rid q q₁ w ∧ ∃ w₁, F.cw i j q₁ = some w₁)
  binary : ∀ {i j q rid q₁ m q₂ w k₁ k₂}, F.ok i j q →
    (.binary rid q₁ m q₂ w k₁ k₂ ∈ F.I i j q ↔ k₁ = 0 ∧ k₂ = 0 ∧ i < m ∧ m < j ∧ G.binary rid q q₁ q₂ w ∧ (∃ w₁, F.cw i m q₁ = some w₁) ∧ ∃ w₂, F.cw m j q₂ = some w₂)

variable {F : KForest W} {T : Type _} {G : BinGrammar T W}

theorem Denotes.det {i j : Nat} {b : Backtrace W} {t t' : BinTree} (h : Denotes F i j b t) (h' : Denotes F i j b t') : t = t' := by
  induction h generalizing t' with
  | nullary => cases h'; rfl
  | unary h1 _ ih =>
    cases h' with
    | unary h2 h3 =>
      rw [h1] at h2
      cases h2
      rw [ih h3]
  | binary h1 h2 _ _ ih₁ ih₂ =>
    cases h' with
    | binary g1 g2 g3 g4 =>
      rw [h1] at g1
      rw [h2] at g2
      cases g1
      cases g2
      rw [ih₁ g3, ih₂ g4]

/-- Every listed backtrace stands for a derivation in the chart. -/
theorem denotes_total (hF : F.Ok) (hG : ForestOf G F) (r : Nat) : ∀ {i j q b w}, F.ok i j q → F.rank i j q = r → (b, w) ∈ F.L i j q →
    ∃ t, Denotes F i j b t ∧ ChartDerives G (fun i j q => ∃ w, F.cw i j q = some w) i j q t w := by
  induction r using Nat.strong_induction_on with
  | _ r ih =>
    intro i j q b w hok hr hm
    obtain ⟨hb, hw⟩ := ((hF.L_spec hok).2 b w).1 hm
    have hk := hF.kids hok hb
    cases b with
    | nullary rid v =>
      simp only [btW, Option.some.injEq] at hw
      subst hw
      obtain ⟨rfl, a, ha⟩ := (hG.nullary hok).1 hb
      exact ⟨_, .nullary, .nullary ha⟩
    | unary rid q₁ v k =>
      obtain ⟨_, hu, hc⟩ := (hG.unary hok).1 hb
      have h1 := hk (i, j, q₁) (by simp [Backtrace.kids, Backtrace.base])
      simp only [btW, listWt, Option.map_eq_some_iff] at hw
      obtain ⟨_, ⟨p, hp, rfl⟩, rfl⟩ := hw
      obtain ⟨t, ht, ht'⟩ := ih _ (by omega) (b := p.1) (w := p.2) h1.1 rfl (List.mem_of_getElem? hp)
      exact ⟨_, .unary hp ht, .unary hu hc ht'⟩
    | binary rid q₁ m q₂ v k₁ k₂ =>
      obtain ⟨_, _, h3, h4, hu, hc₁, hc₂⟩ := (hG.binary hok).1 hb
      have h1 := hk (i, m, q₁) (by simp [Backtrace.kids, Backtrace.base])
      have h2 := hk (m, j, q₂) (by simp [Backtrace.kids, Backtrace.base])
      simp only [btW, listWt, Option.map_eq_some_iff, Option.bind_eq_some_iff] at hw
      obtain ⟨_, ⟨p₁, hp₁, rfl⟩, _, ⟨p₂, hp₂, rfl⟩, rfl⟩ := hw
      obtain ⟨t₁, ht₁, ht₁'⟩ := ih _ (by omega) (b := p₁.1) (w := p₁.2) h1.1 rfl (List.mem_of_getElem? hp₁)
      obtain ⟨t₂, ht₂, ht₂'⟩ := ih _ (by omega) (b := p₂.1) (w := p₂.2) h2.1 rfl (List.mem_of_getElem? hp₂)
      exact ⟨_, .binary hp₁ hp₂ ht₁ ht₂, .binary h3 h4 hu hc₁ hc₂ ht₁' ht₂'⟩

/-- Every derivation in the chart is listed. -/
theorem denotes_complete (hF : F.Ok) (hG : ForestOf G F) {i j q : Nat} {t : BinTree} {w : W} (h : ChartDerives G (fun i j q => ∃ w, F.cw i j q = some w) i j q t w)
    (hok : F.ok i j q) : ∃ b, (b, w) ∈ F.L i j q ∧ Denotes F i j b t := by
  induction h with
  | nullary ha =>
    rename_i i q rid a w
    exact ⟨.nullary rid w, ((hF.L_spec hok).2 _ _).2 ⟨(hG.nullary hok).2 ⟨rfl, _, ha⟩, rfl⟩, .nullary⟩
  | unary hu hc _ ih =>
    rename_i i j q q₁ rid t w w₁ _
    have hb : (.unary rid q₁ w 0 : Backtrace W) ∈ F.I i j q := (hG.unary hok).2 ⟨rfl, hu, hc⟩
    have h1 := hF.kids hok hb (i, j, q₁) (by simp [Backtrace.kids])
    obtain ⟨b, hbm, ht⟩ := ih h1.1
    obtain ⟨k, hk⟩ := List.getElem?_of_mem hbm
    refine ⟨.unary rid q₁ w k, ((hF.L_spec hok).2 _ _).2 ⟨hb, ?_⟩, .unary hk ht⟩
    simp [btW, listWt, hk]
  | binary h3 h4 hu hc₁ hc₂ _ _ ih₁ ih₂ =>
    rename_i i m j q q₁ q₂ rid t₁ t₂ w w₁ w₂ _ _
    have hb : (.binary rid q₁ m q₂ w 0 0 : Backtrace W) ∈ F.I i j q := (hG.binary hok).2 ⟨rfl, rfl, h3, h4, hu, hc₁, hc₂⟩
    have h1 := hF.kids hok hb (i, m, q₁) (by simp [Backtrace.kids])
    have h2 := hF.kids hok hb (m, j, q₂) (by simp [Backtrace.kids])
    obtain ⟨b₁, hbm₁, ht₁⟩ := ih₁ h1.1
    obtain ⟨b₂, hbm₂, ht₂⟩ := ih₂ h2.1
    obtain ⟨k₁, hk₁⟩ := List.getElem?_of_mem hbm₁
    obtain ⟨k₂, hk₂⟩ := List.getElem?_of_mem hbm₂
    refine ⟨.binary rid q₁ m q₂ w k₁ k₂, ((hF.L_spec hok).2 _ _).2 ⟨hb, ?_⟩, .binary hk₁ hk₂ ht₁ ht₂⟩
    simp [btW, listWt, hk₁, hk₂]

theorem Ok.L_index (hF : F.Ok) {i j q k k' : Nat} (hok : F.ok i j q) {p : Backtrace W × W} (h : (F.L i j q)[k]? = some p) (h' : (F.L i j q)[k']? = some p) : k = k' := by
  rcases Nat.lt_trichotomy k k' with hlt | heq | hgt
  · exact absurd (hF.L_lt hok h h' hlt) (lt_irrefl _)
  · exact heq
  · exact absurd (hF.L_lt hok h' h hgt) (lt_irrefl _)

/-- Different backtraces stand for different derivations. -/
theorem denotes_inj (hF : F.Ok) (r : Nat) : ∀ {i j q p p' t}, F.ok i j q → F.rank i j q = r → p ∈ F.L i j q → p' ∈ F.L i j q →
    Denotes F i j p.1 t → Denotes F i j p'.1 t → p = p' := by
  induction r using Nat.strong_induction_on with
  | _ r ih =>
    rintro i j q ⟨b, w⟩ ⟨b', w'⟩ t hok hr hp hp' hd hd'
    have hb := (((hF.L_spec hok).2 b w).1 hp).1
    have hb' := (((hF.L_spec hok).2 b' w').1 hp').1
    have hk := hF.kids hok hb
    simp only at hd hd'
    cases hd with
    | nullary =>
      cases hd' with
      | nullary => exact hF.L_key hok hp hp' (by simp [Backtrace.key])
    | unary h1 h2 =>
      rename_i rid q₁ k v p₁ t₁
      cases hd' with
      | unary h1' h2' =>
        rename_i q₁' k' v' p₁'
        have he := hF.inj hok hb hb' (by simp [Backtrace.key, Backtrace.base])
        simp only [Backtrace.base, Backtrace.unary.injEq] at he
        obtain ⟨_, rfl, rfl, _⟩ := he
        have hc := hk (i, j, q₁) (by simp [Backtrace.kids, Backtrace.base])
        have := ih _ (by omega) hc.1 rfl (List.mem_of_getElem? h1) (List.mem_of_getElem? h1') h2 h2'
        subst this
        have := Ok.L_index hF hc.1 h1 h1'
        subst this
        exact hF.L_key hok hp hp' rfl
    | binary h1 h2 h3 h4 =>
      rename_i rid q₁ m q₂ k₁ k₂ v p₁ p₂ t₁ t₂
      cases hd' with
      | binary h1' h2' h3' h4' =>
        rename_i q₁' q₂' k₁' k₂' v' p₁' p₂'
        have he := hF.inj hok hb hb' (by simp [Backtrace.key, Backtrace.base])
        simp only [Backtrace.base, Backtrace.binary.injEq] at he
        obtain ⟨_, rfl, _, rfl, rfl, _⟩ := he
        have hc₁ := hk (i, m, q₁) (by simp [Backtrace.kids, Backtrace.base])
        have hc₂ := hk (m, j, q₂) (by simp [Backtrace.kids, Backtrace.base])
        have e₁ := ih _ (by omega) hc₁.1 rfl (List.mem_of_getElem? h1) (List.mem_of_getElem? h1') h3 h3'
        have e₂ := ih _ (by omega) hc₂.1 rfl (List.mem_of_getElem? h2) (List.mem_of_getElem? h2') h4 h4'
        subst e₁
        subst e₂
        have := Ok.L_index hF hc₁.1 h1 h1'
        subst this
        have := Ok.L_index hF hc₂.1 h2 h2'
        subst this
        exact hF.L_key hok hp hp' rfl

/-- The brackets of all rules of the grammar. -/
structure BracketsOK (G : BinGrammar T W) (brackets : List TdBrackets) : Prop where
  nullary : ∀ {rid q a w}, G.nullary rid q a w → ∃ b, brackets[rid]? = some b ∧ b.outer.isIgnore = false ∧ b.left.isIgnore = false
  unary : ∀ {rid q q₁ w}, G.unary rid q q₁ w → ∃ b, brackets[rid]? = some b ∧ b.outer.isIgnore = false ∧ b.left.isIgnore = false
  binary : ∀ {rid q q₁ q₂ w}, G.binary rid q q₁ q₂ w → ∃ b, brackets[rid]? = some b ∧ b.right.isIgnore = false

theorem inBrackets_eq {b : BracketContent} (h : b.isIgnore = false) (w : List (Bracket BracketContent)) : inBrackets b w = .open_ b :: (w ++ [.close b]) := by
  cases b <;> first | rfl | simp [BracketContent.isIgnore] at h

theorem bracketed_eq (b : BracketContent) (w : List (Bracket BracketContent)) : bracketed b w = inBrackets b w := by
  cases b <;> rfl

/-- `read` returns the bracket word of the derivation. -/
theorem readBt_spec [DecidableEq T] {A : CsAutomaton T W} {chart : DenseChart W} {filter : List Bool} (hF : F.Ok) (hB : BtSpec A chart filter F) (hG : ForestOf G F)
    (hbr : BracketsOK G A.brackets) (fuel : Nat) : ∀ {i j q b w d}, F.ok i j q → F.rank i j q < fuel → (b, w) ∈ F.L i j q → CacheOK F d →
    ∃ t v d', Denotes F i j b t ∧ treeWord A.brackets t = some v ∧ readBt A chart filter fuel i j b d = some (v, d') ∧ CacheOK F d' := by
  induction fuel with
  | zero => intro i j q b w d _ h; omega
  | succ fuel ih =>
    intro i j q b w d hok hr hm hd
    obtain ⟨hb, hw⟩ := ((hF.L_spec hok).2 b w).1 hm
    have hk := hF.kids hok hb
    cases b with
    | nullary rid v =>
      obtain ⟨rfl, a, ha⟩ := (hG.nullary hok).1 hb
      obtain ⟨br, h1, h2, h3⟩ := hbr.nullary ha
      refine ⟨_, inBrackets br.outer (inBrackets br.left []), d, .nullary, by simp [treeWord, h1], ?_, hd⟩
      simp [readBt, h1, inBrackets_eq h2, inBrackets_eq h3]
    | unary rid q₁ v k =>
      obtain ⟨_, hu, hc⟩ := (hG.unary hok).1 hb
      obtain ⟨br, g1, g2, g3⟩ := hbr.unary hu
      have h1 := hk (i, j, q₁) (by simp [Backtrace.kids, Backtrace.base])
      simp only at h1
      simp only [btW, listWt, Option.map_eq_some_iff] at hw
      obtain ⟨_, ⟨p, hp, rfl⟩, rfl⟩ := hw
      obtain ⟨d₁, e1, e2, _⟩ := kth_spec hF hB fuel i j q₁ k d h1.1 (by omega) hd
      obtain ⟨t, v₁, d₂, f1, f2, f3, f4⟩ := ih (b := p.1) (w := p.2) h1.1 (by omega) (List.mem_of_getElem? hp) e2
      refine ⟨_, inBrackets br.outer (inBrackets br.left v₁), d₂, .unary hp f1, by simp [treeWord, g1, f2], ?_, f4⟩
      simp [readBt, e1, hp, f3, g1, inBrackets_eq g2, inBrackets_eq g3]
    | binary rid q₁ m q₂ v k₁ k₂ =>
      obtain ⟨_, _, h3, h4, hu, hc₁, hc₂⟩ := (hG.binary hok).1 hb
      obtain ⟨br, g1, g2⟩ := hbr.binary hu
      have h1 := hk (i, m, q₁) (by simp [Backtrace.kids, Backtrace.base])
      have h2 := hk (m, j, q₂) (by simp [Backtrace.kids, Backtrace.base])
      simp only at h1 h2
      simp only [btW, listWt, Option.map_eq_some_iff, Option.bind_eq_some_iff] at hw
      obtain ⟨_, ⟨p₁, hp₁, rfl⟩, _, ⟨p₂, hp₂, rfl⟩, rfl⟩ := hw
      obtain ⟨d₁, e1, e2, _⟩ := kth_spec hF hB fuel i m q₁ k₁ d h1.1 (by omega) hd
      obtain ⟨d₂, e1', e2', _⟩ := kth_spec hF hB fuel m j q₂ k₂ d₁ h2.1 (by omega) e2
      obtain ⟨t₁, v₁, d₃, f1, f2, f3, f4⟩ := ih (b := p₁.1) (w := p₁.2) h1.1 (by omega) (List.mem_of_getElem? hp₁) e2'
      obtain ⟨t₂, v₂, d₄, f1', f2', f3', f4'⟩ := ih (b := p₂.1) (w := p₂.2) h2.1 (by omega) (List.mem_of_getElem? hp₂) f4
      refine ⟨_, inBrackets br.outer (inBrackets br.left v₁ ++ inBrackets br.right v₂), d₄, .binary hp₁ hp₂ f1 f1', by simp [treeWord, g1, f2, f2'], ?_, f4'⟩
      simp [readBt, e1, hp₁, e1', hp₂, f3, f3', g1, bracketed_eq, inBrackets_eq g2]

/-- The iterator returns the bracket words of the derivations in the order of the list. -/
theorem run_spec [DecidableEq T] {A : CsAutomaton T W} {chart : DenseChart W} {filter : List Bool} (hF : F.Ok) (hB : BtSpec A chart filter F) (hG : ForestOf G F)
    (hbr : BracketsOK G A.brackets) {n : Nat} (hn : n ≤ 255) (hok : F.ok 0 n A.initial) {fuel : Nat} (hfuel : F.rank 0 n A.initial < fuel)
    {ts : List BinTree} {words : List (List (Bracket BracketContent))} (hts : List.Forall₂ (fun p t => Denotes F 0 n p.1 t) (F.L 0 n A.initial) ts)
    (hwords : List.Forall₂ (fun t v => treeWord A.brackets t = some v) ts words) (m : Nat) : ∀ {it : KIter W}, CacheOK F it.d →
    KIter.run A chart filter fuel n m it = some ((List.range m).map fun k => words[it.k + k]?) := by
  have hu : u8 n = n := Nat.mod_eq_of_lt (by omega)
  induction m with
  | zero => intro it _; rfl
  | succ m ih =>
    intro it hd
    obtain ⟨d₁, e1, e2, _⟩ := kth_spec hF hB fuel 0 n A.initial it.k it.d hok hfuel hd
    have hlen₁ := hts.length_eq
    have hlen₂ := hwords.length_eq
    have hnext : ∃ d', it.next A chart filter fuel n = some (words[it.k]?, ⟨d', it.k + 1⟩) ∧ CacheOK F d' := by
      unfold KIter.next
      rw [hu]
      simp only [e1]
      cases hp : (F.L 0 n A.initial)[it.k]? with
      | none =>
        have : words[it.k]? = none := by
          rw [List.getElem?_eq_none_iff] at hp ⊢
          omega
        exact ⟨d₁, by simp only [this], e2⟩
      | some p =>
        obtain ⟨t, v, d', f1, f2, f3, f4⟩ := readBt_spec hF hB hG hbr fuel (b := p.1) (w := p.2) hok hfuel (List.mem_of_getElem? hp) e2
        have hlt := (List.getElem?_eq_some_iff.1 hp).1
        have ht : ts[it.k]? = some t := by
          obtain ⟨hlt', hget⟩ := List.getElem?_eq_some_iff.1 hp
          have := (List.forall₂_iff_get.1 hts).2 it.k hlt' (by omega)
          simp only [List.get_eq_getElem] at this
          rw [hget] at this
          rw [List.getElem?_eq_getElem (by omega), f1.det this]
        have hv : words[it.k]? = some v := by
          obtain ⟨hlt', hget⟩ := List.getElem?_eq_some_iff.1 ht
          have := (List.forall₂_iff_get.1 hwords).2 it.k hlt' (by omega)
          simp only [List.get_eq_getElem] at this
          rw [hget, f2] at this
          rw [List.getElem?_eq_getElem (by omega), Option.some.inj this]
        exact ⟨d', by simp only [f3, hv], f4⟩
    obtain ⟨d', g1, g2⟩ := hnext
    simp only [KIter.run, g1]
    rw [ih (it := ⟨d', it.k + 1⟩) g2, List.range_succ_eq_map]
    simp [Nat.add_assoc, Nat.add_comm 1]

end

end Rustomata
