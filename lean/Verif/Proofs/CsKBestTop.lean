import Verif.Proofs.CsKBestGrow
import Verif.Proofs.CsKBestRead
import Verif.Proofs.CsKBestSound

/-!
# The derivations in a table

The list of an item contains the derivations of the greatest weights.
-/

namespace Rustomata
open Spec KForest

section
variable {W : Type _} [RoundedWeight W] {T : Type _}

/-- The initial candidates are the rules of a grammar whose parts are in the chart. -/
structure FormsOf (G : BinGrammar T W) (inChart : Nat → Nat → Nat → Prop) (F : HForest W) : Prop where
  nullary : ∀ {i j q rid w}, F.ok i j q → ((∃ w', (w', .nullary rid w) ∈ F.H i j q) ↔ j = i + 1 ∧ ∃ a, G.nullary rid q a w)
  unary : ∀ {i j q rid q₁ w}, F.ok i j q → ((∃ w', (w', .unary rid q₁ w 0) ∈ F.H i j q) ↔ G.unary rid q q₁ w ∧ inChart i j q₁)
  binary : ∀ {i j q rid q₁ m q₂ w}, F.ok i j q →
    ((∃ w', (w', .binary rid q₁ m q₂ w 0 0) ∈ F.H i j q) ↔ i < m ∧ m < j ∧ G.binary rid q q₁ q₂ w ∧ inChart i m q₁ ∧ inChart m j q₂)

variable {F : HForest W} {G : BinGrammar T W} {inChart : Nat → Nat → Nat → Prop} {c : KTab W} {Fin : Nat → Nat → Nat → Prop}

/-- A backtrace stands for a derivation in the chart. -/
theorem DenotesIn.sound (hF : F.Ok) (hc : TabOk F c Fin) (hG : FormsOf G inChart F) {i j : Nat} {b : Backtrace W} {t : BinTree} (hd : DenotesIn (tabL c) i j b t) :
    ∀ {q w}, F.ok i j q → F.Cand i j q b → btW (listWt (tabL c)) i j b = some w → ChartDerives G inChart i j q t w := by
  induction hd with
  | nullary =>
    intro q w hok hb hw
    obtain ⟨rfl, a, ha⟩ := (hG.nullary hok).1 hb
    simp only [btW, Option.some.injEq] at hw
    subst hw
    exact .nullary ha
  | unary h1 h2 ih =>
    intro q w hok hb hw
    rename_i i j rid q₁ k v p t
    have hk : F.ok i j q₁ ∧ F.H i j q₁ ≠ [] := TabOk.kids hF hok hb (i, j, q₁) (by simp [Backtrace.kids])
    obtain ⟨hu, hch⟩ := (hG.unary hok).1 hb
    simp only [btW, listWt, h1, Option.map_some, Option.some.injEq] at hw
    subst hw
    obtain ⟨e1, e2⟩ := hc.entry hk.1 (b := p.1) (w := p.2) (List.mem_of_getElem? h1)
    exact .unary hu hch (ih hk.1 e1 e2)
  | binary h1 h2 h3 h4 ih₁ ih₂ =>
    intro q w hok hb hw
    rename_i i j rid q₁ m q₂ k₁ k₂ v p₁ p₂ t₁ t₂
    have hk₁ : F.ok i m q₁ ∧ F.H i m q₁ ≠ [] := TabOk.kids hF hok hb (i, m, q₁) (by simp [Backtrace.kids])
    have hk₂ : F.ok m j q₂ ∧ F.H m j q₂ ≠ [] := TabOk.kids hF hok hb (m, j, q₂) (by simp [Backtrace.kids])
    obtain ⟨g1, g2, hu, hch₁, hch₂⟩ := (hG.binary hok).1 hb
    simp only [btW, listWt, h1, h2, Option.map_some, Option.bind_some, Option.some.injEq] at hw
    subst hw
    obtain ⟨e1, e2⟩ := hc.entry hk₁.1 (b := p₁.1) (w := p₁.2) (List.mem_of_getElem? h1)
    obtain ⟨e1', e2'⟩ := hc.entry hk₂.1 (b := p₂.1) (w := p₂.2) (List.mem_of_getElem? h2)
    exact .binary g1 g2 hu hch₁ hch₂ (ih₁ hk₁.1 e1 e2) (ih₂ hk₂.1 e1' e2')

/-- Different backtraces stand for different derivations. -/
theorem DenotesIn.inj (hF : F.Ok) (hc : TabOk F c Fin) {i j : Nat} {b : Backtrace W} {t : BinTree} (hd : DenotesIn (tabL c) i j b t) :
    ∀ {q b'}, F.ok i j q → F.Cand i j q b → F.Cand i j q b' → DenotesIn (tabL c) i j b' t → b = b' := by
  have hbase : ∀ {i j q} {b b' : Backtrace W}, F.ok i j q → F.Cand i j q b → F.Cand i j q b' → b.base.key = b'.base.key → b.base = b'.base := by
    intro i j q b b' hok hb hb' hk
    refine TabOk.key_inj hF hok ?_ ?_ hk
    · unfold HForest.Cand
      rw [Backtrace.base_base]
      exact hb
    · unfold HForest.Cand
      rw [Backtrace.base_base]
      exact hb'
  induction hd with
  | nullary =>
    intro q b' hok hb hb' hd'
    cases hd' with
    | nullary => exact hbase hok hb hb' (by simp [Backtrace.key, Backtrace.base])
  | unary h1 h2 ih =>
    intro q b' hok hb hb' hd'
    rename_i i j rid q₁ k v p t
    have hk : F.ok i j q₁ ∧ F.H i j q₁ ≠ [] := TabOk.kids hF hok hb (i, j, q₁) (by simp [Backtrace.kids])
    cases hd' with
    | unary h1' h2' =>
      rename_i q₁' k' v' p'
      have he := hbase hok hb hb' (by simp [Backtrace.key, Backtrace.base])
      simp only [Backtrace.base, Backtrace.unary.injEq] at he
      obtain ⟨_, rfl, rfl, _⟩ := he
      have e := hc.entry hk.1 (b := p.1) (w := p.2) (List.mem_of_getElem? h1)
      have e' := hc.entry hk.1 (b := p'.1) (w := p'.2) (List.mem_of_getElem? h1')
      have hp := ih hk.1 e.1 e'.1 h2'
      have hw := e'.2
      rw [← hp, e.2] at hw
      have hpp : p = p' := Prod.ext hp (Option.some.inj hw)
      subst hpp
      rw [hc.index hk.1 h1 h1']
  | binary h1 h2 h3 h4 ih₁ ih₂ =>
    intro q b' hok hb hb' hd'
    rename_i i j rid q₁ m q₂ k₁ k₂ v p₁ p₂ t₁ t₂
    have hk₁ : F.ok i m q₁ ∧ F.H i m q₁ ≠ [] := TabOk.kids hF hok hb (i, m, q₁) (by simp [Backtrace.kids])
    have hk₂ : F.ok m j q₂ ∧ F.H m j q₂ ≠ [] := TabOk.kids hF hok hb (m, j, q₂) (by simp [Backtrace.kids])
    cases hd' with
    | binary h1' h2' h3' h4' =>
      rename_i q₁' q₂' k₁' k₂' v' p₁' p₂'
      have he := hbase hok hb hb' (by simp [Backtrace.key, Backtrace.base])
      simp only [Backtrace.base, Backtrace.binary.injEq] at he
      obtain ⟨_, rfl, _, rfl, rfl, _⟩ := he
      have e₁ := hc.entry hk₁.1 (b := p₁.1) (w := p₁.2) (List.mem_of_getElem? h1)
      have e₁' := hc.entry hk₁.1 (b := p₁'.1) (w := p₁'.2) (List.mem_of_getElem? h1')
      have hp₁ := ih₁ hk₁.1 e₁.1 e₁'.1 h3'
      have hw₁ := e₁'.2
      rw [← hp₁, e₁.2] at hw₁
      have hpp₁ : p₁ = p₁' := Prod.ext hp₁ (Option.some.inj hw₁)
      subst hpp₁
      have e₂ := hc.entry hk₂.1 (b := p₂.1) (w := p₂.2) (List.mem_of_getElem? h2)
      have e₂' := hc.entry hk₂.1 (b := p₂'.1) (w := p₂'.2) (List.mem_of_getElem? h2')
      have hp₂ := ih₂ hk₂.1 e₂.1 e₂'.1 h4'
      have hw₂ := e₂'.2
      rw [← hp₂, e₂.2] at hw₂
      have hpp₂ : p₂ = p₂' := Prod.ext hp₂ (Option.some.inj hw₂)
      subst hpp₂
      rw [hc.index hk₁.1 h1 h1', hc.index hk₂.1 h2 h2']

/-- The list of an item contains the derivation. -/
def Listed (c : KTab W) (i j q : Nat) (t : BinTree) (w : W) : Prop := ∃ p ∈ (c i j q).1, DenotesIn (tabL c) i j p.1 t ∧ p.2 = w

namespace TabOk

/-- If all derivations have been found, all backtraces that have weights are listed. -/
theorem climb (hF : F.Ok) (hc : TabOk F c Fin) {i j q : Nat} (hok : F.ok i j q) (hfin : Fin i j q) (n : Nat) : ∀ {b : Backtrace W} {w : W}, idx b = n → F.Cand i j q b →
    btW (listWt (tabL c)) i j b = some w → (b, w) ∈ (c i j q).1 := by
  obtain ⟨hf1, hf2⟩ := hc.fin hok hfin
  induction n with
  | zero =>
    intro b w hn hb hw
    rcases pred hF hc hok hb hw with h | ⟨b', w', _, _, hs, _⟩
    · obtain ⟨w₀, h₀⟩ := hb
      rw [← h] at h₀
      have := hc.init_wt hF hok h₀
      rw [hw] at this
      cases this
      rcases hc.init hok h₀ with h | h
      · exact h
      · rw [hf1] at h
        exact absurd h List.not_mem_nil
    · have := idx_succs hs
      omega
  | succ n ih =>
    intro b w hn hb hw
    rcases pred hF hc hok hb hw with h | ⟨b', w', hb', hw', hs, hlt⟩
    · rw [h] at hn
      cases b <;> simp [Backtrace.base, idx] at hn
    · rcases hf2 _ (ih (by have := idx_succs hs; omega) hb' hw') b hs with ⟨w₂, h⟩ | h
      · have := (hc.entry hok h).2
        rw [hw] at this
        cases this
        exact h
      · rw [h.undefined] at hw
        cases hw

/-- The last element of the list of a part. -/
theorem last_of_kid (hc : TabOk F c Fin) {i j q : Nat} (hok : F.ok i j q) (hne : F.H i j q ≠ []) : ∃ p k, (tabL c i j q)[k]? = some p ∧ (tabL c i j q).length = k + 1 := by
  have : (c i j q).1 ≠ [] := fun h => hne (hc.nonempty hok h)
  have hpos : 0 < (tabL c i j q).length := List.length_pos_iff.2 this
  refine ⟨(tabL c i j q)[(tabL c i j q).length - 1], (tabL c i j q).length - 1, List.getElem?_eq_getElem _, by omega⟩

theorem listWt_get {L : Nat → Nat → Nat → List (Backtrace W × W)} {i j q k : Nat} {p : Backtrace W × W} (h : (L i j q)[k]? = some p) : listWt L i j q k = some p.2 := by
  unfold listWt
  rw [h]
  rfl

theorem listWt_none {L : Nat → Nat → Nat → List (Backtrace W × W)} {i j q k : Nat} (h : (L i j q).length ≤ k) : listWt L i j q k = none := by
  unfold listWt
  rw [List.getElem?_eq_none h]
  rfl

/-- If all derivations of an item have been found, those in the chart are listed. -/
theorem complete (hF : F.Ok) (hc : TabOk F c Fin) (hG : FormsOf G inChart F) {i j q : Nat} {t : BinTree} {w : W} (hd : ChartDerives G inChart i j q t w) :
    F.ok i j q → Fin i j q → Listed c i j q t w := by
  induction hd with
  | nullary ha =>
    intro hok hfin
    rename_i i q rid a w
    have hb : F.Cand i (i + 1) q (.nullary rid w) := (hG.nullary hok).2 ⟨rfl, a, ha⟩
    exact ⟨(.nullary rid w, w), hc.climb hF hok hfin _ rfl hb rfl, .nullary, rfl⟩
  | unary hu hch _ ih =>
    intro hok hfin
    rename_i i j q q₁ rid t v w₁ _
    have hb : ∀ k, F.Cand i j q (.unary rid q₁ v k) := fun k => (hG.unary hok).2 ⟨hu, hch⟩
    have hk : F.ok i j q₁ ∧ F.H i j q₁ ≠ [] := kids hF hok (hb 0) (i, j, q₁) (by simp [Backtrace.kids])
    have hin : ∀ k p, (tabL c i j q₁)[k]? = some p → (.unary rid q₁ v k, v * p.2) ∈ (c i j q).1 := fun k p hp =>
      hc.climb hF hok hfin _ rfl (hb k) (by simp only [btW, listWt_get hp, Option.map_some])
    have hfin₁ : Fin i j q₁ := by
      obtain ⟨p, k, hp, hlen⟩ := hc.last_of_kid hk.1 hk.2
      rcases (hc.fin hok hfin).2 _ (hin k p hp) (.unary rid q₁ v (k + 1)) (by simp [Backtrace.succs]) with ⟨w', h⟩ | ⟨x, hx, hf, _⟩
      · have := (hc.entry hok h).2
        simp only [btW, listWt, Option.map_eq_some_iff] at this
        obtain ⟨_, ⟨p', hp', _⟩, _⟩ := this
        have := (List.getElem?_eq_some_iff.1 hp').1
        omega
      · simp only [Backtrace.parts, List.mem_singleton] at hx
        subst hx
        exact hf
    obtain ⟨p, hp, hden, rfl⟩ := ih hk.1 hfin₁
    obtain ⟨k, hk'⟩ := List.getElem?_of_mem hp
    exact ⟨_, hin k p hk', .unary hk' hden, rfl⟩
  | binary h1 h2 hu hch₁ hch₂ _ _ ih₁ ih₂ =>
    intro hok hfin
    rename_i i m j q q₁ q₂ rid t₁ t₂ v w₁ w₂ _ _
    have hb : ∀ k₁ k₂, F.Cand i j q (.binary rid q₁ m q₂ v k₁ k₂) := fun k₁ k₂ => (hG.binary hok).2 ⟨h1, h2, hu, hch₁, hch₂⟩
    have hk₁ : F.ok i m q₁ ∧ F.H i m q₁ ≠ [] := kids hF hok (hb 0 0) (i, m, q₁) (by simp [Backtrace.kids])
    have hk₂ : F.ok m j q₂ ∧ F.H m j q₂ ≠ [] := kids hF hok (hb 0 0) (m, j, q₂) (by simp [Backtrace.kids])
    have hin : ∀ k₁ k₂ p₁ p₂, (tabL c i m q₁)[k₁]? = some p₁ → (tabL c m j q₂)[k₂]? = some p₂ → (.binary rid q₁ m q₂ v k₁ k₂, v * p₁.2 * p₂.2) ∈ (c i j q).1 :=
      fun k₁ k₂ p₁ p₂ hp₁ hp₂ => hc.climb hF hok hfin _ rfl (hb k₁ k₂) (by simp only [btW, listWt_get hp₁, listWt_get hp₂, Option.map_some, Option.bind_some])
    obtain ⟨p₁, k₁, hp₁, hlen₁⟩ := hc.last_of_kid hk₁.1 hk₁.2
    obtain ⟨p₂, k₂, hp₂, hlen₂⟩ := hc.last_of_kid hk₂.1 hk₂.2
    have hfin₁ : Fin i m q₁ := by
      rcases (hc.fin hok hfin).2 _ (hin k₁ k₂ p₁ p₂ hp₁ hp₂) (.binary rid q₁ m q₂ v (k₁ + 1) k₂) (by simp [Backtrace.succs]) with ⟨w', h⟩ | ⟨x, hx, hf, hl⟩
      · have := (hc.entry hok h).2
        simp only [btW, listWt, Option.map_eq_some_iff, Option.bind_eq_some_iff] at this
        obtain ⟨_, ⟨p', hp', _⟩, _⟩ := this
        have := (List.getElem?_eq_some_iff.1 hp').1
        omega
      · simp only [Backtrace.parts, List.mem_cons, List.not_mem_nil, or_false] at hx
        rcases hx with rfl | rfl
        · exact hf
        · simp only at hl
          omega
    have hfin₂ : Fin m j q₂ := by
      rcases (hc.fin hok hfin).2 _ (hin k₁ k₂ p₁ p₂ hp₁ hp₂) (.binary rid q₁ m q₂ v k₁ (k₂ + 1)) (by simp [Backtrace.succs]) with ⟨w', h⟩ | ⟨x, hx, hf, hl⟩
      · have := (hc.entry hok h).2
        simp only [btW, listWt, Option.map_eq_some_iff, Option.bind_eq_some_iff] at this
        obtain ⟨_, _, _, ⟨p', hp', _⟩, _⟩ := this
        have := (List.getElem?_eq_some_iff.1 hp').1
        omega
      · simp only [Backtrace.parts, List.mem_cons, List.not_mem_nil, or_false] at hx
        rcases hx with rfl | rfl
        · simp only at hl
          omega
        · exact hf
    obtain ⟨p₁', hm₁, hden₁, rfl⟩ := ih₁ hk₁.1 hfin₁
    obtain ⟨p₂', hm₂, hden₂, rfl⟩ := ih₂ hk₂.1 hfin₂
    obtain ⟨k₁', hk₁'⟩ := List.getElem?_of_mem hm₁
    obtain ⟨k₂', hk₂'⟩ := List.getElem?_of_mem hm₂
    exact ⟨_, hin k₁' k₂' _ _ hk₁' hk₂', .binary hk₁' hk₂' hden₁ hden₂, rfl⟩

/-- A backtrace with a successor that has not been evaluated. -/
theorem frontier (hF : F.Ok) (hc : TabOk F c Fin) {i j q : Nat} (hok : F.ok i j q) {b b' : Backtrace W} {w : W} (hb : F.Cand i j q b)
    (hw : btW (listWt (tabL c)) i j b = some w) (hs : b' ∈ b.succs) (hw' : btW (listWt (tabL c)) i j b' = none) (hd : ¬ Dead c Fin i j b') : ∀ p ∈ (c i j q).1, w ≤ p.2 := by
  intro p hp
  by_cases hin : (b, w) ∈ (c i j q).1
  · obtain ⟨l, x, hl⟩ : ∃ l x, (c i j q).1 = l ++ [x] := ⟨_, _, (List.dropLast_append_getLast (List.ne_nil_of_mem hin)).symm⟩
    have hin' := hin
    rw [hl, List.mem_append, List.mem_singleton] at hin'
    rcases hin' with h | h
    · rcases hc.succ hok (p := (b, w)) (by rw [hl, List.dropLast_concat]; exact h) hs with ⟨w₂, h | h⟩ | h
      · rw [(hc.entry hok h).2] at hw'
        cases hw'
      · rw [(hc.heap hok h).2.1] at hw'
        cases hw'
      · exact absurd h hd
    · rw [hl, List.mem_append, List.mem_singleton] at hp
      rcases hp with hp | rfl
      · have := hc.sorted hok
        rw [hl, List.pairwise_append] at this
        have := snd_le_of_bwKey (this.2.2 p hp x (by simp)).le
        rw [← h] at this
        exact this
      · rw [← h]
  · exact snd_le_of_bwKey (hc.later hF hok _ rfl hb hw hin p hp).le

/-- The listed derivations have the greatest weights. -/
theorem top (hF : F.Ok) (hc : TabOk F c Fin) (hG : FormsOf G inChart F) {i j q : Nat} {t : BinTree} {w : W} (hd : ChartDerives G inChart i j q t w) :
    F.ok i j q → ¬ Listed c i j q t w → ∀ p ∈ (c i j q).1, w ≤ p.2 := by
  induction hd with
  | nullary ha =>
    intro hok hn p hp
    rename_i i q rid a w
    have hb : F.Cand i (i + 1) q (.nullary rid w) := (hG.nullary hok).2 ⟨rfl, a, ha⟩
    by_cases hin : (.nullary rid w, w) ∈ (c i (i + 1) q).1
    · exact absurd ⟨_, hin, .nullary, rfl⟩ hn
    · exact snd_le_of_bwKey (hc.later hF hok _ rfl hb rfl hin p hp).le
  | unary hu hch hd₁ ih =>
    intro hok hn p hp
    rename_i i j q q₁ rid t v w₁
    have hb : ∀ k, F.Cand i j q (.unary rid q₁ v k) := fun k => (hG.unary hok).2 ⟨hu, hch⟩
    have hk : F.ok i j q₁ ∧ F.H i j q₁ ≠ [] := kids hF hok (hb 0) (i, j, q₁) (by simp [Backtrace.kids])
    have hw : ∀ k p, (tabL c i j q₁)[k]? = some p → btW (listWt (tabL c)) i j (.unary rid q₁ v k) = some (v * p.2) := fun k p hp => by
      simp only [btW, listWt_get hp, Option.map_some]
    by_cases hl : Listed c i j q₁ t w₁
    · obtain ⟨p₁, hm, hden, rfl⟩ := hl
      obtain ⟨k, hk'⟩ := List.getElem?_of_mem hm
      by_cases hin : (.unary rid q₁ v k, v * p₁.2) ∈ (c i j q).1
      · exact absurd ⟨_, hin, .unary hk' hden, rfl⟩ hn
      · exact snd_le_of_bwKey (hc.later hF hok _ rfl (hb k) (hw k _ hk') hin p hp).le
    · obtain ⟨p₁, k, hp₁, hlen⟩ := hc.last_of_kid hk.1 hk.2
      have hle := ih hk.1 hl p₁ (List.mem_of_getElem? hp₁)
      refine (mul_le_mul_right hle v).trans (hc.frontier hF hok (hb k) (hw k _ hp₁) (b' := .unary rid q₁ v (k + 1)) (by simp [Backtrace.succs]) ?_ ?_ p hp)
      · simp only [btW, listWt, List.getElem?_eq_none (show (tabL c i j q₁).length ≤ k + 1 by omega), Option.map_none]
      · rintro ⟨x, hx, hf, _⟩
        simp only [Backtrace.parts, List.mem_singleton] at hx
        subst hx
        exact hl (hc.complete hF hG hd₁ hk.1 hf)
  | binary h1 h2 hu hch₁ hch₂ hd₁ hd₂ ih₁ ih₂ =>
    intro hok hn p hp
    rename_i i m j q q₁ q₂ rid t₁ t₂ v w₁ w₂
    have hb : ∀ k₁ k₂, F.Cand i j q (.binary rid q₁ m q₂ v k₁ k₂) := fun k₁ k₂ => (hG.binary hok).2 ⟨h1, h2, hu, hch₁, hch₂⟩
    have hk₁ : F.ok i m q₁ ∧ F.H i m q₁ ≠ [] := kids hF hok (hb 0 0) (i, m, q₁) (by simp [Backtrace.kids])
    have hk₂ : F.ok m j q₂ ∧ F.H m j q₂ ≠ [] := kids hF hok (hb 0 0) (m, j, q₂) (by simp [Backtrace.kids])
    have hw : ∀ k₁ k₂ p₁ p₂, (tabL c i m q₁)[k₁]? = some p₁ → (tabL c m j q₂)[k₂]? = some p₂ →
        btW (listWt (tabL c)) i j (.binary rid q₁ m q₂ v k₁ k₂) = some (v * p₁.2 * p₂.2) := fun k₁ k₂ p₁ p₂ hp₁ hp₂ => by
      simp only [btW, listWt_get hp₁, listWt_get hp₂, Option.map_some, Option.bind_some]
    by_cases hl₁ : Listed c i m q₁ t₁ w₁
    · obtain ⟨p₁, hm₁, hden₁, rfl⟩ := hl₁
      obtain ⟨k₁, hk₁'⟩ := List.getElem?_of_mem hm₁
      by_cases hl₂ : Listed c m j q₂ t₂ w₂
      · obtain ⟨p₂, hm₂, hden₂, rfl⟩ := hl₂
        obtain ⟨k₂, hk₂'⟩ := List.getElem?_of_mem hm₂
        by_cases hin : (.binary rid q₁ m q₂ v k₁ k₂, v * p₁.2 * p₂.2) ∈ (c i j q).1
        · exact absurd ⟨_, hin, .binary hk₁' hk₂' hden₁ hden₂, rfl⟩ hn
        · exact snd_le_of_bwKey (hc.later hF hok _ rfl (hb k₁ k₂) (hw k₁ k₂ _ _ hk₁' hk₂') hin p hp).le
      · obtain ⟨p₂, k₂, hp₂, hlen⟩ := hc.last_of_kid hk₂.1 hk₂.2
        have hle := ih₂ hk₂.1 hl₂ p₂ (List.mem_of_getElem? hp₂)
        refine (mul_le_mul_right hle (v * p₁.2)).trans (hc.frontier hF hok (hb k₁ k₂) (hw k₁ k₂ _ _ hk₁' hp₂) (b' := .binary rid q₁ m q₂ v k₁ (k₂ + 1))
          (by simp [Backtrace.succs]) ?_ ?_ p hp)
        · simp only [btW, listWt_none (show (tabL c m j q₂).length ≤ k₂ + 1 by omega), Option.map_none]
          cases listWt (tabL c) i m q₁ k₁ <;> rfl
        · rintro ⟨x, hx, hf, hl⟩
          simp only [Backtrace.parts, List.mem_cons, List.not_mem_nil, or_false] at hx
          rcases hx with rfl | rfl
          · simp only at hl
            have := (List.getElem?_eq_some_iff.1 hk₁').1
            unfold tabL at hl
            omega
          · exact hl₂ (hc.complete hF hG hd₂ hk₂.1 hf)
    · obtain ⟨p₁, k₁, hp₁, hlen₁⟩ := hc.last_of_kid hk₁.1 hk₁.2
      have hle₁ := ih₁ hk₁.1 hl₁ p₁ (List.mem_of_getElem? hp₁)
      obtain ⟨p₂, k₂, hp₂, hle₂⟩ : ∃ (p₂ : Backtrace W × W) (k₂ : Nat), (tabL c m j q₂)[k₂]? = some p₂ ∧ w₂ ≤ p₂.2 := by
        by_cases hl₂ : Listed c m j q₂ t₂ w₂
        · obtain ⟨p₂, hm₂, _, rfl⟩ := hl₂
          obtain ⟨k₂, hk₂'⟩ := List.getElem?_of_mem hm₂
          exact ⟨p₂, k₂, hk₂', le_refl _⟩
        · obtain ⟨p₂, k₂, hp₂, _⟩ := hc.last_of_kid hk₂.1 hk₂.2
          exact ⟨p₂, k₂, hp₂, ih₂ hk₂.1 hl₂ p₂ (List.mem_of_getElem? hp₂)⟩
      refine (mul_le_mul' (mul_le_mul_right hle₁ v) hle₂).trans (hc.frontier hF hok (hb k₁ k₂) (hw k₁ k₂ _ _ hp₁ hp₂) (b' := .binary rid q₁ m q₂ v (k₁ + 1) k₂)
        (by simp [Backtrace.succs]) ?_ ?_ p hp)
      · simp only [btW, listWt, List.getElem?_eq_none (show (tabL c i m q₁).length ≤ k₁ + 1 by omega), Option.map_none, Option.bind_none]
      · rintro ⟨x, hx, hf, hl⟩
        simp only [Backtrace.parts, List.mem_cons, List.not_mem_nil, or_false] at hx
        rcases hx with rfl | rfl
        · exact hl₁ (hc.complete hF hG hd₁ hk₁.1 hf)
        · simp only at hl
          have := (List.getElem?_eq_some_iff.1 hp₂).1
          omega

end TabOk

end

end Rustomata
