import Verif.Proofs.CsKBestTop
import Verif.Proofs.CsKBestFill
import Verif.Spec.CsCycles
import Mathlib.Data.Fintype.Card

/-!
# The enumeration of derivations if there are cycles of chain rules
-/

namespace Rustomata
open Spec KForest

section
variable {W : Type _} [LinearOrderedCommMonoidWithZero W] {T : Type _} [DecidableEq T] {F : HForest W} {A : CsAutomaton T W} {chart : DenseChart W} {filter : List Bool}
  {Fin : Nat → Nat → Nat → Prop}

omit [DecidableEq T] in
theorem TabOk.empty {c : KTab W} (hc : TabOk F c Fin) {i j q : Nat} (hok : F.ok i j q) (h : F.H i j q = []) : (c i j q).1 = [] := by
  rw [List.eq_nil_iff_forall_not_mem]
  intro p hp
  obtain ⟨w, hw⟩ := (hc.entry hok (b := p.1) (w := p.2) hp).1
  rw [h] at hw
  simp at hw

/-- Items without rules. -/
theorem kth_empty (hB : BtOf A chart filter F) {i j q : Nat} (hok : F.ok i j q) {d : KCache W} (hc : TabOk F (F.cell d) Fin) (h : F.H i j q = []) (fuel k : Nat) :
    ∃ d', kth A chart filter (fuel + 1) i j q k d = some (none, d') ∧ F.cell d' = F.cell d := by
  have he := hc.empty hok h
  unfold kth
  cases hg : d.get (i, j, q) with
  | none =>
    simp only [hB i j q hok, h, btPop]
    refine ⟨_, rfl, HForest.cell_set_same ?_⟩
    unfold HForest.cell HForest.init
    rw [hg, h]
    rfl
  | some cell =>
    obtain ⟨derivs, cands⟩ := cell
    unfold HForest.cell at he
    rw [hg] at he
    simp only [Option.getD_some] at he
    subst he
    exact ⟨d, rfl, rfl⟩

/-- All derivations with smaller indices have been found. -/
def Reached (F : HForest W) (c : KTab W) (Fin : Nat → Nat → Nat → Prop) (i j q k : Nat) : Prop :=
  k ≤ (tabL c i j q).length ∨ (Fin i j q ∧ (tabL c i j q).length ≤ k) ∨ F.H i j q = []

/-- One call of `kth`. -/
theorem kth_step (hF : F.Ok) (hB : BtOf A chart filter F) {i j q k : Nat} (hok : F.ok i j q) {d : KCache W} (hc : TabOk F (F.cell d) Fin)
    (hk : Reached F (F.cell d) Fin i j q k) : ∃ fuel d' Fin', kth A chart filter fuel i j q k d = some ((tabL (F.cell d') i j q)[k]?, d') ∧ TabOk F (F.cell d') Fin' ∧
      TabLe (F.cell d) Fin (F.cell d') Fin' ∧ Reached F (F.cell d') Fin' i j q (k + 1) := by
  by_cases hH : F.H i j q = []
  · obtain ⟨d', h1, h2⟩ := kth_empty hB hok hc hH 0 k
    refine ⟨1, d', Fin, ?_, by rw [h2]; exact hc, by rw [h2]; exact .refl, .inr (.inr hH)⟩
    rw [h1, h2]
    unfold tabL
    rw [hc.empty hok hH]
    rfl
  by_cases hlt : k < (tabL (F.cell d) i j q).length
  · have hg : (tabL (F.cell d) i j q)[k]? = some (tabL (F.cell d) i j q)[k] := List.getElem?_eq_getElem hlt
    obtain ⟨d', h1, h2, _⟩ := kth_found hB 0 i j q k d _ hok hg
    refine ⟨1, d', Fin, by rw [h1, h2, hg], by rw [h2]; exact hc, by rw [h2]; exact .refl, .inl (by rw [h2]; omega)⟩
  have hne : (F.cell d i j q).1 ≠ [] := fun h => hH (hc.nonempty hok h)
  obtain ⟨p, hp⟩ : ∃ p, (F.cell d i j q).1.getLast? = some p := ⟨_, List.getLast?_eq_some_getLast hne⟩
  obtain ⟨t, ht⟩ := hc.den hok (List.mem_of_getLast? hp)
  have hk' : k = (tabL (F.cell d) i j q).length ∨ (Fin i j q ∧ (tabL (F.cell d) i j q).length ≤ k) := by
    rcases hk with h | h | h
    · exact .inl (by omega)
    · exact .inr h
    · exact absurd h hH
  obtain ⟨d', Fin', h1, h2, h3, _, _, h6⟩ := kth_next hF hB (t.size + 1) i j q k d Fin t hok hc ⟨p, hp, ht⟩ (Nat.lt_succ_self _) hk'
  refine ⟨_, d', Fin', h1, h2, h3, ?_⟩
  cases hg : (tabL (F.cell d') i j q)[k]? with
  | none =>
    refine .inr (.inl ⟨h6 hg, ?_⟩)
    rw [List.getElem?_eq_none_iff] at hg
    omega
  | some p => exact .inl (List.getElem?_eq_some_iff.1 hg).1

/-- `read` returns the bracket word of a derivation that was found. -/
theorem read_found {G : BinGrammar T W} {inChart : Nat → Nat → Nat → Prop} (hF : F.Ok) (hB : BtOf A chart filter F) (hG : FormsOf G inChart F)
    (hbr : BracketsOK G A.brackets) {c : KTab W} (hc : TabOk F c Fin) {i j : Nat} {b : Backtrace W} {t : BinTree} (hd : DenotesIn (tabL c) i j b t) :
    ∀ {q}, F.ok i j q → F.Cand i j q b → ∃ v, treeWord A.brackets t = some v ∧ ∀ d fuel, F.cell d = c → t.size ≤ fuel →
      ∃ d', readBt A chart filter fuel i j b d = some (v, d') ∧ F.cell d' = c := by
  induction hd with
  | nullary =>
    intro q hok hb
    obtain ⟨_, a, ha⟩ := (hG.nullary hok).1 hb
    obtain ⟨br, h1, h2, h3⟩ := hbr.nullary ha
    refine ⟨inBrackets br.outer (inBrackets br.left []), by simp [treeWord, h1], fun d fuel hd hs => ?_⟩
    obtain ⟨f, rfl⟩ : ∃ f, fuel = f + 1 := ⟨fuel - 1, by simp only [BinTree.size] at hs; omega⟩
    exact ⟨d, by simp [readBt, h1, inBrackets_eq h2, inBrackets_eq h3], hd⟩
  | unary h1 h2 ih =>
    intro q hok hb
    rename_i i j rid q₁ k w p t
    have hk : F.ok i j q₁ ∧ F.H i j q₁ ≠ [] := TabOk.kids hF hok hb (i, j, q₁) (by simp [Backtrace.kids])
    obtain ⟨hu, _⟩ := (hG.unary hok).1 hb
    obtain ⟨br, g1, g2, g3⟩ := hbr.unary hu
    obtain ⟨v₁, e1, e2⟩ := ih hk.1 (hc.entry hk.1 (List.mem_of_getElem? h1)).1
    refine ⟨inBrackets br.outer (inBrackets br.left v₁), by simp [treeWord, g1, e1], fun d fuel hd hs => ?_⟩
    simp only [BinTree.size] at hs
    have := t.size_pos
    obtain ⟨f, rfl⟩ : ∃ f, fuel = f + 1 + 1 := ⟨fuel - 2, by omega⟩
    obtain ⟨d₁, a1, a2, _⟩ := kth_found hB f i j q₁ k d p hk.1 (by rw [hd]; exact h1)
    obtain ⟨d₂, b1, b2⟩ := e2 d₁ (f + 1) (a2.trans hd) (by omega)
    exact ⟨d₂, by simp [readBt, a1, b1, g1, inBrackets_eq g2, inBrackets_eq g3], b2⟩
  | binary h1 h2 h3 h4 ih₁ ih₂ =>
    intro q hok hb
    rename_i i j rid q₁ m q₂ k₁ k₂ w p₁ p₂ t₁ t₂
    have hk₁ : F.ok i m q₁ ∧ F.H i m q₁ ≠ [] := TabOk.kids hF hok hb (i, m, q₁) (by simp [Backtrace.kids])
    have hk₂ : F.ok m j q₂ ∧ F.H m j q₂ ≠ [] := TabOk.kids hF hok hb (m, j, q₂) (by simp [Backtrace.kids])
    obtain ⟨_, _, hu, _⟩ := (hG.binary hok).1 hb
    obtain ⟨br, g1, g2⟩ := hbr.binary hu
    obtain ⟨v₁, e1, e2⟩ := ih₁ hk₁.1 (hc.entry hk₁.1 (List.mem_of_getElem? h1)).1
    obtain ⟨v₂, f1, f2⟩ := ih₂ hk₂.1 (hc.entry hk₂.1 (List.mem_of_getElem? h2)).1
    refine ⟨inBrackets br.outer (inBrackets br.left v₁ ++ inBrackets br.right v₂), by simp [treeWord, g1, e1, f1], fun d fuel hd hs => ?_⟩
    simp only [BinTree.size] at hs
    have := t₁.size_pos
    obtain ⟨f, rfl⟩ : ∃ f, fuel = f + 1 + 1 := ⟨fuel - 2, by omega⟩
    obtain ⟨d₁, a1, a2, _⟩ := kth_found hB f i m q₁ k₁ d p₁ hk₁.1 (by rw [hd]; exact h1)
    obtain ⟨d₂, a3, a4, _⟩ := kth_found hB f m j q₂ k₂ d₁ p₂ hk₂.1 (by rw [a2, hd]; exact h2)
    obtain ⟨d₃, b1, b2⟩ := e2 d₂ (f + 1) (a4.trans (a2.trans hd)) (by omega)
    obtain ⟨d₄, b3, b4⟩ := f2 d₃ (f + 1) b2 (by omega)
    exact ⟨d₄, by simp [readBt, a1, a3, b1, b3, g1, bracketed_eq, inBrackets_eq g2], b4⟩

/-- The result for an index. -/
def WordAt (F : HForest W) (brackets : List TdBrackets) (c : KTab W) (Fin : Nat → Nat → Nat → Prop) (i j q k : Nat) (o : Option (List (Bracket BracketContent))) : Prop :=
  (∃ p t v, (tabL c i j q)[k]? = some p ∧ DenotesIn (tabL c) i j p.1 t ∧ treeWord brackets t = some v ∧ o = some v) ∨
    (o = none ∧ (tabL c i j q).length ≤ k ∧ (Fin i j q ∨ F.H i j q = []))

omit [DecidableEq T] in
theorem WordAt.mono {brackets : List TdBrackets} {c c' : KTab W} {Fin'} (h : TabLe c Fin c' Fin') (hc' : TabOk F c' Fin') {i j q k : Nat} (hok : F.ok i j q)
    {o : Option (List (Bracket BracketContent))} (hw : WordAt F brackets c Fin i j q k o) : WordAt F brackets c' Fin' i j q k o := by
  rcases hw with ⟨p, t, v, h1, h2, h3, h4⟩ | ⟨h1, h2, h3 | h3⟩
  · exact .inl ⟨p, t, v, getElem?_of_prefix (h.pre i j q) h1, h2.mono h.pre, h3, h4⟩
  · refine .inr ⟨h1, ?_, .inl (h.fin _ _ _ h3)⟩
    unfold tabL at h2 ⊢
    rw [h.same _ _ _ h3]
    exact h2
  · refine .inr ⟨h1, ?_, .inr h3⟩
    unfold tabL
    rw [hc'.empty hok h3]
    simp

theorem next_step {G : BinGrammar T W} {inChart : Nat → Nat → Nat → Prop} (hF : F.Ok) (hB : BtOf A chart filter F) (hG : FormsOf G inChart F)
    (hbr : BracketsOK G A.brackets) {n : Nat} (hn : n ≤ 255) (hok : F.ok 0 n A.initial) {it : KIter W} (hc : TabOk F (F.cell it.d) Fin)
    (hk : Reached F (F.cell it.d) Fin 0 n A.initial it.k) :
    ∃ fuel o it' Fin', it.next A chart filter fuel n = some (o, it') ∧ it'.k = it.k + 1 ∧ TabOk F (F.cell it'.d) Fin' ∧ TabLe (F.cell it.d) Fin (F.cell it'.d) Fin' ∧
      Reached F (F.cell it'.d) Fin' 0 n A.initial it'.k ∧ WordAt F A.brackets (F.cell it'.d) Fin' 0 n A.initial it.k o := by
  have hu : u8 n = n := Nat.mod_eq_of_lt (by omega)
  obtain ⟨fuel, d', Fin', h1, h2, h3, h4⟩ := kth_step hF hB hok hc hk
  cases hp : (tabL (F.cell d') 0 n A.initial)[it.k]? with
  | none =>
    rw [hp] at h1
    refine ⟨fuel, none, ⟨d', it.k + 1⟩, Fin', ?_, rfl, h2, h3, h4, .inr ⟨rfl, List.getElem?_eq_none_iff.1 hp, ?_⟩⟩
    · unfold KIter.next
      rw [hu]
      simp only [h1]
    · rcases h4 with h | h | h
      · rw [List.getElem?_eq_none_iff] at hp
        omega
      · exact .inl h.1
      · exact .inr h
  | some p =>
    rw [hp] at h1
    obtain ⟨t, ht⟩ := h2.den hok (List.mem_of_getElem? hp)
    obtain ⟨v, e1, e2⟩ := read_found hF hB hG hbr h2 ht hok (h2.entry hok (b := p.1) (w := p.2) (List.mem_of_getElem? hp)).1
    obtain ⟨d₂, f1, f2⟩ := e2 d' (max fuel t.size) rfl (Nat.le_max_right _ _)
    have h1' := kth_mono fuel (max fuel t.size) (Nat.le_max_left _ _) _ _ _ _ _ _ h1
    refine ⟨max fuel t.size, some v, ⟨d₂, it.k + 1⟩, Fin', ?_, rfl, ?_, ?_, ?_, ?_⟩
    · unfold KIter.next
      rw [hu]
      simp only [h1', f1]
    all_goals simp only [f2]
    · exact h2
    · exact h3
    · exact h4
    · exact .inl ⟨p, t, v, hp, ht, e1, rfl⟩

/-- The first calls of the iterator. -/
theorem run_step {G : BinGrammar T W} {inChart : Nat → Nat → Nat → Prop} (hF : F.Ok) (hB : BtOf A chart filter F) (hG : FormsOf G inChart F)
    (hbr : BracketsOK G A.brackets) {n : Nat} (hn : n ≤ 255) (hok : F.ok 0 n A.initial) (m : Nat) : ∀ {it : KIter W} {Fin}, TabOk F (F.cell it.d) Fin →
    Reached F (F.cell it.d) Fin 0 n A.initial it.k →
    ∃ fuel out d' Fin', KIter.run A chart filter fuel n m it = some out ∧ out.length = m ∧ TabOk F (F.cell d') Fin' ∧ TabLe (F.cell it.d) Fin (F.cell d') Fin' ∧
      Reached F (F.cell d') Fin' 0 n A.initial (it.k + m) ∧ ∀ k o, out[k]? = some o → WordAt F A.brackets (F.cell d') Fin' 0 n A.initial (it.k + k) o := by
  induction m with
  | zero => exact fun {it Fin} hc hk => ⟨0, [], it.d, Fin, rfl, rfl, hc, .refl, hk, by simp⟩
  | succ m ih =>
    intro it Fin hc hk
    obtain ⟨f₁, o, it', Fin₁, h1, h2, h3, h4, h5, h6⟩ := next_step hF hB hG hbr hn hok hc hk
    obtain ⟨f₂, out, d', Fin', g1, g2, g3, g4, g5, g6⟩ := ih h3 h5
    refine ⟨max f₁ f₂, o :: out, d', Fin', ?_, by simp [g2], g3, h4.trans g4, by rw [h2] at g5; rw [show it.k + (m + 1) = it.k + 1 + m by omega]; exact g5, ?_⟩
    · simp only [KIter.run, KIter.next_mono (Nat.le_max_left f₁ f₂) h1, KIter.run_mono (Nat.le_max_right f₁ f₂) m g1, Option.map_some]
    · intro k o' hk'
      cases k with
      | zero =>
        simp only [List.getElem?_cons_zero, Option.some.injEq] at hk'
        subst hk'
        exact h6.mono g4 g3 hok
      | succ k =>
        rw [List.getElem?_cons_succ] at hk'
        have := g6 k o' hk'
        rw [h2] at this
        rw [show it.k + (k + 1) = it.k + 1 + k by omega]
        exact this

/-- The first calls return the bracket words of the best derivations. -/
theorem enumerates_of_forest {inChart : Nat → Nat → Nat → Prop} (hF : F.Ok) (hB : BtOf A chart filter F) (hG : FormsOf (buGrammar A filter) inChart F)
    (hin : inChart = fun i j q => ∃ w, chart.getWeight i j q = some (some w))
    (hbr : BracketsOK (buGrammar A filter) A.brackets) {n : Nat} (hn : n ≤ 255) (hok : F.ok 0 n A.initial) (m : Nat) : Enumerates A chart filter n m := by
  have hcell : F.cell [] = F.init := by
    funext i j q
    rfl
  obtain ⟨fuel, out, d, Fin, h1, h2, h3, _, h5, h6⟩ := run_step hF hB hG hbr hn hok m (it := KIter.new) (Fin := fun _ _ _ => False)
    (by rw [show (KIter.new : KIter W).d = [] from rfl, hcell]; exact hF.initial) (.inl (Nat.zero_le _))
  rw [show (KIter.new : KIter W).k = 0 from rfl] at h5 h6
  simp only [Nat.zero_add] at h5 h6
  set c := F.cell d with hc
  set L := tabL c 0 n A.initial with hL
  have hmem : ∀ {k : Nat} {p}, L[k]? = some p → p ∈ (c 0 n A.initial).1 := fun h => List.mem_of_getElem? h
  obtain ⟨xs, hxs⟩ := exists_forall₂ (R := fun (p : Backtrace W × W) (x : BinTree × W) => DenotesIn (tabL c) 0 n p.1 x.1 ∧ x.2 = p.2 ∧
      ∃ v, treeWord A.brackets x.1 = some v) (L.take m) fun p hp => by
    obtain ⟨t, ht⟩ := h3.den hok (List.mem_of_mem_take hp)
    obtain ⟨v, hv, _⟩ := read_found hF hB hG hbr h3 ht hok (h3.entry hok (b := p.1) (w := p.2) (List.mem_of_mem_take hp)).1
    exact ⟨(t, p.2), ht, rfl, v, hv⟩
  have hlen := hxs.length_eq
  rw [List.length_take] at hlen
  have hnth : ∀ (k : Nat) x, xs[k]? = some x → ∃ p, L[k]? = some p ∧ k < m ∧ DenotesIn (tabL c) 0 n p.1 x.1 ∧ x.2 = p.2 ∧ ∃ v, treeWord A.brackets x.1 = some v := by
    intro k x hx
    obtain ⟨g1, rfl⟩ := List.getElem?_eq_some_iff.1 hx
    have := (List.forall₂_iff_get.1 hxs).2 k (by rw [List.length_take]; omega) g1
    simp only [List.get_eq_getElem, List.getElem_take] at this
    exact ⟨_, List.getElem?_eq_getElem (by omega), by omega, this⟩
  obtain ⟨words, hwords⟩ := exists_forall₂ (R := fun (x : BinTree × W) v => treeWord A.brackets x.1 = some v) xs fun x hx => by
    obtain ⟨k, hk⟩ := List.getElem?_of_mem hx
    exact (hnth k x hk).choose_spec.2.2.2.2
  have hlen' := hwords.length_eq
  have hlist : ∀ (k : Nat) p t, L[k]? = some p → DenotesIn (tabL c) 0 n p.1 t → k < m → xs[k]? = some (t, p.2) := by
    intro k p t hp ht hk
    have hlt := (List.getElem?_eq_some_iff.1 hp).1
    have hx : xs[k]? = some xs[k] := List.getElem?_eq_getElem (by omega)
    obtain ⟨p', g1, _, g2, g3, _⟩ := hnth k _ hx
    rw [hp] at g1
    cases g1
    rw [hx, ht.det g2, ← g3]
  refine ⟨xs, words, by omega, ?_, ?_, ?_, ?_, hwords, fuel, fun fuel' hf => ?_⟩
  · rw [List.nodup_iff_injective_getElem]
    rintro ⟨k, hk⟩ ⟨k', hk'⟩ he
    simp only [List.getElem_map] at he
    rw [List.length_map] at hk hk'
    obtain ⟨p, g1, _, g2, _⟩ := hnth k _ (List.getElem?_eq_getElem hk)
    obtain ⟨p', g1', _, g2', _⟩ := hnth k' _ (List.getElem?_eq_getElem hk')
    rw [he] at g2
    have e := h3.entry hok (b := p.1) (w := p.2) (hmem g1)
    have e' := h3.entry hok (b := p'.1) (w := p'.2) (hmem g1')
    have hb := g2.inj hF h3 hok e.1 e'.1 g2'
    have hw := e.2
    rw [hb, e'.2, Option.some.injEq] at hw
    have hpp : p = p' := Prod.ext hb hw.symm
    rw [← hpp] at g1'
    rw [_root_.Fin.mk.injEq]
    exact h3.index hok g1 g1'
  · rw [List.pairwise_iff_getElem]
    intro k k' hk hk' hlt
    obtain ⟨p, g1, _, _, g3, _⟩ := hnth k _ (List.getElem?_eq_getElem hk)
    obtain ⟨p', g1', _, _, g3', _⟩ := hnth k' _ (List.getElem?_eq_getElem hk')
    rw [g3, g3']
    exact snd_le_of_bwKey (h3.L_lt hok g1 g1' hlt).le
  · intro x hx
    obtain ⟨k, hk⟩ := List.getElem?_of_mem hx
    obtain ⟨p, g1, _, g2, g3, _⟩ := hnth k x hk
    have e := h3.entry hok (b := p.1) (w := p.2) (hmem g1)
    rw [g3, ← hin]
    exact g2.sound hF h3 hG hok e.1 e.2
  · intro t w hd
    rw [← hin] at hd
    by_cases hl : Listed c 0 n A.initial t w
    · obtain ⟨p, hp, g1, g2⟩ := hl
      obtain ⟨k, hk⟩ := List.getElem?_of_mem hp
      by_cases hkm : k < m
      · refine .inl (List.mem_of_getElem? (i := k) ?_)
        rw [hlist k p t hk g1 hkm, g2]
      · have hlt := (List.getElem?_eq_some_iff.1 hk).1
        refine .inr ⟨by unfold tabL at hL; rw [← hL] at hlt; omega, fun x hx => ?_⟩
        obtain ⟨k', hk'⟩ := List.getElem?_of_mem hx
        obtain ⟨p', e1, e2, _, e3, _⟩ := hnth k' x hk'
        rw [e3, ← g2]
        exact snd_le_of_bwKey (h3.L_lt hok e1 hk (by omega)).le
    · refine .inr ⟨?_, fun x hx => ?_⟩
      · rcases h5 with h | h | h
        · rw [← hL] at h
          omega
        · exact absurd (h3.complete hF hG hd hok h.1) hl
        · exfalso
          have hne : ∀ {b : Backtrace W}, ¬ F.Cand 0 n A.initial b := fun ⟨w, hw⟩ => by
            rw [h] at hw
            simp at hw
          cases hd with
          | nullary ha => exact hne (b := .nullary _ _) ((hG.nullary hok).2 ⟨rfl, _, ha⟩)
          | unary hu hch _ => exact hne (b := .unary _ _ _ 0) ((hG.unary hok).2 ⟨hu, hch⟩)
          | binary g1 g2 hu hch₁ hch₂ _ _ => exact hne (b := .binary _ _ _ _ _ 0 0) ((hG.binary hok).2 ⟨g1, g2, hu, hch₁, hch₂⟩)
      · obtain ⟨k, hk⟩ := List.getElem?_of_mem hx
        obtain ⟨p, e1, _, _, e3, _⟩ := hnth k x hk
        rw [e3]
        exact h3.top hF hG hd hok hl p (hmem e1)
  · rw [KIter.run_mono hf m h1, Option.some.injEq]
    refine List.ext_getElem? fun k => ?_
    by_cases hk : k < m
    · rw [List.getElem?_map, List.getElem?_range hk, Option.map_some]
      have ho : out[k]? = some out[k] := List.getElem?_eq_getElem (by omega)
      rw [ho]
      rcases h6 k _ ho with ⟨p, t, v, g1, g2, g3, g4⟩ | ⟨g1, g2, _⟩
      · rw [g4]
        have hx := hlist k p t g1 g2 hk
        obtain ⟨e1, e2⟩ := List.getElem?_eq_some_iff.1 hx
        have := (List.forall₂_iff_get.1 hwords).2 k e1 (by omega)
        simp only [List.get_eq_getElem, e2] at this
        rw [g3, Option.some.injEq] at this
        rw [List.getElem?_eq_getElem (by omega), this]
      · rw [g1, List.getElem?_eq_none (by rw [← hL] at g2; omega)]
    · rw [List.getElem?_eq_none (by omega), List.getElem?_eq_none (by simp; omega)]

end

section
variable {N T W : Type _} [DecidableEq N] [DecidableEq T] [LinearOrderedCommMonoidWithZero W]

/-- The initial candidates of the items of a chart. -/
def headForest (A : CsAutomaton T W) (chart : DenseChart W) (filter : List Bool) (n : Nat) : HForest W where
  H i j q := (backtraces A chart filter i j q).getD []
  ok i j q := i < j ∧ j ≤ n ∧ q < A.states

variable {A : CsAutomaton T W} {st : List (CsState N)} {ps : List (CsProd N T W × TdBrackets)} {filter : List Bool} {chart : DenseChart W} {n : Nat}

theorem headForest_bt (hA : A.Rep st ps) (hf : filter.length = A.brackets.length)
    (hget : ∀ i j q, i < j → j ≤ n → q < A.states → ∃ o, chart.getWeight i j q = some o) : BtOf A chart filter (headForest A chart filter n) := by
  intro i j q hok
  obtain ⟨h, h1, _⟩ := backtraces_spec hA hf hget hok.1 hok.2.1 hok.2.2
  simp only [headForest, h1, Option.getD_some]

theorem headForest_mem (hA : A.Rep st ps) (hf : filter.length = A.brackets.length)
    (hget : ∀ i j q, i < j → j ≤ n → q < A.states → ∃ o, chart.getWeight i j q = some o) {i j q : Nat} (hok : (headForest A chart filter n).ok i j q) :
    BtDistinct ((headForest A chart filter n).H i j q) ∧
      ∀ w b, (w, b) ∈ (headForest A chart filter n).H i j q ↔ BtCand (buGrammar A filter) (chartWeight chart) i j q w b := by
  obtain ⟨h, h1, h2, h3⟩ := backtraces_spec hA hf hget hok.1 hok.2.1 hok.2.2
  simp only [headForest, h1, Option.getD_some]
  exact ⟨h2, h3⟩

theorem headForest_forms (hA : A.Rep st ps) (hf : filter.length = A.brackets.length)
    (hget : ∀ i j q, i < j → j ≤ n → q < A.states → ∃ o, chart.getWeight i j q = some o) :
    FormsOf (buGrammar A filter) (fun i j q => ∃ w, chartWeight chart i j q = some w) (headForest A chart filter n) := by
  refine ⟨?_, ?_, ?_⟩
  · intro i j q rid w hok
    simp only [(headForest_mem hA hf hget hok).2]
    constructor
    · rintro ⟨w', rfl, h1, h2⟩
      exact ⟨h1, h2⟩
    · rintro ⟨h1, h2⟩
      exact ⟨w, rfl, h1, h2⟩
  · intro i j q rid q₁ w hok
    simp only [(headForest_mem hA hf hget hok).2]
    constructor
    · rintro ⟨w', _, h2, w₁, h3, _⟩
      exact ⟨h2, w₁, h3⟩
    · rintro ⟨h2, w₁, h3⟩
      exact ⟨_, rfl, h2, w₁, h3, rfl⟩
  · intro i j q rid q₁ m q₂ w hok
    simp only [(headForest_mem hA hf hget hok).2]
    constructor
    · rintro ⟨w', _, _, h3, h4, h5, w₁, w₂, h6, h7, _⟩
      exact ⟨h3, h4, h5, ⟨w₁, h6⟩, w₂, h7⟩
    · rintro ⟨h3, h4, h5, ⟨w₁, h6⟩, w₂, h7⟩
      exact ⟨_, rfl, rfl, h3, h4, h5, w₁, w₂, h6, h7, rfl⟩

/-- The best backtrace of a state in the chart has the weight in the chart. -/
theorem headForest_head (hA : A.Rep st ps) (hf : filter.length = A.brackets.length)
    (hget : ∀ i j q, i < j → j ≤ n → q < A.states → ∃ o, chart.getWeight i j q = some o) (hbest : ChartBest (buGrammar A filter) (chartWeight chart) n A.states)
    {i j q : Nat} (hok : (headForest A chart filter n).ok i j q) {w : W} (hw : chartWeight chart i j q = some w) :
    ∃ b r, (headForest A chart filter n).init i j q = ([(b, w)], r) ∧ BtCand (buGrammar A filter) (chartWeight chart) i j q w b := by
  have hm := (headForest_mem hA hf hget hok).2
  obtain ⟨h1, h2⟩ := hbest i j q w hok.1 hok.2.1 hok.2.2 hw
  obtain ⟨b₀, hb₀⟩ := h1.cand
  cases hp : btPop ((headForest A chart filter n).H i j q) with
  | none =>
    rw [btPop_none] at hp
    have := (hm w b₀).2 hb₀
    rw [hp] at this
    simp at this
  | some x =>
    obtain ⟨⟨w', b⟩, r⟩ := x
    obtain ⟨hperm, hmax⟩ := btPop_some hp
    have hb : BtCand (buGrammar A filter) (chartWeight chart) i j q w' b := (hm w' b).1 (hperm.mem_iff.2 (by simp))
    have hle : w ≤ w' := by
      have := hperm.mem_iff.1 ((hm w b₀).2 hb₀)
      rw [List.mem_cons] at this
      rcases this with h | h
      · cases h
        exact le_refl _
      · exact snd_le_of_bwKey (p := (b, w')) (p' := (b₀, w)) (hmax _ h)
    have hww : w' = w := le_antisymm (h2 _ hb.way) hle
    subst hww
    refine ⟨b, r, ?_, hb⟩
    unfold HForest.init
    rw [hp]

theorem buGrammar_states (hA : A.Rep st ps) : (∀ {rid q q₁ w}, (buGrammar A filter).unary rid q q₁ w → q₁ < A.states) ∧
    ∀ {rid q q₁ q₂ w}, (buGrammar A filter).binary rid q q₁ q₂ w → q₁ < A.states ∧ q₂ < A.states := by
  have hs : A.states = st.length := hA.len.1
  have hst : ∀ (q : Nat) Q, st[q]? = some Q → q < A.states := fun q Q h => hs ▸ (List.getElem?_eq_some_iff.1 h).1
  constructor
  · intro rid q q₁ w h
    rw [hA.grammar] at h
    obtain ⟨_, Q, S, _, _, hS⟩ := h
    exact hst _ _ hS
  · intro rid q q₁ q₂ w h
    rw [hA.grammar] at h
    obtain ⟨_, Q, L, R, _, _, hL, hR⟩ := h
    exact ⟨hst _ _ hL, hst _ _ hR⟩

/-- The best backtrace of the item is a chain rule for `q₁`. -/
def HeadChain (F : HForest W) (i j : Nat) (q₁ q : Nat) : Prop := ∃ rid v w, (.unary rid q₁ v 0, w) ∈ (F.init i j q).1

theorem headForest_cycle (hA : A.Rep st ps) (hf : filter.length = A.brackets.length)
    (hget : ∀ i j q, i < j → j ≤ n → q < A.states → ∃ o, chart.getWeight i j q = some o) (hbest : ChartBest (buGrammar A filter) (chartWeight chart) n A.states)
    (hcyc : ∀ i j q v x, ChainPath (buGrammar A filter) q q v → chartWeight chart i j q = some x → v * x < x)
    {i j : Nat} (hij : i < j) (hj : j ≤ n) {q q' : Nat} (hq : q < A.states) (h : Relation.TransGen (HeadChain (headForest A chart filter n) i j) q' q) : q' ≠ q := by
  have hin : ∀ {p w}, p < A.states → ∀ b, (b, w) ∈ ((headForest A chart filter n).init i j p).1 → BtCand (buGrammar A filter) (chartWeight chart) i j p w b := by
    intro p w hp b hb
    unfold HForest.init at hb
    cases hpop : btPop ((headForest A chart filter n).H i j p) with
    | none => simp [hpop] at hb
    | some x =>
      obtain ⟨⟨w', b'⟩, r⟩ := x
      simp only [hpop, List.mem_singleton, Prod.mk.injEq] at hb
      obtain ⟨rfl, rfl⟩ := hb
      exact ((headForest_mem hA hf hget ⟨hij, hj, hp⟩).2 _ _).1 ((btPop_some hpop).1.mem_iff.2 (by simp))
  -- a path with the weight of the item
  have key : ∃ v x', ChainPath (buGrammar A filter) q q' v ∧ chartWeight chart i j q' = some x' ∧ ∀ x, chartWeight chart i j q = some x → x = v * x' := by
    have hstep : ∀ {q₁ q}, q < A.states → HeadChain (headForest A chart filter n) i j q₁ q → ∃ rid v w₁, (buGrammar A filter).unary rid q q₁ v ∧
        chartWeight chart i j q₁ = some w₁ ∧ ∀ x, chartWeight chart i j q = some x → x = v * w₁ := by
      rintro q₁ q hq ⟨rid, v, w, hm⟩
      obtain ⟨_, hu, w₁, h1, h2⟩ := hin hq _ hm
      refine ⟨rid, v, w₁, hu, h1, fun x hx => ?_⟩
      obtain ⟨b, r, h3, _⟩ := headForest_head hA hf hget hbest ⟨hij, hj, hq⟩ hx
      rw [h3, List.mem_singleton, Prod.mk.injEq] at hm
      rw [← hm.2, h2]
    clear hcyc
    induction h with
    | single h =>
      obtain ⟨rid, v, w₁, g1, g2, g3⟩ := hstep hq h
      exact ⟨v, w₁, .one g1, g2, g3⟩
    | tail _ h ih =>
      obtain ⟨rid, v, w₁, g1, g2, g3⟩ := hstep hq h
      obtain ⟨v', x', e1, e2, e3⟩ := ih ((buGrammar_states hA).1 g1)
      refine ⟨v * v', x', .cons g1 e1, e2, fun x hx => ?_⟩
      rw [g3 x hx, e3 w₁ g2, mul_assoc]
  rintro rfl
  obtain ⟨v, x', g1, g2, g3⟩ := key
  have := hcyc i j q' v x' g1 g2
  rw [← g3 x' g2] at this
  exact lt_irrefl _ this

theorem headForest_ok (hA : A.Rep st ps) (hf : filter.length = A.brackets.length)
    (hget : ∀ i j q, i < j → j ≤ n → q < A.states → ∃ o, chart.getWeight i j q = some o) (hbest : ChartBest (buGrammar A filter) (chartWeight chart) n A.states)
    (hcyc : ∀ i j q v x, ChainPath (buGrammar A filter) q q v → chartWeight chart i j q = some x → v * x < x) : (headForest A chart filter n).Ok := by
  have hs := buGrammar_states (filter := filter) hA
  have hm := fun {i j q} (hok : (headForest A chart filter n).ok i j q) => (headForest_mem hA hf hget hok).2
  have hhead := fun {i j q w} (hok : (headForest A chart filter n).ok i j q) (hw : chartWeight chart i j q = some w) => headForest_head hA hf hget hbest hok hw
  have hkid : ∀ {i j q w}, (headForest A chart filter n).ok i j q → chartWeight chart i j q = some w →
      listWt (tabL (headForest A chart filter n).init) i j q 0 = some w := by
    intro i j q w hok hw
    obtain ⟨b, r, h, _⟩ := hhead hok hw
    unfold listWt tabL
    rw [h]
    rfl
  have hne : ∀ {i j q w}, (headForest A chart filter n).ok i j q → chartWeight chart i j q = some w → (headForest A chart filter n).H i j q ≠ [] := by
    intro i j q w hok hw he
    obtain ⟨b, r, _, hb⟩ := hhead hok hw
    have := (hm hok _ _).2 hb
    rw [he] at this
    simp at this
  refine ⟨?_, fun hok => (headForest_mem hA hf hget hok).1, ?_, ?_, ?_⟩
  · intro i j q w b hok hb
    have := (hm hok _ _).1 hb
    cases b with
    | nullary => rfl
    | unary =>
      obtain ⟨rfl, _⟩ := this
      rfl
    | binary =>
      obtain ⟨rfl, rfl, _⟩ := this
      rfl
  · intro i j q w b hok hb c hc
    have hcand := (hm hok _ _).1 hb
    cases b with
    | nullary => simp [Backtrace.kids] at hc
    | unary rid q₁ v k =>
      simp only [Backtrace.kids, List.mem_singleton] at hc
      subst hc
      obtain ⟨_, hu, w₁, h1, _⟩ := hcand
      have hok' : (headForest A chart filter n).ok i j q₁ := ⟨hok.1, hok.2.1, hs.1 hu⟩
      exact ⟨hok', hne hok' h1⟩
    | binary rid q₁ m q₂ v k₁ k₂ =>
      obtain ⟨_, _, h1, h2, hu, w₁, w₂, h3, h4, _⟩ := hcand
      have hj := hok.2.1
      have hok₁ : (headForest A chart filter n).ok i m q₁ := ⟨h1, by omega, (hs.2 hu).1⟩
      have hok₂ : (headForest A chart filter n).ok m j q₂ := ⟨h2, hj, (hs.2 hu).2⟩
      simp only [Backtrace.kids, List.mem_cons, List.not_mem_nil, or_false] at hc
      rcases hc with rfl | rfl
      · exact ⟨hok₁, hne hok₁ h3⟩
      · exact ⟨hok₂, hne hok₂ h4⟩
  · intro i j q w b hok hb
    have hcand := (hm hok _ _).1 hb
    cases b with
    | nullary => exact congrArg some hcand.1.symm
    | unary rid q₁ v k =>
      obtain ⟨rfl, hu, w₁, h1, rfl⟩ := hcand
      simp only [btW, hkid ⟨hok.1, hok.2.1, hs.1 hu⟩ h1, Option.map_some]
    | binary rid q₁ m q₂ v k₁ k₂ =>
      obtain ⟨rfl, rfl, h1, h2, hu, w₁, w₂, h3, h4, rfl⟩ := hcand
      have hj := hok.2.1
      simp only [btW, hkid (show (headForest A chart filter n).ok i m q₁ from ⟨h1, by omega, (hs.2 hu).1⟩) h3,
        hkid (show (headForest A chart filter n).ok m j q₂ from ⟨h2, hj, (hs.2 hu).2⟩) h4, Option.bind_some, Option.map_some, mul_assoc]
  · intro i j q p hok hp
    have hin : ∀ {i j p w}, (headForest A chart filter n).ok i j p → ∀ b, (b, w) ∈ ((headForest A chart filter n).init i j p).1 →
        BtCand (buGrammar A filter) (chartWeight chart) i j p w b := by
      intro i j p w hp b hb
      unfold HForest.init at hb
      cases hpop : btPop ((headForest A chart filter n).H i j p) with
      | none => simp [hpop] at hb
      | some x =>
        obtain ⟨⟨w', b'⟩, r⟩ := x
        simp only [hpop, List.mem_singleton, Prod.mk.injEq] at hb
        obtain ⟨rfl, rfl⟩ := hb
        exact (hm hp _ _).1 ((btPop_some hpop).1.mem_iff.2 (by simp))
    -- induction on the length of the span, then on the chains of best backtraces
    obtain ⟨l, hl⟩ : ∃ l, l = j - i := ⟨_, rfl⟩
    induction l using Nat.strong_induction_on generalizing i j q p with
    | _ l ih =>
      have hwf : WellFounded fun (a b : _root_.Fin A.states) => Relation.TransGen (HeadChain (headForest A chart filter n) i j) a.1 b.1 := by
        haveI : IsTrans (_root_.Fin A.states) fun a b => Relation.TransGen (HeadChain (headForest A chart filter n) i j) a.1 b.1 := ⟨fun _ _ _ h h' => h.trans h'⟩
        haveI : Std.Irrefl fun (a b : _root_.Fin A.states) => Relation.TransGen (HeadChain (headForest A chart filter n) i j) a.1 b.1 :=
          ⟨fun a h => headForest_cycle hA hf hget hbest hcyc hok.1 hok.2.1 a.2 h rfl⟩
        exact Finite.wellFounded_of_trans_of_irrefl _
      have key : ∀ a : _root_.Fin A.states, ∀ p ∈ ((headForest A chart filter n).init i j a.1).1, ∃ t, DenotesIn (tabL (headForest A chart filter n).init) i j p.1 t := by
        intro a
        induction a using hwf.induction with
        | _ a iha =>
          rintro ⟨b, w⟩ hp
          have hcand := hin ⟨hok.1, hok.2.1, a.2⟩ b hp
          cases b with
          | nullary => exact ⟨_, .nullary⟩
          | unary rid q₁ v k =>
            obtain ⟨rfl, hu, w₁, h1, _⟩ := hcand
            have hq₁ := hs.1 hu
            obtain ⟨b', r, h2, _⟩ := hhead ⟨hok.1, hok.2.1, hq₁⟩ h1
            obtain ⟨t, ht⟩ := iha ⟨q₁, hq₁⟩ (.single ⟨rid, v, w, hp⟩) (b', w₁) (by rw [h2]; simp)
            exact ⟨_, .unary (p := (b', w₁)) (by unfold tabL; rw [h2]; rfl) ht⟩
          | binary rid q₁ m q₂ v k₁ k₂ =>
            obtain ⟨rfl, rfl, h1, h2, hu, w₁, w₂, h3, h4, _⟩ := hcand
            have hj := hok.2.1
            have hok₁ : (headForest A chart filter n).ok i m q₁ := ⟨h1, by omega, (hs.2 hu).1⟩
            have hok₂ : (headForest A chart filter n).ok m j q₂ := ⟨h2, hj, (hs.2 hu).2⟩
            obtain ⟨b₁, r₁, e1, _⟩ := hhead hok₁ h3
            obtain ⟨b₂, r₂, e2, _⟩ := hhead hok₂ h4
            obtain ⟨t₁, ht₁⟩ := ih _ (by omega) (p := (b₁, w₁)) hok₁ (by rw [e1]; simp) rfl
            obtain ⟨t₂, ht₂⟩ := ih _ (by omega) (p := (b₂, w₂)) hok₂ (by rw [e2]; simp) rfl
            exact ⟨_, .binary (p₁ := (b₁, w₁)) (p₂ := (b₂, w₂)) (by unfold tabL; rw [e1]; rfl) (by unfold tabL; rw [e2]; rfl) ht₁ ht₂⟩
      exact key ⟨q, hok.2.2⟩ p hp

/-- The enumeration for charts in which cycles of chain rules lower the weights. -/
theorem enumerates_cycles {factorize : W → Nat → List W} {rules : List (Nat × PMCFGRule N T W)} (hp : grammarProds factorize rules = some ps) (hA : A.Rep st ps)
    (hi : A.initial < A.states) (hf : filter.length = A.brackets.length)
    (hget : ∀ i j q, i < j → j ≤ n → q < A.states → ∃ o, chart.getWeight i j q = some o) (hbest : ChartBest (buGrammar A filter) (chartWeight chart) n A.states)
    (hcyc : CyclesLower (buGrammar A filter)) (hn0 : 0 < n) (hn : n ≤ 255) (m : Nat) : Enumerates A chart filter n m := by
  have hcyc' : ∀ i j q v x, ChainPath (buGrammar A filter) q q v → chartWeight chart i j q = some x → v * x < x := by
    intro i j q v x hv hx
    refine hcyc q v x hv ?_
    rw [chartWeight_some] at hx
    unfold DenseChart.getWeight at hx
    split at hx
    · cases hx
    · split at hx
      · cases hx
      · split at hx
        · cases hx
        · cases hx
          assumption
  refine enumerates_of_forest (headForest_ok hA hf hget hbest hcyc') (headForest_bt hA hf hget) (headForest_forms hA hf hget) ?_ ?_ hn ⟨hn0, le_refl _, hi⟩ m
  · funext i j q
    simp only [chartWeight_some]
  · rw [hA.grammar, hA.brackets]
    exact brackets_of_prods hp filter

end

end Rustomata
