import Verif.Model.CsFill
import Verif.Spec.CsRules
import Verif.Spec.RoundedWeight
import Verif.Proofs.CsChart
import Verif.Proofs.Heaps
import Mathlib.Algebra.Order.GroupWithZero.Canonical

/-!
# Proofs for the chart parser
-/

namespace Rustomata
open Spec

/-! ### iterators that may panic -/

section iter
variable {X Y : Type _}

theorem filterMapP_mem {f : X → Option (Option Y)} {l : List X} {r : List Y} (h : filterMapP f l = some r) (y : Y) :
    y ∈ r ↔ ∃ x ∈ l, f x = some (some y) := by
  induction l generalizing r with
  | nil =>
    simp only [filterMapP, Option.some.injEq] at h
    subst h
    simp
  | cons x xs ih =>
    simp only [filterMapP] at h
    split at h
    · exact absurd h (by simp)
    · rename_i hx
      rw [ih h]
      simp [hx]
    · rename_i z hx
      rw [Option.map_eq_some_iff] at h
      obtain ⟨r', hr', rfl⟩ := h
      simp only [List.mem_cons, ih hr', exists_eq_or_imp, hx, Option.some.injEq]
      exact or_congr ⟨fun h => h.symm, fun h => h.symm⟩ Iff.rfl

theorem filterMapP_isSome {f : X → Option (Option Y)} {l : List X} (h : ∀ x ∈ l, f x ≠ none) : ∃ r, filterMapP f l = some r := by
  induction l with
  | nil => exact ⟨[], rfl⟩
  | cons x xs ih =>
    obtain ⟨r, hr⟩ := ih fun y hy => h y (.tail _ hy)
    have hx := h x (.head _)
    simp only [filterMapP]
    split
    · rename_i h'; exact absurd h' hx
    · exact ⟨r, hr⟩
    · exact ⟨_, by rw [hr]; rfl⟩

theorem filterMapP_length {f : X → Option (Option Y)} {l : List X} {r : List Y} (h : filterMapP f l = some r) : r.length ≤ l.length := by
  induction l generalizing r with
  | nil =>
    simp only [filterMapP, Option.some.injEq] at h
    subst h
    simp
  | cons x xs ih =>
    simp only [filterMapP] at h
    split at h
    · exact absurd h (by simp)
    · have := ih h; simp only [List.length_cons]; omega
    · rw [Option.map_eq_some_iff] at h
      obtain ⟨r', hr', rfl⟩ := h
      have := ih hr'
      simp only [List.length_cons]
      omega

theorem flatMapP_mem {f : X → Option (List Y)} {l : List X} {r : List Y} (h : flatMapP f l = some r) (y : Y) :
    y ∈ r ↔ ∃ x ∈ l, ∃ ys, f x = some ys ∧ y ∈ ys := by
  induction l generalizing r with
  | nil =>
    simp only [flatMapP, Option.some.injEq] at h
    subst h
    simp
  | cons x xs ih =>
    simp only [flatMapP] at h
    split at h
    · rename_i ys zs hx hxs
      rw [Option.some.injEq] at h
      subst h
      simp [ih hxs, hx]
    · exact absurd h (by simp)

theorem flatMapP_isSome {f : X → Option (List Y)} {l : List X} (h : ∀ x ∈ l, f x ≠ none) : ∃ r, flatMapP f l = some r := by
  induction l with
  | nil => exact ⟨[], rfl⟩
  | cons x xs ih =>
    obtain ⟨r, hr⟩ := ih fun y hy => h y (.tail _ hy)
    obtain ⟨s, hs⟩ := Option.ne_none_iff_exists'.1 (h x (.head _))
    exact ⟨s ++ r, by simp [flatMapP, hr, hs]⟩

theorem flatMapP_some {f : X → Option (List Y)} {l : List X} {r : List Y} (h : flatMapP f l = some r) (x : X) (hx : x ∈ l) :
    ∃ ys, f x = some ys := by
  induction l generalizing r with
  | nil => simp at hx
  | cons z zs ih =>
    simp only [flatMapP] at h
    split at h
    · rename_i ys zs' hz hzs
      rcases List.mem_cons.1 hx with rfl | hx
      · exact ⟨ys, hz⟩
      · exact ih hzs hx
    · exact absurd h (by simp)

end iter

section heap
variable {W : Type _} [LinearOrder W]

theorem csPop_none {h : List (W × Nat)} : csPop h = none ↔ h = [] := removeMax_none _

theorem csPop_perm {h h' : List (W × Nat)} {p : W × Nat} (hp : csPop h = some (p, h')) : h.Perm (p :: h') := (removeMax_some _ hp).1

theorem csPop_max {h h' : List (W × Nat)} {p : W × Nat} (hp : csPop h = some (p, h')) {y : W × Nat} (hy : y ∈ h') : y.1 ≤ p.1 := by
  have h1 := (removeMax_some _ hp).2 y hy
  rw [Prod.Lex.toLex_le_toLex] at h1
  rcases h1 with h1 | ⟨h1, _⟩
  · exact h1.le
  · exact h1.le

theorem csPop_mem {h h' : List (W × Nat)} {p : W × Nat} (hp : csPop h = some (p, h')) (y : W × Nat) : y ∈ h ↔ y = p ∨ y ∈ h' := by
  rw [(csPop_perm hp).mem_iff, List.mem_cons]

theorem csPop_length {h h' : List (W × Nat)} {p : W × Nat} (hp : csPop h = some (p, h')) : h.length = h'.length + 1 := by
  rw [(csPop_perm hp).length_eq, List.length_cons]

end heap

/-! ### one cell -/

section cell
variable {T W : Type _}

/-- The items of a cell that come from the word or from smaller cells. -/
def CsBase [Zero W] [Mul W] (G : BinGrammar T W) (word : List T) (ok : Nat → Nat → Nat → Prop) (a : AbsChart W) (l r : Nat) (c : W × Nat) : Prop :=
  (∃ rid t, r = l + 1 ∧ word[l]? = some t ∧ G.nullary rid c.2 t c.1 ∧ ok c.2 l r) ∨
  (∃ rid m q₁ w₁ q₂ w₂ w, l < m ∧ m < r ∧ (q₁, w₁) ∈ a l m ∧ G.binary rid c.2 q₁ q₂ w ∧ lastWeight q₂ (a m r) = some w₂ ∧ w₂ ≠ 0 ∧
    ok c.2 l r ∧ c.1 = w₁ * w * w₂)

/-- All items that are put into the heap of a cell with entries `E`. -/
def CsCand [Mul W] (G : BinGrammar T W) (ok : Nat → Prop) (B : W × Nat → Prop) (E : List (Nat × W)) (c : W × Nat) : Prop :=
  B c ∨ ∃ rid q₁ w₁ w, (q₁, w₁) ∈ E ∧ G.unary rid c.2 q₁ w ∧ ok c.2 ∧ c.1 = w * w₁

theorem CsCand.mono [Mul W] {G : BinGrammar T W} {ok : Nat → Prop} {B : W × Nat → Prop} {E E' : List (Nat × W)} {c : W × Nat}
    (h : CsCand G ok B E c) (hE : ∀ e ∈ E, e ∈ E') : CsCand G ok B E' c := by
  rcases h with h | ⟨rid, q₁, w₁, w, h1, h2⟩
  · exact .inl h
  · exact .inr ⟨rid, q₁, w₁, w, hE _ h1, h2⟩

/-- The weights of all chain rules are at most one. -/
def ChainsLeOne [One W] [LE W] (G : BinGrammar T W) : Prop := ∀ rid q q₁ w, G.unary rid q q₁ w → w ≤ 1

/-- The chain rules do not increase weights. -/
def ChainsShrink [Mul W] [LE W] (G : BinGrammar T W) : Prop := ∀ rid q q₁ w x, G.unary rid q q₁ w → w * x ≤ x

theorem ChainsLeOne.shrink [RoundedWeight W] {G : BinGrammar T W} (h : ChainsLeOne G) : ChainsShrink G :=
  fun _ _ _ _ _ hu => mul_le_of_le_one_left' (h _ _ _ _ hu)

/-- The invariant of the unary step: `E` are the entries and `H` is the heap. -/
structure CsCloseInv [Mul W] [LE W] (G : BinGrammar T W) (ok : Nat → Prop) (B : W × Nat → Prop) (E : List (Nat × W)) (H : List (W × Nat)) :
    Prop where
  heap : ∀ c ∈ H, CsCand G ok B E c
  entry : ∀ k e, E[k]? = some e → CsCand G ok B (E.take k) (e.2, e.1)
  nodup : (E.map Prod.fst).Nodup
  cover : ChainsShrink G → ∀ c, CsCand G ok B E c → c ∈ H ∨ ∃ w', (c.2, w') ∈ E ∧ c.1 ≤ w'
  order : ChainsShrink G → ∀ c ∈ H, ∀ e ∈ E, c.1 ≤ e.2

end cell

section close
variable {T W : Type _} [Zero W] [One W] [Mul W] [LinearOrder W] [DecidableEq T]

theorem csPropose_some {outs : SxOutside W} {filter : List Bool} {l r n rid q : Nat} {w : W} {c : W × Nat} :
    csPropose outs filter l r n rid q w = some (some c) ↔
      c = (w, q) ∧ filter[rid]? = some true ∧ ∃ o, outs.get q l r n = some (some o) := by
  unfold csPropose
  split
  · simp_all
  · simp_all
  · rename_i h
    split
    · simp_all
    · simp_all
    · rename_i o ho
      simp [h, ho, eq_comm]

/-- An item has an outside estimate. -/
def CsAlive (outs : SxOutside W) (n q l r : Nat) : Prop := ∃ o, outs.get q l r n = some (some o)

variable {A : CsAutomaton T W} {outs : SxOutside W} {filter : List Bool} {l r n : Nat} {worst : W}

theorem csUnary_mem {us : List (BuRule W)} {q₁ : Nat} {w₁ : W} {new : List (W × Nat)} (hus : A.buUnaries[q₁]? = some us)
    (h : filterMapP (fun b : BuRule W => csPropose outs filter l r n b.rid b.lhs (b.weight * w₁)) us = some new) (c : W × Nat) :
    c ∈ new ↔ ∃ rid w, (buGrammar A filter).unary rid c.2 q₁ w ∧ CsAlive outs n c.2 l r ∧ c.1 = w * w₁ := by
  rw [filterMapP_mem h]
  constructor
  · rintro ⟨b, hb, h1⟩
    rw [csPropose_some] at h1
    obtain ⟨rfl, h2, h3⟩ := h1
    exact ⟨b.rid, b.weight, ⟨h2, us, hus, hb⟩, h3, rfl⟩
  · rintro ⟨rid, w, ⟨h2, us', hus', hb⟩, h3, h4⟩
    rw [hus] at hus'
    cases hus'
    exact ⟨_, hb, csPropose_some.2 ⟨by obtain ⟨c1, c2⟩ := c; simp_all, h2, h3⟩⟩

/-- The unary step. -/
theorem csClose_spec {B : W × Nat → Prop} {beam : Nat} (hn : n ≤ 255) (hlr : l < r) (hrn : r ≤ n) :
    ∀ (fuel : Nat) (chart chart' : DenseChart W) (skip : List Bool) (i : Nat) (heap : List (W × Nat)) (a : AbsChart W),
      csClose A outs filter l r n worst fuel chart skip i heap = some chart' →
      chart.n = n → chart.states = A.states → chart.beam = beam → chart.Refines a → skip.length = A.states →
      (∀ q, q < A.states → skip[q]? = some (decide (q ∈ (a l r).map Prod.fst))) →
      (a l r).length + i = beam →
      CsCloseInv (buGrammar A filter) (fun q => CsAlive outs n q l r) B (a l r) heap →
      ∃ a' H, chart'.n = n ∧ chart'.states = A.states ∧ chart'.beam = beam ∧ chart'.Refines a' ∧
        (∀ i j, ¬ (i = l ∧ j = r) → a' i j = a i j) ∧
        CsCloseInv (buGrammar A filter) (fun q => CsAlive outs n q l r) B (a' l r) H ∧
        (∀ e ∈ a' l r, e.1 < A.states ∨ e ∈ a l r) ∧
        (H = [] ∨ (a' l r).length = beam ∨ ∃ e ∈ a' l r, e.2 < worst) := by
  have hul : u8 l = l := Nat.mod_eq_of_lt (by omega)
  have hur : u8 r = r := Nat.mod_eq_of_lt (by omega)
  intro fuel
  induction fuel with
  | zero => intro _ _ _ _ _ _ h; simp [csClose] at h
  | succ fuel ih =>
    intro chart chart' skip i heap a h hcn hcs hcb href hsl hsk hi hinv
    simp only [csClose] at h
    split at h
    · -- empty heap
      rename_i hp
      rw [Option.some.injEq] at h
      subst h
      rw [csPop_none] at hp
      subst hp
      exact ⟨a, [], hcn, hcs, hcb, href, fun _ _ _ => rfl, hinv, fun e he => .inr he, .inl rfl⟩
    · rename_i w q heap' hp
      have hcand : CsCand (buGrammar A filter) (fun q => CsAlive outs n q l r) B (a l r) (w, q) :=
        hinv.heap _ ((csPop_mem hp _).2 (.inl rfl))
      split at h
      · exact absurd h (by simp)
      · -- the state is skipped
        rename_i hq
        have hql : q < A.states := by
          rw [← hsl]
          exact (List.getElem?_eq_some_iff.1 hq).1
        rw [hsk q hql, Option.some.injEq, decide_eq_true_eq] at hq
        obtain ⟨e, he, heq⟩ := List.mem_map.1 hq
        refine ih chart chart' skip i heap' a h hcn hcs hcb href hsl hsk hi ?_
        refine ⟨fun c hc => hinv.heap c ((csPop_mem hp c).2 (.inr hc)), hinv.entry, hinv.nodup, ?_,
          fun hu c hc e he => hinv.order hu c ((csPop_mem hp c).2 (.inr hc)) e he⟩
        intro hu c hc
        rcases hinv.cover hu c hc with h1 | h1
        · rcases (csPop_mem hp c).1 h1 with rfl | h2
          · exact .inr ⟨e.2, by rw [← heq]; exact he, hinv.order hu _ h1 e he⟩
          · exact .inl h2
        · exact .inr h1
      · -- the state is new
        rename_i hq
        have hql : q < A.states := by
          rw [← hsl]
          exact (List.getElem?_eq_some_iff.1 hq).1
        rw [hsk q hql, Option.some.injEq, decide_eq_false_iff_not] at hq
        split at h
        swap
        · exact absurd h (by simp)
        rename_i chart₁ us hadd hus
        split at h
        · exact absurd h (by simp)
        rename_i new hnew
        have hmem := csUnary_mem hus hnew
        rw [hul, hur] at hadd
        obtain ⟨c₁, hc₁, hn₁, hs₁, hb₁, hr₁⟩ := href.add w hlr (by omega : r ≤ chart.n) (by omega : q < chart.states)
        rw [hadd, Option.some.injEq] at hc₁
        subst hc₁
        split at h
        · exact absurd h (by simp)
        rename_i i
        have hlen : (a l r).length < chart.beam := by omega
        have ha₁ : a.add chart.beam l r q w l r = a l r ++ [(q, w)] := by simp [AbsChart.add, hlen]
        have hother : ∀ i j, ¬ (i = l ∧ j = r) → a.add chart.beam l r q w i j = a i j := by
          intro i j hne
          unfold AbsChart.add
          rw [if_neg (fun h => hne ⟨h.1, h.2.1⟩)]
        have hinv' : CsCloseInv (buGrammar A filter) (fun q => CsAlive outs n q l r) B (a.add chart.beam l r q w l r) (heap' ++ new) := by
          rw [ha₁]
          constructor
          · intro c hc
            rcases List.mem_append.1 hc with hc | hc
            · exact (hinv.heap c ((csPop_mem hp c).2 (.inr hc))).mono fun e he => List.mem_append_left _ he
            · obtain ⟨rid, w', h1, h2, h3⟩ := (hmem c).1 hc
              exact .inr ⟨rid, q, w, w', by simp, h1, h2, h3⟩
          · intro k e hk
            by_cases hkl : k < (a l r).length
            · rw [List.getElem?_append_left hkl] at hk
              rw [List.take_append_of_le_length (by omega)]
              exact hinv.entry k e hk
            · have hke : k = (a l r).length := by
                have := (List.getElem?_eq_some_iff.1 hk).1
                simp only [List.length_append, List.length_singleton] at this
                omega
              subst hke
              simp only [List.getElem?_concat_length, Option.some.injEq] at hk
              subst hk
              rw [List.take_left]
              exact hcand
          · rw [List.map_append, List.nodup_append]
            refine ⟨hinv.nodup, by simp, ?_⟩
            intro x hx y hy
            simp only [List.map_cons, List.map_nil, List.mem_singleton] at hy
            subst hy
            rintro rfl
            exact hq hx
          · intro hu c hc
            rcases hc with hc | ⟨rid, q₁, w₁, w', h1, h2, h3, h4⟩
            · rcases hinv.cover hu c (.inl hc) with h5 | ⟨w', h5, h6⟩
              · rcases (csPop_mem hp c).1 h5 with rfl | h6
                · exact .inr ⟨w, by simp, le_refl _⟩
                · exact .inl (List.mem_append_left _ h6)
              · exact .inr ⟨w', List.mem_append_left _ h5, h6⟩
            · rcases List.mem_append.1 h1 with h1 | h1
              · rcases hinv.cover hu c (.inr ⟨rid, q₁, w₁, w', h1, h2, h3, h4⟩) with h5 | ⟨w', h5, h6⟩
                · rcases (csPop_mem hp c).1 h5 with rfl | h6
                  · exact .inr ⟨w, by simp, le_refl _⟩
                  · exact .inl (List.mem_append_left _ h6)
                · exact .inr ⟨w', List.mem_append_left _ h5, h6⟩
              · rw [List.mem_singleton, Prod.mk.injEq] at h1
                obtain ⟨rfl, rfl⟩ := h1
                exact .inl (List.mem_append_right _ ((hmem c).2 ⟨rid, w', h2, h3, h4⟩))
          · intro hu c hc e he
            have hw : c.1 ≤ w := by
              rcases List.mem_append.1 hc with hc | hc
              · exact csPop_max hp hc
              · obtain ⟨rid, w', h1, h2, h3⟩ := (hmem c).1 hc
                rw [h3]
                exact hu _ _ _ _ _ h1
            rcases List.mem_append.1 he with he | he
            · exact hw.trans (hinv.order hu _ ((csPop_mem hp (w, q)).2 (.inl rfl)) e he)
            · rw [List.mem_singleton] at he
              subst he
              exact hw
        have hlen' : (a.add chart.beam l r q w l r).length + i = beam := by
          rw [ha₁, List.length_append, List.length_singleton]
          omega
        split at h
        · rename_i hstop
          rw [Option.some.injEq] at h
          subst h
          refine ⟨_, _, hn₁.trans hcn, hs₁.trans hcs, hb₁.trans hcb, hr₁, hother, hinv', ?_, ?_⟩
          · intro e he
            rw [ha₁] at he
            rcases List.mem_append.1 he with he | he
            · exact .inr he
            · rw [List.mem_singleton] at he
              subst he
              exact .inl hql
          · rcases hstop with hstop | hstop
            · subst hstop
              exact .inr (.inl (by omega))
            · exact .inr (.inr ⟨(q, w), by rw [ha₁]; simp, hstop⟩)
        · obtain ⟨a', H, g1, g2, g3, g4, g5, g6, g7, g8⟩ := ih chart₁ chart' (skip.set q true) i (heap' ++ new) _ h (hn₁.trans hcn) (hs₁.trans hcs)
            (hb₁.trans hcb) hr₁ (by simpa using hsl) (by
              intro q' hq'
              rw [List.getElem?_set, hsl, ha₁]
              by_cases hqq : q = q'
              · subst hqq
                simp [hql]
              · rw [if_neg hqq, hsk q' hq']
                simp [Ne.symm hqq]) hlen' hinv'
          refine ⟨a', H, g1, g2, g3, g4, fun i j hne => (g5 i j hne).trans (hother i j hne), g6, ?_, g8⟩
          intro e he
          rcases g7 e he with h1 | h1
          · exact .inl h1
          · rw [ha₁] at h1
            rcases List.mem_append.1 h1 with h1 | h1
            · exact .inr h1
            · rw [List.mem_singleton] at h1
              subst h1
              exact .inl hql

end close

end Rustomata
