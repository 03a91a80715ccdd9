import Verif.Proofs.CsFillChart
import Mathlib.Algebra.BigOperators.Intervals
import Mathlib.Algebra.Order.BigOperators.Group.Finset

/-!
# Proofs for the chart parser: it does not panic
-/

namespace Rustomata
open Spec

/-! ### the number of pending chain rules -/

/-- Number of rules that belong to states that are not marked. -/
def pendingRules {X : Type _} (tbl : List (List X)) (mark : List Bool) : Nat :=
  ∑ q ∈ Finset.range tbl.length, if mark[q]? = some true then 0 else ((tbl[q]?).getD []).length

theorem pendingRules_set {X : Type _} {tbl : List (List X)} {mark : List Bool} {q : Nat} {us : List X} (hq : mark[q]? = some false)
    (hus : tbl[q]? = some us) : pendingRules tbl (mark.set q true) + us.length = pendingRules tbl mark := by
  have hlt : q < tbl.length := (List.getElem?_eq_some_iff.1 hus).1
  have hm : q < mark.length := (List.getElem?_eq_some_iff.1 hq).1
  unfold pendingRules
  rw [← Finset.add_sum_erase _ _ (Finset.mem_range.2 hlt), ← Finset.add_sum_erase (Finset.range tbl.length) _ (Finset.mem_range.2 hlt)]
  have hsum : ∑ x ∈ (Finset.range tbl.length).erase q, (if (mark.set q true)[x]? = some true then 0 else ((tbl[x]?).getD []).length) =
      ∑ x ∈ (Finset.range tbl.length).erase q, (if mark[x]? = some true then 0 else ((tbl[x]?).getD []).length) := by
    refine Finset.sum_congr rfl fun x hx => ?_
    rw [List.getElem?_set_ne (Ne.symm (Finset.ne_of_mem_erase hx))]
  rw [hsum, List.getElem?_set_self hm, hq, hus]
  simp
  omega

theorem sum_length_eq {X : Type _} (tbl : List (List X)) :
    (tbl.map List.length).sum = ∑ q ∈ Finset.range tbl.length, ((tbl[q]?).getD []).length := by
  induction tbl with
  | nil => rfl
  | cons x xs ih =>
    rw [List.length_cons, Finset.sum_range_succ']
    simp [ih, Nat.add_comm]

theorem pendingRules_le {X : Type _} (tbl : List (List X)) (mark : List Bool) : pendingRules tbl mark ≤ (tbl.map List.length).sum := by
  rw [sum_length_eq]
  unfold pendingRules
  refine Finset.sum_le_sum fun q _ => ?_
  split <;> omega

section
variable {T W : Type _} [RoundedWeight W] [DecidableEq T]
variable {A : CsAutomaton T W} {outs : SxOutside W} {filter : List Bool} {word : List T}

/-- The estimates can be read for all items. -/
def CsOutsOk (A : CsAutomaton T W) (outs : SxOutside W) (n : Nat) : Prop :=
  ∀ q l r, q < A.states → l < r → r ≤ n → outs.get q l r n ≠ none

theorem csPropose_isSome {l r n rid q : Nat} {w : W} (hf : rid < filter.length) (ho : outs.get q l r n ≠ none) :
    csPropose outs filter l r n rid q w ≠ none := by
  unfold csPropose
  split
  · rename_i h
    rw [List.getElem?_eq_none_iff] at h
    omega
  · simp
  · split
    · contradiction
    · simp
    · simp

theorem csPropose_state {l r n rid q : Nat} {w : W} {c : W × Nat} (h : csPropose outs filter l r n rid q w = some (some c)) : c.2 = q := by
  rw [csPropose_some] at h
  rw [h.1]

theorem csClose_isSome {l r n : Nat} {worst : W} (hA : A.BuWF) (hf : filter.length = A.brackets.length) (ho : CsOutsOk A outs n)
    (hn : n ≤ 255) (hlr : l < r) (hrn : r ≤ n) :
    ∀ (fuel : Nat) (chart : DenseChart W) (skip : List Bool) (i : Nat) (heap : List (W × Nat)) (a : AbsChart W),
      chart.n = n → chart.states = A.states → chart.Refines a → skip.length = A.states → 0 < i → (∀ c ∈ heap, c.2 < A.states) →
      heap.length + pendingRules A.buUnaries skip < fuel → ∃ c, csClose A outs filter l r n worst fuel chart skip i heap = some c := by
  have hul : u8 l = l := Nat.mod_eq_of_lt (by omega)
  have hur : u8 r = r := Nat.mod_eq_of_lt (by omega)
  intro fuel
  induction fuel with
  | zero => intros; omega
  | succ fuel ih =>
    intro chart skip i heap a hcn hcs href hsl hi hheap hfuel
    simp only [csClose]
    split
    · exact ⟨_, rfl⟩
    rename_i w q heap' hp
    have hlen := csPop_length hp
    have hq : q < A.states := hheap _ ((csPop_mem hp _).2 (.inl rfl))
    have hheap' : ∀ c ∈ heap', c.2 < A.states := fun c hc => hheap c ((csPop_mem hp c).2 (.inr hc))
    split
    · rename_i hs
      rw [List.getElem?_eq_none_iff] at hs
      omega
    · exact ih chart skip i heap' a hcn hcs href hsl hi hheap' (by omega)
    rename_i hs
    rw [hul, hur]
    obtain ⟨c₁, hc₁, hn₁, hs₁, _, hr₁⟩ := href.add w hlr (by omega : r ≤ chart.n) (by omega : q < chart.states)
    obtain ⟨us, hus⟩ : ∃ us, A.buUnaries[q]? = some us := ⟨_, List.getElem?_eq_getElem (by rw [hA.unaries]; exact hq)⟩
    rw [hc₁, hus]
    simp only
    have hpend := pendingRules_set hs hus
    obtain ⟨new, hnew⟩ := filterMapP_isSome (f := fun b : BuRule W => csPropose outs filter l r n b.rid b.lhs (b.weight * w)) (l := us) fun b hb => by
      have := hA.unary q us hus b hb
      exact csPropose_isSome (by omega) (ho _ l r this.1 hlr hrn)
    rw [hnew]
    simp only
    have hnl := filterMapP_length hnew
    obtain _ | i := i
    · omega
    simp only
    split
    · exact ⟨_, rfl⟩
    · rename_i hstop
      refine ih c₁ (skip.set q true) i (heap' ++ new) _ (hn₁.trans hcn) (hs₁.trans hcs) hr₁ (by simpa using hsl)
        (Nat.pos_of_ne_zero fun h => hstop (.inl h)) ?_ ?_
      · intro c hc
        rcases List.mem_append.1 hc with hc | hc
        · exact hheap' c hc
        · obtain ⟨b, hb, h1⟩ := (filterMapP_mem hnew c).1 hc
          rw [csPropose_state h1]
          exact (hA.unary q us hus b hb).1
      · rw [List.length_append]
        omega

theorem csCell_isSome {beam : Nat} {delta : W} {chart : DenseChart W} {a : AbsChart W} {l r : Nat} (hA : A.BuWF)
    (hf : filter.length = A.brackets.length) (ho : CsOutsOk A outs word.length) (hb : 0 < beam) (hn : word.length ≤ 255)
    (hlr : l < r) (hr : r ≤ word.length) (hcn : chart.n = word.length) (hcs : chart.states = A.states) (href : chart.Refines a)
    (hst : ∀ i j, ∀ e ∈ a i j, e.1 < A.states) : ∃ c, csCell A word beam delta outs filter chart (l, r) = some c := by
  have hu : ∀ x, x ≤ word.length → u8 x = x := fun x hx => Nat.mod_eq_of_lt (by omega)
  have hini : ∃ init, (if r - l = 1 then csInitials A word outs filter l r else some []) = some init ∧ ∀ c ∈ init, c.2 < A.states := by
    split
    · unfold csInitials
      rw [List.getElem?_eq_getElem (by omega : l < word.length)]
      simp only
      split
      · exact ⟨_, rfl, by simp⟩
      · rename_i rs hrs
        obtain ⟨new, hnew⟩ := filterMapP_isSome (f := fun b : BuRule W => csPropose outs filter l r word.length b.rid b.lhs b.weight) (l := rs)
          fun b hb => by
            have := hA.initial _ rs hrs b hb
            exact csPropose_isSome (by omega) (ho _ l r this.1 hlr hr)
        refine ⟨new, hnew, fun c hc => ?_⟩
        obtain ⟨b, hb, h1⟩ := (filterMapP_mem hnew c).1 hc
        rw [csPropose_state h1]
        exact (hA.initial _ rs hrs b hb).1
    · exact ⟨_, rfl, by simp⟩
  have hbin : ∃ bins, csBinaries A chart outs filter l r word.length = some bins := by
    unfold csBinaries
    refine flatMapP_isSome fun m hm => ?_
    obtain ⟨h3, h4⟩ : l < m ∧ m < r := by
      rw [List.mem_range'_1] at hm
      omega
    rw [hu l (by omega), hu m (by omega), href.iterateNont h3 (by omega)]
    simp only
    rw [Option.ne_none_iff_exists']
    refine flatMapP_isSome fun e he => ?_
    have hq := hst l m e he
    rw [List.getElem?_eq_getElem (show e.1 < A.buBinaries.length from hq)]
    simp only
    rw [Option.ne_none_iff_exists']
    refine filterMapP_isSome fun b hb => ?_
    obtain ⟨h5, h6, h7⟩ := hA.binary e.1 _ (List.getElem?_eq_getElem (show e.1 < A.buBinaries.length from hq)) b hb
    unfold csBinary
    rw [List.getElem?_eq_getElem (by omega : b.rid < filter.length), hu m (by omega), hu r hr, href.getWeight h4 (by omega) (by omega)]
    split
    · simp_all
    · simp
    · split
      · simp_all
      · simp
      · split
        · rename_i hg
          exact absurd hg (ho _ l r h5 hlr hr)
        · simp
        · simp
  obtain ⟨init, hinit, hi2⟩ := hini
  obtain ⟨bins, hbins⟩ := hbin
  unfold csCell
  simp only [hinit, hbins]
  refine csClose_isSome hA hf ho hn hlr hr _ chart _ beam _ a hcn hcs href (by simp) hb ?_ ?_
  · intro c hc
    rcases List.mem_append.1 hc with hc | hc
    · exact hi2 c hc
    · obtain ⟨_, _, q₁, _, _, _, _, _, _, _, ⟨_, bs, hbs, hb⟩, _⟩ := (csBinaries_mem hA hn hr hcn hcs href hbins c).1 hc
      exact (hA.binary _ _ hbs _ hb).1
  · have := pendingRules_le A.buUnaries (List.replicate A.states false)
    unfold SxInside.chainRules
    omega

/-- The chart parser does not panic. -/
theorem fillChart_isSome {beam : Nat} {delta : W} (hA : A.BuWF) (hf : filter.length = A.brackets.length) (ho : CsOutsOk A outs word.length)
    (hb : 0 < beam) (hb' : beam ≤ 65535) (hn : word.length ≤ 255) : ∃ c, fillChart A word beam delta outs filter = some c := by
  have key : ∀ (post : List (Nat × Nat)) (chart : DenseChart W) (a : AbsChart W),
      (∀ p ∈ post, p.1 < p.2 ∧ p.2 ≤ word.length) → post.Nodup → (∀ p ∈ post, a p.1 p.2 = []) → chart.n = word.length → chart.states = A.states → chart.beam = beam →
      chart.Refines a → (∀ i j, ∀ e ∈ a i j, e.1 < A.states) → ∃ c, post.foldlM (csCell A word beam delta outs filter) chart = some c := by
    intro post
    induction post with
    | nil => exact fun chart a _ _ _ _ _ _ _ _ => ⟨chart, rfl⟩
    | cons p post ih =>
      intro chart a hp hnd hemp hcn hcs hcb href hst
      obtain ⟨l, r⟩ := p
      have hlr := hp (l, r) (.head _)
      obtain ⟨c₁, hc₁⟩ := csCell_isSome (delta := delta) hA hf ho hb hn hlr.1 hlr.2 hcn hcs href hst
      obtain ⟨a₁, g1, g2, g3, g4, g5, H, _, g6, _⟩ := csCell_spec hA hn hlr.1 hlr.2 hcn hcs hcb href (hemp (l, r) (.head _)) hc₁
      rw [List.foldlM_cons, hc₁]
      rw [List.nodup_cons] at hnd
      refine ih c₁ a₁ (fun p hp' => hp p (.tail _ hp')) hnd.2 ?_ g1 g2 g3 g4 ?_
      · intro p hp'
        rw [g5 _ _ (by rintro ⟨h1, h2⟩; exact hnd.1 ((Prod.ext h1 h2 : p = (l, r)) ▸ hp'))]
        exact hemp p (.tail _ hp')
      · intro i j e he
        by_cases hij : i = l ∧ j = r
        · obtain ⟨rfl, rfl⟩ := hij
          exact g6 e he
        · rw [g5 i j hij] at he
          exact hst i j e he
  obtain ⟨c, h1, h2, h3, h4, h5⟩ := DenseChart.refines_new (W := W) (n := word.length) (states := A.states) hb'
  unfold fillChart
  rw [h1]
  refine key _ c _ (fun p hp => mem_csSpans.1 hp) ?_ (by simp) h2 h3 h4 h5 (by simp)
  exact (csSpans_sorted _).imp fun h => h.1

end

end Rustomata
