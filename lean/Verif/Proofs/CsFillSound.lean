import Verif.Proofs.CsFillChart

/-!
# Proofs for the chart parser: soundness and completeness
-/

namespace Rustomata
open Spec

theorem _root_.Rustomata.Spec.BinGrammar.Derives.mono {T W : Type _} [Mul W] {G G' : BinGrammar T W} {word : List T} {ok ok' : Nat → Nat → Nat → Prop}
    (h0 : ∀ rid q a w, G.nullary rid q a w → G'.nullary rid q a w) (h1 : ∀ rid q q₁ w, G.unary rid q q₁ w → G'.unary rid q q₁ w)
    (h2 : ∀ rid q q₁ q₂ w, G.binary rid q q₁ q₂ w → G'.binary rid q q₁ q₂ w) (hok : ∀ q i j, ok q i j → ok' q i j)
    {i j q : Nat} {t : BinTree} {w : W} (h : G.Derives word ok i j q t w) : G'.Derives word ok' i j q t w := by
  induction h with
  | nullary ha hr ho => exact .nullary ha (h0 _ _ _ _ hr) (hok _ _ _ ho)
  | unary hr ho _ ih => exact .unary (h1 _ _ _ _ hr) (hok _ _ _ ho) ih
  | binary hr ho _ _ ih₁ ih₂ => exact .binary (h2 _ _ _ _ _ hr) (hok _ _ _ ho) ih₁ ih₂

theorem _root_.Rustomata.Spec.BinGrammar.Derives.span {T W : Type _} [Mul W] {G : BinGrammar T W} {word : List T} {ok : Nat → Nat → Nat → Prop}
    {i j q : Nat} {t : BinTree} {w : W} (h : G.Derives word ok i j q t w) : i < j ∧ j ≤ word.length ∧ ok q i j := by
  induction h with
  | nullary ha hr ho =>
    have := (List.getElem?_eq_some_iff.1 ha).1
    exact ⟨by omega, by omega, ho⟩
  | unary hr ho _ ih => exact ⟨ih.1, ih.2.1, ho⟩
  | binary hr ho _ _ ih₁ ih₂ => exact ⟨by omega, ih₂.2.1, ho⟩

section
variable {T W : Type _} [Zero W] [One W] [CommMagma W] [LinearOrder W] [DecidableEq T]
variable {A : CsAutomaton T W} {outs : SxOutside W} {filter : List Bool} {word : List T} {beam : Nat} {delta : W} {a : AbsChart W}

omit [Zero W] [One W] [CommMagma W] [LinearOrder W] in
theorem lastWeight_mem {q : Nat} {w : W} {E : List (Nat × W)} (h : lastWeight q E = some w) : (q, w) ∈ E := by
  unfold lastWeight at h
  rw [Option.map_eq_some_iff] at h
  obtain ⟨p, h1, rfl⟩ := h
  have h2 := List.find?_some h1
  have h3 := List.mem_of_find?_eq_some h1
  simp only [beq_iff_eq] at h2
  rw [← h2]
  exact List.mem_reverse.1 h3

omit [Zero W] [One W] [CommMagma W] [LinearOrder W] in
theorem lastWeight_of_mem {q : Nat} {w : W} {E : List (Nat × W)} (hE : (E.map Prod.fst).Nodup) (h : (q, w) ∈ E) : lastWeight q E = some w := by
  obtain ⟨w', hw'⟩ : ∃ w', lastWeight q E = some w' := by
    unfold lastWeight
    cases hf : E.reverse.find? fun p => p.1 == q with
    | some p => exact ⟨_, rfl⟩
    | none =>
      rw [List.find?_eq_none] at hf
      exact absurd (by simp) (hf (q, w) (List.mem_reverse.2 h))
  have := List.inj_on_of_nodup_map hE h (lastWeight_mem hw') rfl
  rw [Prod.mk.injEq] at this
  rw [hw', this.2]

/-- Every entry of the chart is the weight of a derivation. -/
theorem cells_sound (hok : ∀ l r, l < r → r ≤ word.length → CsCellOk A word beam delta outs filter a l r)
    (hemp : ∀ l r, ¬ (l < r ∧ r ≤ word.length) → a l r = []) :
    ∀ (d l r : Nat), r - l = d → ∀ q w, (q, w) ∈ a l r → ∃ t, (buGrammar A filter).Derives word (CsAlive outs word.length) l r q t w := by
  intro d
  induction d using Nat.strong_induction_on with
  | _ d ih =>
    intro l r hd q w hqw
    have hlr : l < r ∧ r ≤ word.length := by
      by_contra h
      rw [hemp l r h] at hqw
      simp at hqw
    obtain ⟨H, hinv, _, _⟩ := hok l r hlr.1 hlr.2
    obtain ⟨k, hk⟩ := List.mem_iff_getElem?.1 hqw
    clear hqw
    induction k using Nat.strong_induction_on generalizing q w with
    | _ k ihk =>
      rcases hinv.entry k (q, w) hk with (⟨rid, t, h1, h2, h3, h4⟩ | ⟨rid, m, q₁, w₁, q₂, w₂, w', h1, h2, h3, h4, h5, h6, h7, h8⟩) |
        ⟨rid, q₁, w₁, w', h1, h2, h3, h4⟩
      · subst h1
        exact ⟨_, .nullary h2 h3 h4⟩
      · obtain ⟨t₁, g1⟩ := ih (m - l) (by omega) l m rfl q₁ w₁ h3
        obtain ⟨t₂, g2⟩ := ih (r - m) (by omega) m r rfl q₂ w₂ (lastWeight_mem h5)
        refine ⟨.binary rid m t₁ t₂, ?_⟩
        simp only at h8
        rw [h8, mul_comm w₁ w']
        exact .binary h4 h7 g1 g2
      · obtain ⟨k', hk'⟩ := List.mem_iff_getElem?.1 h1
        have hlt : k' < k := by
          have := (List.getElem?_eq_some_iff.1 hk').1
          rw [List.length_take] at this
          omega
        rw [List.getElem?_take_of_lt hlt] at hk'
        obtain ⟨t, g⟩ := ihk k' hlt q₁ w₁ hk'
        refine ⟨.unary rid t, ?_⟩
        simp only at h4
        rw [h4]
        exact .unary h2 h3 g

end

section
variable {T W : Type _} [RoundedWeight W] [DecidableEq T]
variable {A : CsAutomaton T W} {outs : SxOutside W} {filter : List Bool} {word : List T} {beam : Nat} {delta : W} {a : AbsChart W}

/-- If nothing is cut off, all candidates of a cell are covered by its entries. -/
theorem cell_complete (hA : A.BuWF) (hu : ChainsLeOne (buGrammar A filter)) (hb : A.states ≤ beam) {l r : Nat}
    (hok : CsCellOk A word beam 0 outs filter a l r) (c : W × Nat)
    (hc : CsCand (buGrammar A filter) (fun q => CsAlive outs word.length q l r)
      (CsBase (buGrammar A filter) word (CsAlive outs word.length) a l r) (a l r) c) : ∃ w', (c.2, w') ∈ a l r ∧ c.1 ≤ w' := by
  obtain ⟨H, hinv, hst, hstop⟩ := hok
  rcases hinv.cover hu.shrink c hc with h | h
  swap
  · exact h
  rcases hstop with rfl | hlen | ⟨e, _, top, he, _⟩
  · simp at h
  · have hq : c.2 < A.states := by
      rcases hc with (⟨rid, t, _, _, ⟨_, l, hl, hm⟩, _⟩ | ⟨rid, m, q₁, w₁, q₂, w₂, w', _, _, _, ⟨_, l, hl, hm⟩, _⟩) |
        ⟨rid, q₁, w₁, w', _, ⟨_, l, hl, hm⟩, _⟩
      · exact (hA.initial _ _ hl _ hm).1
      · exact (hA.binary _ _ hl _ hm).1
      · exact (hA.unary _ _ hl _ hm).1
    have hsub : (a l r).map Prod.fst ⊆ List.range A.states := by
      intro q hq
      obtain ⟨e, he, rfl⟩ := List.mem_map.1 hq
      exact List.mem_range.2 (hst e he)
    have hperm : ((a l r).map Prod.fst).Perm (List.range A.states) := by
      refine (List.subperm_of_subset hinv.nodup hsub).perm_of_length_le ?_
      simp only [List.length_range, List.length_map]
      omega
    have hmem : c.2 ∈ (a l r).map Prod.fst := hperm.mem_iff.2 (List.mem_range.2 hq)
    obtain ⟨e, he, heq⟩ := List.mem_map.1 hmem
    exact ⟨e.2, heq ▸ he, hinv.order hu.shrink c h e he⟩
  · rw [zero_mul] at he
    exact absurd he (not_lt_of_ge zero_le)

/-- Without pruning, each derivation of nonzero weight is covered by an entry that is at least as good. -/
theorem cells_complete (hA : A.BuWF) (hu : ChainsLeOne (buGrammar A filter)) (hb : A.states ≤ beam)
    (hok : ∀ l r, l < r → r ≤ word.length → CsCellOk A word beam 0 outs filter a l r) {l r q : Nat} {t : BinTree} {w : W}
    (hd : (buGrammar A filter).Derives word (CsAlive outs word.length) l r q t w) (hw : w ≠ 0) : ∃ w', (q, w') ∈ a l r ∧ w ≤ w' := by
  induction hd with
  | nullary ha hr ho =>
    rename_i i q rid t w
    have hi := (List.getElem?_eq_some_iff.1 ha).1
    exact cell_complete hA hu hb (hok i (i + 1) (by omega) (by omega)) (w, q) (.inl (.inl ⟨rid, t, rfl, ha, hr, ho⟩))
  | unary hr ho hd ih =>
    rename_i i j q q₁ rid t w w₁
    have hs := hd.span
    obtain ⟨w', h1, h2⟩ := ih (right_ne_zero_of_mul hw)
    obtain ⟨w'', h3, h4⟩ := cell_complete hA hu hb (hok i j hs.1 hs.2.1) (w * w', q) (.inr ⟨rid, q₁, w', w, h1, hr, ho, rfl⟩)
    exact ⟨w'', h3, (mul_le_mul_right h2 w).trans h4⟩
  | binary hr ho hd₁ hd₂ ih₁ ih₂ =>
    rename_i i m j q q₁ q₂ rid t₁ t₂ w w₁ w₂
    have hs₁ := hd₁.span
    have hs₂ := hd₂.span
    have hw₂ := right_ne_zero_of_mul hw
    obtain ⟨w₁', h1, h2⟩ := ih₁ (right_ne_zero_of_mul (left_ne_zero_of_mul hw))
    obtain ⟨w₂', h3, h4⟩ := ih₂ hw₂
    have hnod : ((a m j).map Prod.fst).Nodup := by
      obtain ⟨H, hinv, _⟩ := hok m j hs₂.1 hs₂.2.1
      exact hinv.nodup
    have hne : w₂' ≠ 0 := by
      rintro rfl
      exact hw₂ (le_antisymm h4 zero_le)
    obtain ⟨w'', h5, h6⟩ := cell_complete hA hu hb (hok i j (by omega) hs₂.2.1) (w₁' * w * w₂', q)
      (.inl (.inr ⟨rid, m, q₁, w₁', q₂, w₂', w, hs₁.1, hs₂.1, h1, hr, lastWeight_of_mem hnod h3, hne, ho, rfl⟩))
    refine ⟨w'', h5, le_trans ?_ h6⟩
    simp only
    rw [mul_comm w₁' w]
    gcongr

end

end Rustomata
