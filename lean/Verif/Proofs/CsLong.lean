import Verif.Proofs.CsMainCycles
import Verif.Model.CsCommand

/-!
# Sentences of 256 words
-/

namespace Rustomata
open Spec

section
variable {T W : Type _} [DecidableEq T] [LinearOrderedCommMonoidWithZero W] {A : CsAutomaton T W} {word : List T} {beam : Nat} {delta : W} {outs : SxOutside W}
  {filter : List Bool}

theorem chartIndex_zero (n : Nat) : chartIndex 0 0 n = none := by
  unfold chartIndex
  rw [if_pos (by omega), if_neg]
  rw [Nat.sub_self, Nat.sub_zero]
  intro h
  have : n * (n + 1) < (n + 1) * (n + 2) := by nlinarith
  omega

theorem chartIndex_gt {i : Nat} (h : 0 < i) (n : Nat) : chartIndex i 0 n = none := by
  unfold chartIndex
  rw [if_neg]
  omega

/-- A nonempty span that ends at position 256 cannot be added. -/
theorem csClose_long {l n : Nat} {worst : W} {fuel : Nat} {chart : DenseChart W} {i : Nat} {heap : List (W × Nat)} (hh : heap ≠ []) :
    csClose A outs filter l 256 n worst fuel chart (List.replicate A.states false) i heap = none := by
  cases fuel with
  | zero => rfl
  | succ fuel =>
    rw [csClose]
    cases hp : csPop heap with
    | none => exact absurd (csPop_none.1 hp) hh
    | some p =>
      obtain ⟨⟨w, q⟩, heap'⟩ := p
      simp only
      cases hs : (List.replicate A.states false)[q]? with
      | none => rfl
      | some b =>
        rw [List.getElem?_replicate] at hs
        split at hs
        swap
        · cases hs
        cases hs
        have : chart.addEntry (u8 l) (u8 256) q w = none := by
          unfold DenseChart.addEntry
          rw [show u8 256 = 0 from rfl]
          by_cases h0 : u8 l = 0
          · rw [h0, chartIndex_zero]
          · rw [chartIndex_gt (Nat.pos_of_ne_zero h0)]
        simp only [this]

/-- The last word of a derivation. -/
theorem derives_last {G : BinGrammar T W} {ok : Nat → Nat → Nat → Prop} {i j q : Nat} {t : BinTree} {w : W} (h : G.Derives word ok i j q t w) :
    i < j ∧ ∃ rid q' a v, G.nullary rid q' a v ∧ word[j - 1]? = some a ∧ ok q' (j - 1) j := by
  induction h with
  | @nullary i q rid a w ha hr ho => exact ⟨by omega, rid, q, a, w, hr, by simpa using ha, by simpa using ho⟩
  | unary _ _ _ ih => exact ih
  | binary _ _ _ _ ih₁ ih₂ => exact ⟨by omega, ih₂.2⟩

/-- The chart for a sentence of 256 words that has a derivation is not computed. -/
theorem fillChart_256 (hn : word.length = 256) {q : Nat} {t : BinTree} {w : W}
    (hd : (buGrammar A filter).Derives word (fun q i j => ∃ o, outs.get q i j word.length = some (some o)) 0 word.length q t w) :
    fillChart A word beam delta outs filter = none := by
  obtain ⟨_, rid, q', a, v, ⟨hf, l, hl, hm⟩, ha, o, ho⟩ := derives_last hd
  rw [hn] at ha ho
  have hb : ∀ chart : DenseChart W, csCell A word beam delta outs filter chart (255, 256) = none := by
    intro chart
    unfold csCell
    simp only [show 256 - 255 = 1 from rfl, if_true]
    cases h1 : csInitials A word outs filter 255 256 with
    | none => rfl
    | some init =>
      cases h2 : csBinaries A chart outs filter 255 256 word.length with
      | none => rfl
      | some bins =>
        simp only
        refine csClose_long fun he => ?_
        rw [List.append_eq_nil_iff] at he
        rw [he.1] at h1
        unfold csInitials at h1
        simp only [show 256 - 1 = 255 from rfl] at ha
        simp only [ha, hl] at h1
        have : csPropose outs filter 255 256 word.length rid q' v = some (some (v, q')) := by
          unfold csPropose
          rw [hn]
          simp only [hf]
          rw [show (256 - 1 : Nat) = 255 from rfl] at ho
          simp only [ho]
        clear he h2 bins hl
        induction l with
        | nil => cases hm
        | cons x l ih =>
          rw [filterMapP] at h1
          rw [List.mem_cons] at hm
          rcases hm with rfl | hm
          · simp only [this] at h1
            rw [Option.map_eq_some_iff] at h1
            obtain ⟨_, _, h1⟩ := h1
            cases h1
          · split at h1
            · cases h1
            · exact ih hm h1
            · rw [Option.map_eq_some_iff] at h1
              obtain ⟨_, _, h1⟩ := h1
              cases h1
  have hf : ∀ (ps : List (Nat × Nat)) (chart : DenseChart W), (255, 256) ∈ ps → ps.foldlM (csCell A word beam delta outs filter) chart = none := by
    intro ps
    induction ps with
    | nil => simp
    | cons p ps ih =>
      intro chart hp
      rw [List.foldlM_cons]
      rcases List.mem_cons.1 hp with rfl | hp
      · rw [hb]; rfl
      · cases csCell A word beam delta outs filter chart p with
        | none => rfl
        | some c => exact ih c hp
  unfold fillChart
  split
  · rfl
  · exact hf _ _ (mem_csSpans.2 ⟨by omega, by omega⟩)

omit [LinearOrderedCommMonoidWithZero W] in
theorem filterMapP_none {X Y : Type _} {f : X → Option (Option Y)} (hf : ∀ x y, f x ≠ some (some y)) : ∀ {l : List X} {ys : List Y}, filterMapP f l = some ys → ys = []
  | [], ys, h => by cases h; rfl
  | x :: l, ys, h => by
    rw [filterMapP] at h
    split at h
    · cases h
    · exact filterMapP_none hf h
    · rename_i hx
      exact absurd hx (hf _ _)

/-- There are no backtraces for the empty span. -/
theorem backtraces_zero {chart : DenseChart W} {q : Nat} {bts : List (W × Backtrace W)} (h : backtraces A chart filter 0 0 q = some bts) : bts = [] := by
  unfold backtraces at h
  simp only [Nat.lt_irrefl, if_false, Nat.sub_self, show (0 : Nat) ≠ 1 by omega] at h
  split at h
  swap
  · cases h
  rename_i bs us ns h1 h2 h3
  cases h3
  split at h
  swap
  · cases h
  rename_i l₁ l₂ l₃ e1 e2 e3
  cases e3
  have : l₁ = [] := by
    clear h1 h
    induction bs generalizing l₁ with
    | nil => cases e1; rfl
    | cons b bs ih =>
      rw [flatMapP] at e1
      split at e1
      swap
      · cases e1
      rename_i ys zs f1 f2
      cases e1
      rw [ih _ f2]
      unfold btBinaries at f1
      split at f1
      · cases f1
      · cases f1; rfl
      · cases f1; rfl
  subst this
  have : l₂ = [] := by
    refine filterMapP_none (fun b y hb => ?_) e2
    unfold btUnary at hb
    split at hb
    · cases hb
    · cases hb
    · have hg : chart.getWeight 0 0 b.succ = none := by
        unfold DenseChart.getWeight chartIndexWithState
        rw [chartIndex_zero]
        rfl
      rw [hg] at hb
      cases hb
  subst this
  cases h
  rfl

/-- For sentences of 256 words, the iterator returns nothing. -/
theorem run_256 {chart : DenseChart W} {fuel : Nat} : ∀ (m : Nat) {it : KIter W} {out : List (Option (List (Bracket BracketContent)))},
    (it.d.get (0, 0, A.initial) = none ∨ ∃ c, it.d.get (0, 0, A.initial) = some ([], c)) → KIter.run A chart filter fuel 256 m it = some out →
    out = List.replicate m none
  | 0, it, out, _, h => by cases h; rfl
  | m + 1, it, out, hd, h => by
    have key : ∀ r it', it.next A chart filter fuel 256 = some (r, it') → r = none ∧ (∃ c, it'.d.get (0, 0, A.initial) = some ([], c)) := by
      intro r it' hn
      unfold KIter.next at hn
      rw [show u8 256 = 0 from rfl] at hn
      cases fuel with
      | zero => cases hn
      | succ fuel =>
        have hk : kth A chart filter (fuel + 1) 0 0 A.initial it.k it.d = none ∨
            ∃ d', kth A chart filter (fuel + 1) 0 0 A.initial it.k it.d = some (none, d') ∧ ∃ c, d'.get (0, 0, A.initial) = some ([], c) := by
          rw [kth]
          rcases hd with hd | ⟨c, hd⟩
          · simp only [hd]
            cases hb : backtraces A chart filter 0 0 A.initial with
            | none => exact .inl rfl
            | some bts =>
              have := backtraces_zero hb
              subst this
              exact .inr ⟨_, rfl, [], by rw [AMap.get_set]; simp⟩
          · simp only [hd]
            exact .inr ⟨_, rfl, c, hd⟩
        rcases hk with hk | ⟨d', hk, hc⟩
        · simp only [hk] at hn
          cases hn
        · simp only [hk] at hn
          cases hn
          exact ⟨rfl, hc⟩
    rw [KIter.run] at h
    split at h
    · cases h
    rename_i r it' hn
    obtain ⟨rfl, hc⟩ := key r it' hn
    rw [Option.map_eq_some_iff] at h
    obtain ⟨out', h', rfl⟩ := h
    rw [run_256 m (.inr hc) h']
    rfl

theorem generate_256 {N : Type _} {R : CsRep N T W} {o : CsOptions W} (hn : word.length = 256) {fuel m : Nat} {vs : List (Option (List (Bracket BracketContent)))}
    (h : R.generate o word fuel m = some vs) : vs = List.replicate m none := by
  unfold CsRep.generate at h
  split at h
  · cases h
  split at h
  · cases h
  rw [hn] at h
  exact run_256 m (.inl rfl) h

theorem generate_long {N : Type _} {R : CsRep N T W} {o : CsOptions W} (hn : 256 ≤ word.length) {fuel m : Nat} {vs : List (Option (List (Bracket BracketContent)))}
    (h : R.generate o word fuel m = some vs) : vs = List.replicate m none := by
  rcases Nat.lt_or_ge 256 word.length with h' | h'
  · unfold CsRep.generate at h
    split at h
    · cases h
    rw [fillChart_long h'] at h
    cases h
  · exact generate_256 (by omega) h

theorem untilNone_replicate {X : Type _} (m : Nat) : untilNone (List.replicate m (none : Option X)) = [] := by
  cases m <;> rfl

end

end Rustomata
