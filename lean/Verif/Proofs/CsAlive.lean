import Verif.Proofs.CsOutside

/-!
# Proofs: consequences of the estimates, weights of productions
-/

namespace Rustomata
open Spec

section
variable {T W : Type _} [Mul W] {G : BinGrammar T W} {word : List T} {ok ok' : Nat → Nat → Nat → Prop}

/-- If all nodes of a derivation satisfy a predicate, then it is a derivation with that predicate. -/
theorem _root_.Rustomata.Spec.BinGrammar.Derives.of_contains {i j q : Nat} {t : BinTree} {w : W} (h : G.Derives word ok i j q t w)
    (hc : ∀ i' j' q' t' w', G.Contains word ok i' j' q' t' w' i j q t w → ok' q' i' j') : G.Derives word ok' i j q t w := by
  induction h with
  | nullary ha hr ho => exact .nullary ha hr (hc _ _ _ _ _ (.self (.nullary ha hr ho)))
  | unary hr ho hd ih =>
    exact .unary hr (hc _ _ _ _ _ (.self (.unary hr ho hd))) (ih fun i' j' q' t' w' h => hc _ _ _ _ _ (.unary hr ho h))
  | binary hr ho hd₁ hd₂ ih₁ ih₂ =>
    exact .binary hr (hc _ _ _ _ _ (.self (.binary hr ho hd₁ hd₂))) (ih₁ fun i' j' q' t' w' h => hc _ _ _ _ _ (.left hr ho h hd₂))
      (ih₂ fun i' j' q' t' w' h => hc _ _ _ _ _ (.right hr ho hd₁ h))

end

section
variable {N T W : Type _} [DecidableEq N] [DecidableEq T]

/-- The tables contain the productions. -/
theorem CsAutomaton.Rep.grammar {A : CsAutomaton T W} {st : List (CsState N)} {ps : List (CsProd N T W × TdBrackets)} (h : A.Rep st ps) (filter : List Bool) :
    buGrammar A filter = numGrammar st ps filter := by
  unfold buGrammar numGrammar
  congr 1
  · funext rid q a w
    exact propext (and_congr_right fun _ => h.buInit a ⟨rid, w, q⟩)
  · funext rid q q₁ w
    exact propext (and_congr_right fun _ => h.buUn q₁ ⟨rid, w, q⟩)
  · funext rid q q₁ q₂ w
    exact propext (and_congr_right fun _ => h.buBin q₁ ⟨rid, q₂, w, q⟩)

omit [DecidableEq N] [DecidableEq T] in
theorem leftBranch_weight [One W] [Preorder W] {inner : Nat → CsState N} {lhs : CsState N} {outer : BracketContent} :
    ∀ (c : List (CsState N × BracketContent)) (off : Nat) (q₀ : CsState N × BracketContent) (w : W), w ≤ 1 →
      ∀ p ∈ leftBranch (T := T) inner lhs outer off q₀ c w, p.1.weight ≤ 1
  | [], _, _, _, _, p, hp => by simp [leftBranch] at hp
  | [q₁], off, q₀, w, hw, p, hp => by
    simp only [leftBranch, List.mem_singleton] at hp
    subst hp
    exact hw
  | q₁ :: q₂ :: c, off, q₀, w, hw, p, hp => by
    simp only [leftBranch, List.mem_cons] at hp
    rcases hp with rfl | hp
    · exact hw
    · exact leftBranch_weight (q₂ :: c) _ _ 1 (le_refl _) p hp

omit [DecidableEq N] [DecidableEq T] in
theorem componentProds_weight [One W] [Preorder W] {rid cid : Nat} {head : N} {tail : List N} {c : List (VarT T)} {w : W} (hw : w ≤ 1)
    {ps : List (CsProd N T W × TdBrackets)} (h : componentProds rid cid head tail c w = some ps) : ∀ p ∈ ps, p.1.weight ≤ 1 := by
  unfold componentProds at h
  split at h
  · simp at h
  · cases h
    simp only [List.mem_singleton]
    rintro p rfl
    exact hw
  · rw [Option.map_eq_some_iff] at h
    obtain ⟨v, _, rfl⟩ := h
    simp only [List.mem_singleton]
    rintro p rfl
    exact hw
  · split at h
    · cases h
      exact leftBranch_weight _ _ _ _ hw
    · simp at h

omit [DecidableEq N] [DecidableEq T] in
theorem componentsProds_weight [One W] [Preorder W] {rid : Nat} {head : N} {tail : List N} :
    ∀ (cs : List (List (VarT T) × W)) (cid : Nat) (ps : List (CsProd N T W × TdBrackets)), (∀ c ∈ cs, c.2 ≤ 1) →
      componentsProds rid head tail cs cid = some ps → ∀ p ∈ ps, p.1.weight ≤ 1
  | [], cid, ps, hw, h => by
    simp only [componentsProds, Option.some.injEq] at h
    subst h
    simp
  | (c, w) :: cs, cid, ps, hw, h => by
    simp only [componentsProds] at h
    split at h
    · rename_i ps₁ ps₂ h₁ h₂
      cases h
      intro p hp
      rcases List.mem_append.1 hp with hp | hp
      · exact componentProds_weight (hw _ (.head _)) h₁ p hp
      · exact componentsProds_weight cs _ _ (fun c hc => hw c (.tail _ hc)) h₂ p hp
    · simp at h

omit [DecidableEq N] [DecidableEq T] in
/-- If all factors of the weights of the rules are at most one, then so are the weights of the productions. -/
theorem grammarProds_weight [One W] [Preorder W] {factorize : W → Nat → List W} :
    ∀ (rules : List (Nat × PMCFGRule N T W)) (ps : List (CsProd N T W × TdBrackets)),
      (∀ r ∈ rules, ∀ w ∈ factorize r.2.weight r.2.composition.length, w ≤ 1) →
      grammarProds factorize rules = some ps → ∀ p ∈ ps, p.1.weight ≤ 1
  | [], ps, hw, h => by
    simp only [grammarProds, Option.some.injEq] at h
    subst h
    simp
  | (rid, r) :: rs, ps, hw, h => by
    simp only [grammarProds] at h
    split at h
    · rename_i ps₁ ps₂ h₁ h₂
      cases h
      intro p hp
      rcases List.mem_append.1 hp with hp | hp
      · exact componentsProds_weight _ _ _ (fun c hc => hw _ (.head _) _ (List.of_mem_zip hc).2) h₁ p hp
      · exact grammarProds_weight rs _ (fun r hr => hw r (.tail _ hr)) h₂ p hp
    · simp at h

end

section
variable {N T W : Type _} [DecidableEq N] [DecidableEq T] [RoundedWeight W]

theorem CsAutomaton.Rep.leOne {A : CsAutomaton T W} {st : List (CsState N)} {ps : List (CsProd N T W × TdBrackets)} (h : A.Rep st ps)
    (hw : ∀ p ∈ ps, p.1.weight ≤ 1) : A.LeOne := by
  have key : ∀ {rid : Nat} {p : CsProd N T W}, (ps[rid]?).map Prod.fst = some p → p.weight ≤ 1 := by
    intro rid p hp
    rw [Option.map_eq_some_iff] at hp
    obtain ⟨p', hp', rfl⟩ := hp
    exact hw _ (List.mem_of_getElem? hp')
  refine ⟨?_, ?_, ?_⟩
  · intro a l hl b hb
    obtain ⟨Q, h1, _⟩ := (h.buInit a b).1 ⟨l, hl, hb⟩
    exact key h1
  · intro q l hl b hb
    obtain ⟨Q, S, h1, _⟩ := (h.buUn q b).1 ⟨l, hl, hb⟩
    exact key h1
  · intro q l hl b hb
    obtain ⟨Q, L, R, h1, _⟩ := (h.buBin q b).1 ⟨l, hl, hb⟩
    exact key h1

omit [DecidableEq N] in
theorem CsAutomaton.LeOne.chains {A : CsAutomaton T W} (h : A.LeOne) (filter : List Bool) : ChainsLeOne (buGrammar A filter) := by
  rintro rid q q₁ w ⟨_, l, hl, hm⟩
  exact h.unary q₁ l hl _ hm

/-- A chart that was computed for a sentence of at least 257 words does not exist. -/
theorem fillChart_long {A : CsAutomaton T W} {word : List T} {beam : Nat} {delta : W} {outs : SxOutside W} {filter : List Bool} (hn : 257 ≤ word.length) :
    fillChart A word beam delta outs filter = none := by
  have hb : ∀ chart : DenseChart W, csCell A word beam delta outs filter chart (255, 257) = none := by
    intro chart
    have hi : chart.iterateNont 255 0 = none := by
      simp [DenseChart.iterateNont, chartIndex]
    have : csBinaries A chart outs filter 255 257 word.length = none := by
      unfold csBinaries
      simp [flatMapP, List.range', u8, hi]
    unfold csCell
    simp only [this]
    split
    · rename_i h
      simp at h
    · rfl
  have hf : ∀ (ps : List (Nat × Nat)) (chart : DenseChart W), (255, 257) ∈ ps → ps.foldlM (csCell A word beam delta outs filter) chart = none := by
    intro ps
    induction ps with
    | nil => simp
    | cons p ps ih =>
      intro chart hp
      rw [List.foldlM_cons]
      rcases List.mem_cons.1 hp with rfl | hp
      · rw [hb]; rfl
      · cases csCell A word beam delta outs filter chart p with
        | none => rfl
        | some c => exact ih c hp
  unfold fillChart
  split
  · rfl
  · exact hf _ _ (mem_csSpans.2 ⟨by omega, by simpa using hn⟩)

end

end Rustomata
