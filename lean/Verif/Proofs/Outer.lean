import Verif.Proofs.Represent
import Verif.Props.Recognise

/-!
# C16–C19 in the outer representation

For every automaton that is faithfully represented (`Represents`); used for push-down, finite-state and tree-stack automata.
-/

set_option linter.unusedSectionVars false

namespace Rustomata.Represents
open Spec Relator Props

variable {A H K S I T W S' I' T' : Type _} [DecidableEq K] [DecidableEq T]
variable {M : Automaton K S I T W} {D : Device S' I' T' W} {toInt : T' → Option T}
  {itemMap : Item S I T W → Option (Item S' I' T' W)} {RT : T → T' → Prop} {RS : S → S' → Prop} {RI : I → I' → Prop}

/-- Every returned item is an accepting run of the device on the whole word. -/
theorem sound [Mul W] [One W] (h : Represents M D toInt itemMap RT RS RI)
    {G : Agenda A (Item S I T W)} {content : A → Multiset (Item S I T W)}
    (hG : G.Sound content) {empty : A} (hempty : content empty = 0) {w : List T'} {n : Nat}
    {out : List (Item S' I' T' W)} {a : A} (hrun : M.recogniseOuter toInt itemMap G empty w n = some (out, a))
    (i : Item S' I' T' W) (hi : i ∈ out) :
    i.conf.word = [] ∧ D.Accepting w i.run.toVec i.conf.storage i.conf.weight := by
  obtain ⟨out0, h0, h1⟩ := h.recogniseOuter_some hrun
  obtain ⟨j, hj, hr⟩ := forall₂_exists_left h1 hi
  obtain ⟨ht, w0, hw, hrun0, _⟩ := C16_recognise_sound hG empty hempty M _ n out0 a h0 j hj
  have hT := (h.terminal _ _ hr.conf).1 ht
  obtain ⟨ts', c', h2, h3, h4⟩ := h.isRun_outer (h.mapM_toInt.1 hw) hrun0
  have e1 := (TrRel.biUnique h.uT h.uI).forall₂.2 h2 hr.run
  have e2 := (CRel.biUnique h.uT h.uS).2 h3 hr.conf
  subst e1 e2
  refine ⟨hT.1, ?_, hT.2⟩
  have : (⟨[], i.conf.storage, i.conf.weight⟩ : Configuration S' T' W) = i.conf := by
    rw [← hT.1]
  rw [this]; exact h4

/-- The internal counterpart of an accepting run. -/
theorem accepting_inner [Mul W] [One W] (h : Represents M D toInt itemMap RT RS RI) {w : List T'}
    {i : Item S' I' T' W} (hw : i.conf.word = []) (hi : D.Accepting w i.run.toVec i.conf.storage i.conf.weight) :
    ∃ w0 j, w.mapM toInt = some w0 ∧ ItemRel RT RS RI j i ∧ IsRun M.apply M.transitions M.initial w0 j.run.toVec j.conf ∧
      M.isTerminal j.conf = true := by
  obtain ⟨hr, hacc⟩ := hi
  have hc : (⟨[], i.conf.storage, i.conf.weight⟩ : Configuration S' T' W) = i.conf := by rw [← hw]
  rw [hc] at hr
  obtain ⟨w0, hw0⟩ := h.word_known hr hw
  obtain ⟨ts, c, h1, h2, h3⟩ := h.isRun_inner hw0 hr
  have hv : (Pushdown.ofSlice ts).toVec = ts := by
    unfold Pushdown.ofSlice; rw [Pushdown.toVec_foldl]; simp
  refine ⟨w0, ⟨c, Pushdown.ofSlice ts⟩, h.mapM_toInt.2 hw0, ⟨h2, by rw [hv]; exact h1⟩, by simp only [hv]; exact h3, ?_⟩
  exact (h.terminal _ _ h2).2 ⟨hw, hacc⟩

/-- After the search has ended, exactly the accepting runs have been returned. -/
theorem exact_runs [Mul W] [One W] (h : Represents M D toInt itemMap RT RS RI) (hM : M.Coherent)
    {G : Agenda A (Item S I T W)} {content : A → Multiset (Item S I T W)}
    (hG : G.Lossless content) {empty : A} (hempty : content empty = 0) {w : List T'} {n : Nat}
    {out : List (Item S' I' T' W)} {a : A} (hrun : M.recogniseOuter toInt itemMap G empty w n = some (out, a)) (hend : G.pop a = none)
    (i : Item S' I' T' W) :
    i ∈ out ↔ i.conf.word = [] ∧ D.Accepting w i.run.toVec i.conf.storage i.conf.weight := by
  refine ⟨h.sound hG.sound hempty hrun i, ?_⟩
  rintro ⟨hw, hi⟩
  obtain ⟨w0, j, hw0, hj, hr, ht⟩ := h.accepting_inner hw hi
  obtain ⟨out0, h0, h1⟩ := h.recogniseOuter_some hrun
  rw [hw0] at h0
  have := (C17_recognise_exact hG empty hempty M hM w0 n out0 a h0 hend j).2 ⟨hr, ht⟩
  obtain ⟨i2, h2, h3⟩ := forall₂_exists_right h1 this
  rw [← (ItemRel.biUnique h.uT h.uS h.uI).2 h3 hj]; exact h2

/-- … and each as often as there are ways to execute it. -/
theorem exact_count [Mul W] [One W] [DecidableEq S] [DecidableEq I] [DecidableEq W] [DecidableEq S'] [DecidableEq I'] [DecidableEq T']
    (h : Represents M D toInt itemMap RT RS RI) (hM : M.Coherent)
    {G : Agenda A (Item S I T W)} {content : A → Multiset (Item S I T W)}
    (hG : G.Lossless content) {empty : A} (hempty : content empty = 0) {w : List T'} {n : Nat}
    {out : List (Item S' I' T' W)} {a : A} (hrun : M.recogniseOuter toInt itemMap G empty w n = some (out, a)) (hend : G.pop a = none)
    (i : Item S' I' T' W) (hw : i.conf.word = []) (hi : D.Accepting w i.run.toVec i.conf.storage i.conf.weight) :
    out.count i = (i.run.toVec.map fun t => D.transitions.count t).prod *
      (storages D.apply (i.run.toVec.map Transition.instruction) D.initial).count i.conf.storage := by
  obtain ⟨w0, j, hw0, hj, hr, ht⟩ := h.accepting_inner hw hi
  obtain ⟨out0, h0, h1⟩ := h.recogniseOuter_some hrun
  rw [hw0] at h0
  rw [← forall₂_count (ItemRel.biUnique h.uT h.uS h.uI) h1 hj,
    C17_recognise_complete hG empty hempty M hM w0 n out0 a h0 hend j]
  have h2 := (exec_iff_from _ _ _ _).1 hr.1
  rw [if_pos ⟨ht, h2.1, h2.2.2⟩,
    ← forall₂_count h.uS (storages_rel h.apply (instr_rel hj.run) h.initial) hj.conf.storage]
  congr 2
  have := hj.run
  revert this
  generalize j.run.toVec = l
  generalize i.run.toVec = l'
  intro hl
  induction hl with
  | nil => rfl
  | cons h1 _ ih =>
    simp only [List.map_cons, ih]
    rw [forall₂_count (TrRel.biUnique h.uT h.uI) h.transitions h1]

/-- Items are returned in non-increasing weight if no transition increases a weight. -/
theorem sorted [Mul W] [One W] [Preorder W] (h : Represents M D toInt itemMap RT RS RI)
    {G : Agenda A (Item S I T W)} {content : A → Multiset (Item S I T W)}
    (hG : HeapLaws G content (fun i => i.conf.weight)) {empty : A}
    (hw : ∀ t ∈ D.transitions, ∀ u : W, u * t.weight ≤ u) {w : List T'} {n : Nat}
    {out : List (Item S' I' T' W)} {a : A} (hrun : M.recogniseOuter toInt itemMap G empty w n = some (out, a)) :
    out.Pairwise (fun i j => j.conf.weight ≤ i.conf.weight) := by
  obtain ⟨out0, h0, h1⟩ := h.recogniseOuter_some hrun
  have hw0 : ∀ t ∈ M.transitions, ∀ u : W, u * t.weight ≤ u := by
    intro t ht u
    obtain ⟨t', ht', hr⟩ := forall₂_exists_right h.transitions ht
    rw [hr.weight]; exact hw t' ht' u
  have hs := C18_recognise_sorted hG empty M hw0 _ n out0 a h0
  clear h0 hrun
  induction h1 with
  | nil => exact .nil
  | cons h2 h3 ih =>
    rw [List.pairwise_cons] at hs ⊢
    refine ⟨?_, ih hs.2⟩
    intro b hb
    obtain ⟨c, hc, hcb⟩ := forall₂_exists_left h3 hb
    rw [← hcb.conf.weight, ← h2.conf.weight]
    exact hs.1 c hc

/-- When an item is returned, all parses of greater weight have been returned before. -/
theorem best_first [Mul W] [One W] [Preorder W] (h : Represents M D toInt itemMap RT RS RI) (hM : M.Coherent)
    {G : Agenda A (Item S I T W)} {content : A → Multiset (Item S I T W)}
    (hG : HeapLaws G content (fun i => i.conf.weight)) {empty : A} (hempty : content empty = 0)
    (hw : ∀ t ∈ D.transitions, ∀ u : W, u * t.weight ≤ u) {w : List T'} {n : Nat}
    {ys : List (Item S' I' T' W)} {x : Item S' I' T' W} {a : A}
    (hrun : M.recogniseOuter toInt itemMap G empty w n = some (ys ++ [x], a))
    (z : Item S' I' T' W) (hzw : z.conf.word = []) (hz : D.Accepting w z.run.toVec z.conf.storage z.conf.weight)
    (hlt : x.conf.weight < z.conf.weight) : z ∈ ys := by
  obtain ⟨out0, h0, h1⟩ := h.recogniseOuter_some hrun
  have hw0 : ∀ t ∈ M.transitions, ∀ u : W, u * t.weight ≤ u := by
    intro t ht u
    obtain ⟨t', ht', hr⟩ := forall₂_exists_right h.transitions ht
    rw [hr.weight]; exact hw t' ht' u
  obtain ⟨w0, j, hwj, hj, hr, ht⟩ := h.accepting_inner hzw hz
  rw [hwj] at h0
  obtain ⟨ys0, l, h2, h3, rfl⟩ := forall₂_append_right h1
  obtain ⟨x0, l0, h4, h5, rfl⟩ := List.forall₂_cons_right_iff.1 h3
  cases h5
  have := C18_recognise_best_first hG empty hempty M hM hw0 w0 n ys0 x0 a h0 j hr ht
    (by rw [h4.conf.weight, hj.conf.weight]; exact hlt)
  obtain ⟨i2, h6, h7⟩ := forall₂_exists_right h2 this
  rw [← (ItemRel.biUnique h.uT h.uS h.uI).2 h7 hj]; exact h6

/-- If the beam is large enough, beam search returns what the unlimited search returns. -/
theorem beam_large_enough [Mul W] [One W] [LE W] {heap : MinMaxHeap H (Item S I T W)} {content : H → Multiset (Item S I T W)}
    (hH : MinMaxLaws heap content (fun i => i.conf.weight)) (M : Automaton K S I T W) (toInt : T' → Option T)
    (itemMap : Item S I T W → Option (Item S' I' T' W)) (beam : Nat) (w : List T') (n : Nat)
    (hbeam : ∀ m ≤ n, ∀ out h, M.recognise heap.agenda heap.empty (w.mapM toInt) m = some (out, h) → (content h).card ≤ beam) :
    (M.recogniseOuter toInt itemMap (LimitedHeap.agenda heap) (LimitedHeap.withCapacity heap beam) w n).map Prod.fst =
      (M.recogniseOuter toInt itemMap heap.agenda heap.empty w n).map Prod.fst := by
  have := C19_beam_large_enough hH M beam (w.mapM toInt) n hbeam
  unfold Automaton.recogniseBeam at this
  unfold Automaton.recogniseOuter
  cases h1 : M.recognise (LimitedHeap.agenda heap) (LimitedHeap.withCapacity heap beam) (w.mapM toInt) n with
  | none =>
    rw [h1] at this
    cases h2 : M.recognise heap.agenda heap.empty (w.mapM toInt) n with
    | none => rfl
    | some r => rw [h2] at this; simp at this
  | some r =>
    rw [h1] at this
    cases h2 : M.recognise heap.agenda heap.empty (w.mapM toInt) n with
    | none => rw [h2] at this; simp at this
    | some q =>
      rw [h2] at this
      obtain ⟨o, a⟩ := r
      obtain ⟨o2, a2⟩ := q
      simp only [Option.map_some, Option.some.injEq] at this
      subst this
      simp only
      cases o.mapM itemMap <;> rfl

end Rustomata.Represents
