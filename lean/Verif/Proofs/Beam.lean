import Verif.Proofs.Outer
import Verif.Proofs.Prefix

/-!
# Recognition with a beam

Sorted results need only an agenda that returns a maximum of what it contains; what a beam that is large enough changes.
-/

namespace Rustomata
open Spec

/-- When the agenda is empty, more steps change nothing. -/
theorem Search.runP_stop {A X : Type _} {G : Agenda A X} {succ : X → Option (List X)} {n m : Nat} {a b : A} {r : List X}
    (h : Search.runP G succ n a = some (r, b)) (hend : G.pop b = none) (hm : n ≤ m) : Search.runP G succ m a = some (r, b) := by
  induction n generalizing m a r with
  | zero =>
    simp only [Search.runP, Option.some.injEq, Prod.mk.injEq] at h
    obtain ⟨rfl, rfl⟩ := h
    cases m with
    | zero => rfl
    | succ m => unfold Search.runP; rw [hend]
  | succ n ih =>
    obtain ⟨m, rfl⟩ : ∃ k, m = k + 1 := ⟨m - 1, by omega⟩
    unfold Search.runP at h ⊢
    cases hp : G.pop a with
    | none => rw [hp] at h; exact h
    | some x =>
      rw [hp] at h
      simp only at h ⊢
      cases hs : succ x.1 with
      | none => rw [hs] at h; cases h
      | some ys =>
        rw [hs] at h
        simp only at h ⊢
        cases hr : Search.runP G succ n (G.extend x.2 ys) with
        | none => rw [hr] at h; cases h
        | some q =>
          rw [hr] at h
          simp only [Option.some.injEq, Prod.mk.injEq] at h
          obtain ⟨rfl, rfl⟩ := h
          rw [ih (m := m) hr (by omega)]

section
variable {K S I T W A H : Type _} [DecidableEq K] [DecidableEq T] [Mul W] [One W]

theorem Automaton.recognise_sorted_max [Preorder W] {G : Agenda A (Item S I T W)} {content : A → Multiset (Item S I T W)}
    (hG : G.Sound content) (hmax : G.PopsMax content fun i => i.conf.weight) (empty : A) (M : Automaton K S I T W)
    (hw : ∀ t ∈ M.transitions, ∀ u : W, u * t.weight ≤ u) (word : Option (List T)) (n : Nat) (out : List (Item S I T W)) (a : A)
    (hrun : M.recognise G empty word n = some (out, a)) : out.Pairwise (fun i j => j.conf.weight ≤ i.conf.weight) := by
  unfold Automaton.recognise at hrun
  obtain ⟨⟨Y, b⟩, hr, he⟩ := Option.map_eq_some_iff.1 hrun
  simp only [Prod.mk.injEq] at he
  obtain ⟨rfl, rfl⟩ := he
  have hs : ∀ x, ∀ y ∈ noPanic M.successors x, y.conf.weight ≤ x.conf.weight := by
    intro x y hy
    obtain ⟨t, ht, hst, _⟩ := Automaton.mem_successors hy
    rw [hst.weight]; exact hw t ht _
  have := (Search.run_sorted hG (noPanic M.successors) (fun i => i.conf.weight) hs hmax n (G.extend empty (M.initItem word))).1
  rw [(Search.runP_run hr).1] at this
  exact this.filter _

/-- For each number of steps there is a beam from which on nothing is lost. -/
theorem Automaton.recognise_beam_eq [LE W] {heap : MinMaxHeap H (Item S I T W)} {content : H → Multiset (Item S I T W)} {prio : Item S I T W → W}
    (hH : MinMaxLaws heap content prio) (M : Automaton K S I T W) (word : Option (List T)) (n : Nat) :
    ∃ B, ∀ beam ≥ B, ∀ m ≤ n, M.recognise (LimitedHeap.agenda heap) (LimitedHeap.withCapacity heap beam) word m =
      (M.recognise heap.agenda heap.empty word m).map fun r => (r.1, ⟨r.2, beam⟩) := by
  have hB : ∃ B, ∀ m ≤ n, ∀ r b, Search.runP heap.agenda M.successors m (heap.agenda.extend heap.empty (M.initItem word)) = some (r, b) → (content b).card ≤ B := by
    induction n with
    | zero =>
      refine ⟨(content (heap.agenda.extend heap.empty (M.initItem word))).card, fun m hm r b h => ?_⟩
      obtain rfl : m = 0 := by omega
      simp only [Search.runP, Option.some.injEq, Prod.mk.injEq] at h
      rw [h.2]
    | succ n ih =>
      obtain ⟨B, hB⟩ := ih
      cases hr : Search.runP heap.agenda M.successors (n + 1) (heap.agenda.extend heap.empty (M.initItem word)) with
      | none =>
        refine ⟨B, fun m hm r b h => ?_⟩
        rcases Nat.lt_or_ge m (n + 1) with h1 | h1
        · exact hB m (by omega) r b h
        · obtain rfl : m = n + 1 := by omega
          rw [hr] at h; cases h
      | some x =>
        obtain ⟨r₀, b₀⟩ := x
        refine ⟨max B (content b₀).card, fun m hm r b h => ?_⟩
        rcases Nat.lt_or_ge m (n + 1) with h1 | h1
        · exact le_max_of_le_left (hB m (by omega) r b h)
        · obtain rfl : m = n + 1 := by omega
          rw [hr] at h
          cases h
          exact le_max_right _ _
  obtain ⟨B, hB⟩ := hB
  refine ⟨B, fun beam hb m hm => ?_⟩
  unfold Automaton.recognise
  have hext := LimitedHeap.extend_eq hH beam (M.initItem word) heap.empty ((hB 0 (by omega) _ _ rfl).trans hb)
  rw [show (LimitedHeap.withCapacity heap beam : LimitedHeap H) = ⟨heap.empty, beam⟩ from rfl, hext,
    LimitedHeap.runP_eq hH beam M.successors m _ fun k hk r b h => (hB k (by omega) r b h).trans hb]
  cases Search.runP heap.agenda M.successors m (heap.agenda.extend heap.empty (M.initItem word)) <;> rfl

theorem Automaton.recogniseOuter_beam_eq {S' I' T' : Type _} [LE W] {heap : MinMaxHeap H (Item S I T W)} {content : H → Multiset (Item S I T W)} {prio : Item S I T W → W}
    (hH : MinMaxLaws heap content prio) (M : Automaton K S I T W) (toInt : T' → Option T) (itemMap : Item S I T W → Option (Item S' I' T' W)) (word : List T') (n : Nat) :
    ∃ B, ∀ beam ≥ B, ∀ m ≤ n, M.recogniseOuter toInt itemMap (LimitedHeap.agenda heap) (LimitedHeap.withCapacity heap beam) word m =
      (M.recogniseOuter toInt itemMap heap.agenda heap.empty word m).map fun r => (r.1, ⟨r.2, beam⟩) := by
  obtain ⟨B, hB⟩ := Automaton.recognise_beam_eq hH M (word.mapM toInt) n
  refine ⟨B, fun beam hb m hm => ?_⟩
  unfold Automaton.recogniseOuter
  rw [hB beam hb m hm]
  cases M.recognise heap.agenda heap.empty (word.mapM toInt) m with
  | none => rfl
  | some x =>
    simp only [Option.map_some]
    cases x.1.mapM itemMap <;> rfl

theorem LimitedHeap.pop_none_iff {X : Type _} {heap : MinMaxHeap H X} {h : H} {beam : Nat} :
    (LimitedHeap.agenda heap).pop ⟨h, beam⟩ = none ↔ heap.agenda.pop h = none := by
  simp [LimitedHeap.agenda, LimitedHeap.pop, MinMaxHeap.agenda]

/-- A beam of size zero holds nothing. -/
theorem LimitedHeap.zero_empty {X : Type _} [LE W] {heap : MinMaxHeap H X} {content : H → Multiset X} {prio : X → W} (hH : MinMaxLaws heap content prio) (xs : List X) :
    (LimitedHeap.agenda heap).pop ((LimitedHeap.agenda heap).extend (LimitedHeap.withCapacity heap 0) xs) = none := by
  have h0 := LimitedHeap.extend_card hH xs (LimitedHeap.withCapacity heap 0) (by simp [LimitedHeap.withCapacity, hH.empty])
  have h1 : content ((LimitedHeap.agenda heap).extend (LimitedHeap.withCapacity heap 0) xs).heap = 0 := Multiset.card_eq_zero.1 (Nat.le_zero.1 h0.1)
  generalize (LimitedHeap.agenda heap).extend (LimitedHeap.withCapacity heap 0) xs = l at h1
  cases hp : heap.popMax l.heap with
  | none => simp [LimitedHeap.agenda, LimitedHeap.pop, hp]
  | some x =>
    have := hH.pop_some _ _ _ hp
    rw [h1] at this
    exact absurd this.symm Multiset.cons_ne_zero

end

namespace Represents
variable {K S I T W A S' I' T' : Type _} [DecidableEq K] [DecidableEq T] [Mul W] [One W] [Preorder W] {M : Automaton K S I T W} {D : Device S' I' T' W} {toInt : T' → Option T}
  {itemMap : Item S I T W → Option (Item S' I' T' W)} {RT : T → T' → Prop} {RS : S → S' → Prop} {RI : I → I' → Prop}

theorem sorted_max (h : Represents M D toInt itemMap RT RS RI) {G : Agenda A (Item S I T W)} {content : A → Multiset (Item S I T W)}
    (hG : G.Sound content) (hmax : G.PopsMax content fun i => i.conf.weight) {empty : A}
    (hw : ∀ t ∈ D.transitions, ∀ u : W, u * t.weight ≤ u) {w : List T'} {n : Nat}
    {out : List (Item S' I' T' W)} {a : A} (hrun : M.recogniseOuter toInt itemMap G empty w n = some (out, a)) :
    out.Pairwise (fun i j => j.conf.weight ≤ i.conf.weight) := by
  obtain ⟨out0, h0, h1⟩ := h.recogniseOuter_some hrun
  have hw0 : ∀ t ∈ M.transitions, ∀ u : W, u * t.weight ≤ u := by
    intro t ht u
    obtain ⟨t', ht', hr⟩ := forall₂_exists_right h.transitions ht
    rw [hr.weight]; exact hw t' ht' u
  have hs := Automaton.recognise_sorted_max hG hmax empty M hw0 _ n out0 a h0
  clear h0 hrun
  induction h1 with
  | nil => exact .nil
  | cons h2 h3 ih =>
    rw [List.pairwise_cons] at hs ⊢
    refine ⟨?_, ih hs.2⟩
    intro b hb
    obtain ⟨c, hc, hcb⟩ := forall₂_exists_left h3 hb
    rw [← hcb.conf.weight, ← h2.conf.weight]
    exact hs.1 c hc

end Represents
end Rustomata
