import Verif.Model.Heaps
import Verif.Proofs.Search
import Mathlib.Data.Prod.Lex

set_option linter.unusedSectionVars false

namespace Rustomata

variable {H X W : Type _}

/-! ### the list heap satisfies the contracts -/

section removeMax
variable [LinearOrder W] (prio : X → W)

theorem removeMax_none {l : List X} : removeMax prio l = none ↔ l = [] := by
  cases l with
  | nil => simp [removeMax]
  | cons x xs =>
    simp only [removeMax, reduceCtorEq, iff_false]
    split
    · simp
    · split <;> simp

theorem removeMax_some {l : List X} {x : X} {r : List X} (h : removeMax prio l = some (x, r)) :
    l.Perm (x :: r) ∧ ∀ y ∈ r, prio y ≤ prio x := by
  induction l generalizing x r with
  | nil => simp [removeMax] at h
  | cons z zs ih =>
    simp only [removeMax] at h
    split at h
    · rename_i hn
      rw [removeMax_none] at hn
      simp only [Option.some.injEq, Prod.mk.injEq] at h
      obtain ⟨rfl, rfl⟩ := h
      subst hn
      simp
    · rename_i y ys hs
      obtain ⟨h1, h2⟩ := ih hs
      split at h
      · rename_i hlt
        simp only [Option.some.injEq, Prod.mk.injEq] at h
        obtain ⟨rfl, rfl⟩ := h
        refine ⟨(List.Perm.cons z h1).trans (List.Perm.swap _ _ _), ?_⟩
        intro w hw
        rcases List.mem_cons.1 hw with rfl | hw
        · exact hlt.le
        · exact h2 w hw
      · rename_i hlt
        simp only [Option.some.injEq, Prod.mk.injEq] at h
        obtain ⟨rfl, rfl⟩ := h
        refine ⟨List.Perm.refl _, ?_⟩
        intro w hw
        have := (h1.mem_iff).1 hw
        rcases List.mem_cons.1 this with rfl | hw'
        · exact not_lt.1 hlt
        · exact (h2 w hw').trans (not_lt.1 hlt)

theorem listHeap_laws : HeapLaws (listHeap prio) (fun l => (l : Multiset X)) prio := by
  refine ⟨⟨fun a x => rfl, fun a h => ?_, fun a x a' h => ?_⟩, fun a x a' h y hy => ?_⟩
  · have := (removeMax_none prio).1 h; subst this; rfl
  · exact Multiset.coe_eq_coe.2 (removeMax_some prio h).1
  · exact (removeMax_some prio h).2 y (by simpa using hy)

theorem listMinMax_laws : MinMaxLaws (listMinMax prio) (fun l => (l : Multiset X)) prio := by
  have key : ∀ (h : List X) (x : X),
      ((listMinMax prio).pushPopMin h x).1 ::ₘ (((listMinMax prio).pushPopMin h x).2 : Multiset X) =
        x ::ₘ (h : Multiset X) ∧
      ∀ y ∈ ((listMinMax prio).pushPopMin h x).2, prio ((listMinMax prio).pushPopMin h x).1 ≤ prio y := by
    intro h x
    simp only [listMinMax]
    split
    · rename_i hn
      have hn' := (removeMax_none (fun y => OrderDual.toDual (prio y))).1 hn
      cases hn'
    · rename_i r hs
      obtain ⟨y, r⟩ := r
      have := removeMax_some (fun y => OrderDual.toDual (prio y)) hs
      refine ⟨(Multiset.coe_eq_coe.2 this.1).symm, this.2⟩
  refine ⟨rfl, fun h => rfl, fun h x => rfl, fun a h => ?_, fun a x a' h => ?_, fun a x a' h y hy => ?_,
    fun h x => (key h x).1, fun h x => ?_⟩
  · have := (removeMax_none prio).1 h; subst this; rfl
  · exact Multiset.coe_eq_coe.2 (removeMax_some prio h).1
  · exact (removeMax_some prio h).2 y (by simpa using hy)
  · simpa using (key h x).2

end removeMax

theorem heapPeek_eq_none [LE W] {G : Agenda H X} {c : H → Multiset X} {prio : X → W}
    (hG : HeapLaws G c prio) (h : H) : heapPeek G h = none ↔ c h = 0 := by
  unfold heapPeek
  rw [Option.map_eq_none_iff]
  constructor
  · exact hG.lossless.pop_none h
  · intro h0
    rcases hp : G.pop h with _ | ⟨x, h'⟩
    · rfl
    · have := hG.lossless.pop_some _ _ _ hp
      rw [h0] at this
      exact absurd this.symm Multiset.cons_ne_zero

theorem heapPeek_eq_some [Preorder W] {G : Agenda H X} {c : H → Multiset X} {prio : X → W}
    (hG : HeapLaws G c prio) {h : H} {x : X} (hp : heapPeek G h = some x) :
    x ∈ c h ∧ ∀ y ∈ c h, prio y ≤ prio x := by
  unfold heapPeek at hp
  rw [Option.map_eq_some_iff] at hp
  obtain ⟨⟨y, h'⟩, hp, rfl⟩ := hp
  have hc := hG.lossless.pop_some _ _ _ hp
  refine ⟨by simp [hc], fun z hz => ?_⟩
  rw [hc, Multiset.mem_cons] at hz
  rcases hz with rfl | hz
  · exact le_rfl
  · exact hG.max _ _ _ hp z hz

/-! ### limited heap -/

section limited
variable [Preorder W] {M : MinMaxHeap H X} {c : H → Multiset X} {prio : X → W}

theorem LimitedHeap.push_spec (hM : MinMaxLaws M c prio) (l : LimitedHeap H) (x : X) :
    let r := LimitedHeap.push M l x
    r.2.capacity = l.capacity ∧
    ((r.1 = none ∧ (c l.heap).card < l.capacity ∧ c r.2.heap = x ::ₘ c l.heap) ∨
     (∃ d, r.1 = some d ∧ l.capacity ≤ (c l.heap).card ∧ d ::ₘ c r.2.heap = x ::ₘ c l.heap ∧
       ∀ y ∈ c r.2.heap, prio d ≤ prio y)) := by
  unfold LimitedHeap.push
  rw [hM.len]
  split
  · exact ⟨rfl, Or.inl ⟨rfl, by assumption, hM.push _ _⟩⟩
  · refine ⟨rfl, Or.inr ⟨_, rfl, by omega, hM.ppm _ _, hM.ppm_min _ _⟩⟩

theorem LimitedHeap.agenda_sound (hM : MinMaxLaws M c prio) :
    (LimitedHeap.agenda M).Sound (fun l => c l.heap) := by
  refine ⟨fun l x => ?_, fun l x l' h => ?_⟩
  · have := LimitedHeap.push_spec hM l x
    simp only [LimitedHeap.agenda]
    rcases this.2 with ⟨_, _, h⟩ | ⟨d, _, _, h, _⟩
    · exact h.le
    · rw [← h]; exact Multiset.le_cons_self _ _
  · simp only [LimitedHeap.agenda, LimitedHeap.pop, Option.map_eq_some_iff] at h
    obtain ⟨⟨y, h'⟩, hp, he⟩ := h
    simp only [Prod.mk.injEq] at he
    obtain ⟨rfl, rfl⟩ := he
    exact hM.pop_some _ _ _ hp

theorem LimitedHeap.agenda_max (hM : MinMaxLaws M c prio) :
    (LimitedHeap.agenda M).PopsMax (fun l => c l.heap) prio := by
  intro l x l' h
  simp only [LimitedHeap.agenda, LimitedHeap.pop, Option.map_eq_some_iff] at h
  obtain ⟨⟨y, h'⟩, hp, he⟩ := h
  simp only [Prod.mk.injEq] at he
  obtain ⟨rfl, rfl⟩ := he
  exact hM.pop_max _ _ _ hp

end limited

/-! ### beam heap -/

section beam
variable [Preorder W] [DecidableRel (α := W) (· ≤ ·)] [Mul W] {G : Agenda H X} {c : H → Multiset X}
  {prio : X → W}

theorem BeamHeap.agenda_sound (hG : HeapLaws G c prio) :
    (BeamHeap.agenda G prio).Sound (fun b => c b.heap) := by
  refine ⟨fun b x => ?_, fun b x b' h => ?_⟩
  · simp only [BeamHeap.agenda, BeamHeap.push]
    split
    · exact (hG.lossless.push _ _).le
    · split
      · exact (hG.lossless.push _ _).le
      · exact Multiset.le_cons_self _ _
  · simp only [BeamHeap.agenda, BeamHeap.pop, Option.map_eq_some_iff] at h
    obtain ⟨⟨y, h'⟩, hp, he⟩ := h
    simp only [Prod.mk.injEq] at he
    obtain ⟨rfl, rfl⟩ := he
    exact hG.lossless.pop_some _ _ _ hp

theorem BeamHeap.agenda_max (hG : HeapLaws G c prio) :
    (BeamHeap.agenda G prio).PopsMax (fun b => c b.heap) prio := by
  intro b x b' h
  simp only [BeamHeap.agenda, BeamHeap.pop, Option.map_eq_some_iff] at h
  obtain ⟨⟨y, h'⟩, hp, he⟩ := h
  simp only [Prod.mk.injEq] at he
  obtain ⟨rfl, rfl⟩ := he
  exact hG.max _ _ _ hp

end beam

/-! ### unique heap -/

section uniq
variable {It Wt : Type _} [DecidableEq It]

/-- The heap contains no item twice and `items` is the set of its items. -/
def UniqueHeap.Inv (c : H → Multiset (Wt × It)) (u : UniqueHeap H It) : Prop :=
  ((c u.heap).map Prod.snd).Nodup ∧ ∀ i, i ∈ u.items ↔ i ∈ (c u.heap).map Prod.snd

variable {G : Agenda H (Wt × It)} {c : H → Multiset (Wt × It)}

theorem UniqueHeap.push_inv (hG : G.Lossless c) (u : UniqueHeap H It) (i : It) (w : Wt)
    (h : u.Inv c) : (UniqueHeap.push G u i w).2.Inv c := by
  unfold UniqueHeap.push
  split
  · exact h
  · rename_i hi
    refine ⟨?_, fun j => ?_⟩
    · simp only [hG.push, Multiset.map_cons, Multiset.nodup_cons]
      exact ⟨fun hm => hi ((h.2 i).2 hm), h.1⟩
    · simp only [hG.push, Multiset.map_cons, Multiset.mem_cons, List.mem_cons]
      rw [h.2 j]

theorem UniqueHeap.pop_inv (hG : G.Lossless c) (u : UniqueHeap H It)
    (h : u.Inv c) : (UniqueHeap.pop G u).2.Inv c := by
  unfold UniqueHeap.pop
  split
  · rename_i w i h' hp
    have hc := hG.pop_some _ _ _ hp
    obtain ⟨h1, h2⟩ := h
    rw [hc, Multiset.map_cons, Multiset.nodup_cons] at h1
    refine ⟨h1.2, fun j => ?_⟩
    simp only [List.mem_filter, h2 j, hc, Multiset.map_cons, Multiset.mem_cons, ne_eq,
      decide_not, Bool.not_eq_eq_eq_not, Bool.not_true, decide_eq_false_iff_not]
    constructor
    · rintro ⟨rfl | h, h'⟩
      · exact absurd rfl h'
      · exact h
    · intro h
      exact ⟨Or.inr h, fun e => h1.1 (e ▸ h)⟩
  · exact h

theorem UniqueHeap.fromIter_eq (empty : H) (l : List (It × Wt)) :
    UniqueHeap.fromIter G empty l =
      l.foldl (fun u p => (UniqueHeap.push G u p.1 p.2).2) (UniqueHeap.default empty) := by
  unfold UniqueHeap.fromIter UniqueHeap.default UniqueHeap.push
  congr 1
  funext u p
  split <;> rfl

theorem UniqueHeap.default_inv (empty : H) (he : c empty = 0) :
    (UniqueHeap.default empty : UniqueHeap H It).Inv c := by
  simp [UniqueHeap.Inv, UniqueHeap.default, he]

theorem UniqueHeap.pushes_inv (hG : G.Lossless c) (l : List (It × Wt)) (u : UniqueHeap H It)
    (h : u.Inv c) : (l.foldl (fun u p => (UniqueHeap.push G u p.1 p.2).2) u).Inv c := by
  induction l generalizing u with
  | nil => exact h
  | cons p l ih => exact ih _ (UniqueHeap.push_inv hG u p.1 p.2 h)

theorem UniqueHeap.fromVec_items (empty : H) (l : List (Wt × It)) (i : It) :
    i ∈ (UniqueHeap.fromVec G empty l).items ↔ i ∈ l.map Prod.snd := by
  have : ∀ s : List It, i ∈ l.foldl (fun s p => if p.2 ∈ s then s else p.2 :: s) s ↔
      i ∈ s ∨ i ∈ l.map Prod.snd := by
    induction l with
    | nil => simp
    | cons p l ih =>
      intro s
      rw [List.foldl_cons, ih, List.map_cons, List.mem_cons]
      split
      · rename_i hp
        constructor
        · rintro (h | h) <;> simp [h]
        · rintro (h | rfl | h)
          · exact Or.inl h
          · exact Or.inl hp
          · exact Or.inr h
      · rw [List.mem_cons]; tauto
  simpa [UniqueHeap.fromVec] using this []

theorem UniqueHeap.fromVec_inv (hG : G.Lossless c) (empty : H) (he : c empty = 0) (l : List (Wt × It))
    (hl : (l.map Prod.snd).Nodup) : (UniqueHeap.fromVec G empty l).Inv c := by
  refine ⟨?_, fun i => ?_⟩
  · simpa [UniqueHeap.fromVec, hG.extend, he] using hl
  · rw [UniqueHeap.fromVec_items]
    simp [UniqueHeap.fromVec, hG.extend, he]

theorem UniqueHeap.drain_spec [LinearOrder Wt] [LinearOrder It]
    (hG : HeapLaws G c (fun p => toLex p)) (n : Nat) (h : H) (hn : (c h).card ≤ n) :
    (UniqueHeap.drain G n h : Multiset (Wt × It)) = c h ∧
    (UniqueHeap.drain G n h).Pairwise (fun a b => toLex a ≤ toLex b) := by
  induction n generalizing h with
  | zero =>
    have : c h = 0 := Multiset.card_eq_zero.1 (by omega)
    simp [UniqueHeap.drain, this]
  | succ n ih =>
    unfold UniqueHeap.drain
    split
    · rename_i hp
      simp [hG.lossless.pop_none _ hp]
    · rename_i x h' hp
      have hc := hG.lossless.pop_some _ _ _ hp
      have hcard : (c h').card ≤ n := by
        rw [hc, Multiset.card_cons] at hn; omega
      obtain ⟨h1, h2⟩ := ih h' hcard
      refine ⟨?_, ?_⟩
      · rw [← Multiset.coe_add, h1, hc, add_comm]; rfl
      · rw [List.pairwise_append]
        refine ⟨h2, List.pairwise_singleton _ _, ?_⟩
        intro a ha b hb
        rw [List.mem_singleton] at hb
        subst hb
        refine hG.max _ _ _ hp a ?_
        rw [← h1]; simpa using ha

end uniq

end Rustomata
