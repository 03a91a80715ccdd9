import Verif.Proofs.Heaps
import Verif.Spec.Heaps
import Mathlib.Algebra.Order.Monoid.Unbundled.Basic
import Mathlib.Algebra.Order.Monoid.Defs

/-!
# Properties C08–C10: limited heap, beam heap, unique heap
-/

namespace Rustomata.Props
open Spec

variable {H X W : Type _}

/-! ### C08 -/

/-- Pushes a list of items, collecting the discarded items. -/
def pushAll (M : MinMaxHeap H X) : List X → LimitedHeap H → List X × LimitedHeap H
  | [], l => ([], l)
  | x :: xs, l =>
    let r := LimitedHeap.push M l x
    let s := pushAll M xs r.2
    (r.1.toList ++ s.1, s.2)

/-- **C08** (best k) After pushing any list of items onto an empty limited heap of capacity `k`: kept and discarded
items together are the pushed ones, the number of kept items is `min k |xs|`, and no discarded item has a higher
priority than a kept one. -/
theorem C08_limited_best_k [Preorder W] {M : MinMaxHeap H X} {content : H → Multiset X} {prio : X → W}
    (hM : MinMaxLaws M content prio) (k : Nat) (xs : List X) :
    let r := pushAll M xs (LimitedHeap.withCapacity M k)
    content r.2.heap + (r.1 : Multiset X) = (xs : Multiset X) ∧
    (content r.2.heap).card = min k xs.length ∧
    ∀ d ∈ r.1, ∀ y ∈ content r.2.heap, prio d ≤ prio y := by
  -- generalised to a heap that already discarded `ds`
  have gen : ∀ (xs : List X) (l : LimitedHeap H) (D : Multiset X),
      (content l.heap).card ≤ l.capacity → (D ≠ 0 → (content l.heap).card = l.capacity) →
      (∀ d ∈ D, ∀ y ∈ content l.heap, prio d ≤ prio y) →
      let r := pushAll M xs l
      content r.2.heap + (r.1 : Multiset X) = content l.heap + (xs : Multiset X) ∧
      (content r.2.heap).card = min l.capacity ((content l.heap).card + xs.length) ∧
      ∀ d ∈ D + (r.1 : Multiset X), ∀ y ∈ content r.2.heap, prio d ≤ prio y := by
    intro xs
    induction xs with
    | nil =>
      intro l D h1 h2 h3
      refine ⟨by simp [pushAll], ?_, by simpa [pushAll] using h3⟩
      simp [pushAll, h1]
    | cons x xs ih =>
      intro l D h1 h2 h3
      have hp := LimitedHeap.push_spec hM l x
      simp only [pushAll]
      rcases hr : LimitedHeap.push M l x with ⟨o, l'⟩
      rw [hr] at hp
      obtain ⟨hcap, ⟨ho, hlt, hc⟩ | ⟨d, ho, hge, hc, hmin⟩⟩ := hp
      · simp only at ho hcap hc
        subst ho
        have hD : D = 0 := by
          by_contra hne
          have := h2 hne
          omega
        subst hD
        obtain ⟨i1, i2, i3⟩ := ih l' 0 (by rw [hc, Multiset.card_cons]; omega) (by simp) (by simp)
        refine ⟨?_, ?_, ?_⟩
        · simp only [Option.toList_none, List.nil_append]
          rw [i1, hc, ← Multiset.cons_coe, Multiset.add_cons, Multiset.cons_add]
        · rw [i2, hc, hcap, Multiset.card_cons, List.length_cons]; omega
        · simpa using i3
      · simp only at ho hcap hc hmin
        subst ho
        have hcard : (content l'.heap).card = (content l.heap).card := by
          have := congrArg Multiset.card hc
          simpa using this
        have hD' : ∀ e ∈ d ::ₘ D, ∀ y ∈ content l'.heap, prio e ≤ prio y := by
          intro e he y hy
          rcases Multiset.mem_cons.1 he with rfl | he
          · exact hmin y hy
          · have hy' : y ∈ x ::ₘ content l.heap := by rw [← hc]; exact Multiset.mem_cons_of_mem hy
            have hd' : d ∈ x ::ₘ content l.heap := by rw [← hc]; exact Multiset.mem_cons_self _ _
            rcases Multiset.mem_cons.1 hd' with rfl | hd'
            · have : content l'.heap = content l.heap := (Multiset.cons_inj_right d).1 hc
              exact h3 e he y (this ▸ hy)
            · exact (h3 e he d hd').trans (hmin y hy)
        obtain ⟨i1, i2, i3⟩ := ih l' (d ::ₘ D) (by omega) (fun _ => by omega) hD'
        refine ⟨?_, ?_, ?_⟩
        · simp only [Option.toList_some, List.singleton_append]
          rw [← Multiset.cons_coe, Multiset.add_cons, i1, ← Multiset.cons_add, hc,
            ← Multiset.cons_coe, Multiset.add_cons, Multiset.cons_add]
        · rw [i2, hcard, hcap, List.length_cons]; omega
        · intro e he
          refine i3 e ?_
          simp only [Option.toList_some, List.singleton_append] at he
          rw [← Multiset.cons_coe, Multiset.add_cons] at he
          rw [Multiset.cons_add]; exact he
  have := gen xs (LimitedHeap.withCapacity M k) 0 (by simp [LimitedHeap.withCapacity, hM.empty])
    (by simp) (by simp)
  simpa [LimitedHeap.withCapacity, hM.empty] using this

/-- Operations on a limited heap. -/
inductive LOp (X : Type _)
  | push (x : X)
  | pop

/-- One operation (results ignored). -/
def LOp.apply (M : MinMaxHeap H X) (l : LimitedHeap H) : LOp X → LimitedHeap H
  | .push x => (LimitedHeap.push M l x).2
  | .pop => match LimitedHeap.pop M l with
    | none => l
    | some (_, l') => l'

/-- **C08** (capacity) Over any sequence of pushes and pops the heap never holds more than `k` items. -/
theorem C08_limited_capacity [Preorder W] {M : MinMaxHeap H X} {content : H → Multiset X} {prio : X → W}
    (hM : MinMaxLaws M content prio) (k : Nat) (ops : List (LOp X)) :
    let l := ops.foldl (LOp.apply M) (LimitedHeap.withCapacity M k)
    (content l.heap).card ≤ k := by
  have gen : ∀ (ops : List (LOp X)) (l : LimitedHeap H), l.capacity = k → (content l.heap).card ≤ k →
      (content (ops.foldl (LOp.apply M) l).heap).card ≤ k := by
    intro ops
    induction ops with
    | nil => intro l _ h; exact h
    | cons op ops ih =>
      intro l hk h
      cases op with
      | push x =>
        obtain ⟨hcap, hp⟩ := LimitedHeap.push_spec hM l x
        refine ih _ (by simp only [LOp.apply, hcap, hk]) ?_
        simp only [LOp.apply]
        rcases hp with ⟨_, hlt, hc⟩ | ⟨d, _, hge, hc, _⟩
        · rw [hc, Multiset.card_cons]; omega
        · have := congrArg Multiset.card hc
          simp only [Multiset.card_cons, Nat.add_right_cancel_iff] at this
          omega
      | pop =>
        simp only [List.foldl_cons, LOp.apply]
        split
        · exact ih _ hk h
        · rename_i x l' hp
          have hs := (LimitedHeap.agenda_sound hM).pop_some _ _ _ hp
          have hl' : l'.capacity = k := by
            simp only [LimitedHeap.pop, Option.map_eq_some_iff] at hp
            obtain ⟨⟨y, h'⟩, _, he⟩ := hp
            simp only [Prod.mk.injEq] at he
            rw [← he.2]; exact hk
          refine ih _ hl' ?_
          simp only [hs, Multiset.card_cons] at h
          omega
  exact gen ops _ rfl (by simp [LimitedHeap.withCapacity, hM.empty])

/-- **C08** (push and pop) A push discards nothing while there is room, and otherwise exactly one item, which it
reports and which is minimal; `pop` removes and returns a maximum, and fails only on an empty heap. -/
theorem C08_limited_push_pop [Preorder W] {M : MinMaxHeap H X} {content : H → Multiset X} {prio : X → W}
    (hM : MinMaxLaws M content prio) (l : LimitedHeap H) (x : X) :
    (∀ o l', LimitedHeap.push M l x = (o, l') →
      ((content l.heap).card < l.capacity → o = none ∧ content l'.heap = x ::ₘ content l.heap) ∧
      (l.capacity ≤ (content l.heap).card → ∃ d, o = some d ∧
        d ::ₘ content l'.heap = x ::ₘ content l.heap ∧ ∀ y ∈ content l'.heap, prio d ≤ prio y)) ∧
    (LimitedHeap.pop M l = none → content l.heap = 0) ∧
    (∀ y l', LimitedHeap.pop M l = some (y, l') →
      content l.heap = y ::ₘ content l'.heap ∧ ∀ z ∈ content l'.heap, prio z ≤ prio y) := by
  refine ⟨fun o l' h => ?_, fun h => ?_, fun y l' h => ⟨?_, ?_⟩⟩
  · have hp := LimitedHeap.push_spec hM l x
    rw [h] at hp
    obtain ⟨_, ⟨ho, hlt, hc⟩ | ⟨d, ho, hge, hc, hmin⟩⟩ := hp
    · exact ⟨fun _ => ⟨ho, hc⟩, fun hge => absurd hge (by omega)⟩
    · exact ⟨fun hlt => absurd hlt (by omega), fun _ => ⟨d, ho, hc, hmin⟩⟩
  · simp only [LimitedHeap.pop, Option.map_eq_none_iff] at h
    exact hM.pop_none _ h
  · exact (LimitedHeap.agenda_sound hM).pop_some _ _ _ h
  · exact LimitedHeap.agenda_max hM _ _ _ h

example : MinMaxLaws (listMinMax (id : Nat → Nat)) (fun l => (l : Multiset Nat)) id ∧
    (pushAll (listMinMax (id : Nat → Nat)) [3, 1, 4, 1, 5] (LimitedHeap.withCapacity (listMinMax (id : Nat → Nat)) 3)).1 = [1, 1] ∧
    (pushAll (listMinMax (id : Nat → Nat)) [3, 1, 4, 1, 5] (LimitedHeap.withCapacity (listMinMax (id : Nat → Nat)) 3)).2.heap = [5, 4, 3] :=
  ⟨listMinMax_laws _, by decide, by decide⟩

/-! ### C09 -/

/-- **C09** (decision) An item is accepted iff its priority is at least `best * beta` for the best item on the heap (in
particular if the heap is empty). Accepting adds it, rejecting changes nothing, and the Boolean says which. -/
theorem C09_beam_push [LinearOrder W] [Mul W] {G : Agenda H X} {content : H → Multiset X}
    {prio : X → W} (hG : HeapLaws G content prio) (b : BeamHeap H W) (x : X) :
    let r := BeamHeap.push G prio b x
    (r.1 = true ↔ ∀ best ∈ content b.heap, (∀ y ∈ content b.heap, prio y ≤ prio best) →
        prio best * b.beta ≤ prio x) ∧
    (r.1 = true → content r.2.heap = x ::ₘ content b.heap) ∧
    (r.1 = false → r.2 = b) ∧ r.2.beta = b.beta := by
  unfold BeamHeap.push
  split
  · rename_i hn
    have := (heapPeek_eq_none hG b.heap).1 hn
    simp [this, hG.lossless.push]
  · rename_i best hs
    obtain ⟨hm, hmax⟩ := heapPeek_eq_some hG hs
    split
    · rename_i hle
      refine ⟨⟨fun _ b' hb' hb'' => ?_, fun _ => rfl⟩, fun _ => hG.lossless.push _ _, by simp, rfl⟩
      have : prio b' = prio best := le_antisymm (hmax b' hb') (hb'' best hm)
      rw [this]; exact hle
    · rename_i hle
      refine ⟨⟨by simp, fun h => absurd (h best hm hmax) hle⟩, by simp, fun _ => rfl, rfl⟩

/-- **C09** (best item) With a beam factor of at most one, an item that is at least as good as everything on
the heap is accepted. -/
theorem C09_beam_accepts_best [CommMonoid W] [LinearOrder W] [IsOrderedMonoid W] {G : Agenda H X}
    {content : H → Multiset X} {prio : X → W} (hG : HeapLaws G content prio) (b : BeamHeap H W)
    (hb : b.beta ≤ 1) (x : X) (hx : ∀ y ∈ content b.heap, prio y ≤ prio x) :
    (BeamHeap.push G prio b x).1 = true := by
  refine (C09_beam_push hG b x).1.2 fun best hm _ => ?_
  exact (mul_le_of_le_one_right' hb).trans (hx best hm)

/-- **C09** (nothing is removed by pushes) Pushing any list of items keeps everything that was on the heap and adds only
pushed items. -/
theorem C09_beam_pushes [LinearOrder W] [Mul W] {G : Agenda H X} {content : H → Multiset X}
    {prio : X → W} (hG : HeapLaws G content prio) (b : BeamHeap H W) (xs : List X) :
    let b' := xs.foldl (fun b x => (BeamHeap.push G prio b x).2) b
    content b.heap ≤ content b'.heap ∧ content b'.heap ≤ content b.heap + (xs : Multiset X) := by
  induction xs generalizing b with
  | nil => simp
  | cons x xs ih =>
    obtain ⟨_, h1, h2, _⟩ := C09_beam_push hG b x
    obtain ⟨i1, i2⟩ := ih (BeamHeap.push G prio b x).2
    simp only [List.foldl_cons]
    have e : content b.heap + ((x :: xs : List X) : Multiset X) = x ::ₘ content b.heap + (xs : Multiset X) := by
      rw [← Multiset.cons_coe, Multiset.add_cons, Multiset.cons_add]
    rw [e]
    rcases hr : (BeamHeap.push G prio b x).1 with _ | _
    · rw [h2 hr] at i1 i2 ⊢
      exact ⟨i1, i2.trans (by gcongr; exact Multiset.le_cons_self _ _)⟩
    · rw [h1 hr] at i1 i2
      exact ⟨(Multiset.le_cons_self _ _).trans i1, i2⟩

/-- With the priorities of `Nat` (beta `1`) and the list heap: `5` is accepted after `3`, then `4` is rejected. -/
example : HeapLaws (listHeap (id : Nat → Nat)) (fun l => (l : Multiset Nat)) id ∧
    (BeamHeap.push (listHeap (id : Nat → Nat)) id ⟨[5, 3], 1⟩ 4).1 = false ∧
    (BeamHeap.push (listHeap (id : Nat → Nat)) id ⟨[3], 1⟩ 5).1 = true := 
  ⟨listHeap_laws _, by decide, by decide⟩

/-! ### C10 -/

section C10
variable {It Wt : Type _}

/-- Operations to execute on a unique heap. -/
inductive UCmd (It Wt : Type _)
  | push (i : It) (w : Wt)
  | pop

/-- Executes commands and records their results. -/
def uexec [DecidableEq It] (G : Agenda H (Wt × It)) : List (UCmd It Wt) → UniqueHeap H It →
    List (UOp It Wt) × UniqueHeap H It
  | [], u => ([], u)
  | .push i w :: cs, u =>
    let r := UniqueHeap.push G u i w
    let s := uexec G cs r.2
    (.push i w r.1 :: s.1, s.2)
  | .pop :: cs, u =>
    let r := UniqueHeap.pop G u
    let s := uexec G cs r.2
    (.pop r.1 :: s.1, s.2)

/-- The heap represents the map `m`: it contains each item at most once, with the weight given by `m`. -/
def Represents (content : H → Multiset (Wt × It)) (u : UniqueHeap H It) (m : It → Option Wt) : Prop :=
  ((content u.heap).map Prod.snd).Nodup ∧ ∀ i w, m i = some w ↔ (w, i) ∈ content u.heap

/-- The ways to construct a unique heap for which the claim holds, with the represented map. -/
inductive Constructed [DecidableEq It] (G : Agenda H (Wt × It)) (empty : H) :
    UniqueHeap H It → Prop
  | default : Constructed G empty (UniqueHeap.default empty)
  | fromIter (l : List (It × Wt)) : Constructed G empty (UniqueHeap.fromIter G empty l)
  | fromVecNodup (l : List (Wt × It)) : (l.map Prod.snd).Nodup →
      Constructed G empty (UniqueHeap.fromVec G empty l)

private theorem inv_unique {content : H → Multiset (Wt × It)} {u : UniqueHeap H It}
    (h : ((content u.heap).map Prod.snd).Nodup) {i : It} {w w' : Wt} (h1 : (w, i) ∈ content u.heap)
    (h2 : (w', i) ∈ content u.heap) : w = w' := by
  have := Multiset.inj_on_of_nodup_map h _ h1 _ h2 rfl
  exact (Prod.mk.injEq .. ▸ this).1

/-- **C10** (partial: construction from a `Vec` with repeated items is excluded) Every history of operations on a unique
heap is a history of a finite map from items to weights: an item is present at most once, a push succeeds iff the item is
absent, the first weight is kept, `pop` returns the greatest (weight, item) pair and makes the item insertable again. -/
theorem C10_unique_heap_partial [LinearOrder It] [LinearOrder Wt] {G : Agenda H (Wt × It)}
    {content : H → Multiset (Wt × It)} (hG : HeapLaws G content (fun p => toLex p))
    {empty : H} (he : content empty = 0) {u : UniqueHeap H It} (hu : Constructed G empty u)
    (cs : List (UCmd It Wt)) :
    ∃ m m', Represents content u m ∧ UHist m (uexec G cs u).1 m' ∧ Represents content (uexec G cs u).2 m' := by
  have hinv : u.Inv content := by
    cases hu with
    | default => exact UniqueHeap.default_inv empty he
    | fromIter l =>
      rw [UniqueHeap.fromIter_eq]
      exact UniqueHeap.pushes_inv hG.lossless l _ (UniqueHeap.default_inv empty he)
    | fromVecNodup l hl => exact UniqueHeap.fromVec_inv hG.lossless empty he l hl
  have gen : ∀ (cs : List (UCmd It Wt)) (u : UniqueHeap H It) (m : It → Option Wt), u.Inv content →
      Represents content u m → ∃ m', UHist m (uexec G cs u).1 m' ∧ Represents content (uexec G cs u).2 m' := by
    intro cs
    induction cs with
    | nil => intro u m _ hm; exact ⟨m, .nil, hm⟩
    | cons c cs ih =>
      intro u m hi hm
      have hnone : ∀ i, m i = none ↔ i ∉ u.items := by
        intro i
        rw [hi.2, Multiset.mem_map, Option.eq_none_iff_forall_ne_some]
        constructor
        · rintro h ⟨⟨w, _⟩, hp, rfl⟩
          exact h w ((hm.2 _ _).2 hp)
        · intro h w hw
          exact h ⟨(w, i), (hm.2 _ _).1 hw, rfl⟩
      cases c with
      | push i w =>
        have hi' := UniqueHeap.push_inv hG.lossless u i w hi
        by_cases hmem : i ∈ u.items
        · have hp : UniqueHeap.push G u i w = (false, u) := by simp [UniqueHeap.push, hmem]
          simp only [uexec, hp]
          obtain ⟨m', h1, h2⟩ := ih u m hi hm
          rcases hmi : m i with _ | w'
          · exact absurd hmem ((hnone i).1 hmi)
          · exact ⟨m', .cons (.push_old hmi) h1, h2⟩
        · have hp : UniqueHeap.push G u i w = (true, ⟨G.push u.heap (w, i), i :: u.items⟩) := by
            simp [UniqueHeap.push, hmem]
          rw [hp] at hi'
          simp only [uexec, hp]
          have hm' : Represents content (⟨G.push u.heap (w, i), i :: u.items⟩ : UniqueHeap H It)
              (Function.update m i (some w)) := by
            refine ⟨hi'.1, fun j v => ?_⟩
            simp only [hG.lossless.push, Multiset.mem_cons, Prod.mk.injEq]
            by_cases hji : j = i
            · subst hji
              rw [Function.update_self]
              constructor
              · intro h; exact Or.inl ⟨(Option.some.inj h).symm, rfl⟩
              · rintro (⟨rfl, _⟩ | h)
                · rfl
                · exact absurd ((hi.2 j).2 (Multiset.mem_map.2 ⟨_, h, rfl⟩)) hmem
            · rw [Function.update_of_ne hji, hm.2]
              simp [hji]
          obtain ⟨m', h1, h2⟩ := ih _ _ hi' hm'
          exact ⟨m', .cons (.push_new ((hnone i).2 hmem)) h1, h2⟩
      | pop =>
        have hi' := UniqueHeap.pop_inv hG.lossless u hi
        rcases hpop : G.pop u.heap with _ | ⟨⟨w, i⟩, h'⟩
        · have hp : UniqueHeap.pop G u = (none, u) := by simp [UniqueHeap.pop, hpop]
          simp only [uexec, hp]
          obtain ⟨m', h1, h2⟩ := ih u m hi hm
          have h0 := hG.lossless.pop_none _ hpop
          refine ⟨m', .cons (.pop_none fun i => ?_) h1, h2⟩
          rw [Option.eq_none_iff_forall_ne_some]
          intro w hw
          have := (hm.2 _ _).1 hw
          rw [h0] at this
          exact absurd this (Multiset.notMem_zero _)
        · have hp : UniqueHeap.pop G u = (some (i, w), ⟨h', u.items.filter (· ≠ i)⟩) := by
            simp [UniqueHeap.pop, hpop]
          rw [hp] at hi'
          simp only [uexec, hp]
          have hc := hG.lossless.pop_some _ _ _ hpop
          have hm' : Represents content (⟨h', u.items.filter (· ≠ i)⟩ : UniqueHeap H It)
              (Function.update m i none) := by
            refine ⟨hi'.1, fun j v => ?_⟩
            have hnd := hi.1
            rw [hc, Multiset.map_cons, Multiset.nodup_cons] at hnd
            by_cases hji : j = i
            · subst hji
              rw [Function.update_self]
              constructor
              · intro h; cases h
              · intro h; exact absurd (Multiset.mem_map.2 ⟨_, h, rfl⟩) hnd.1
            · rw [Function.update_of_ne hji, hm.2, hc, Multiset.mem_cons]
              simp [hji]
          obtain ⟨m', h1, h2⟩ := ih _ _ hi' hm'
          have hin : (w, i) ∈ content u.heap := by rw [hc]; exact Multiset.mem_cons_self _ _
          refine ⟨m', .cons (.pop_some ((hm.2 _ _).2 hin) fun j v hj => ?_) h1, h2⟩
          have := (hm.2 _ _).1 hj
          rw [hc, Multiset.mem_cons] at this
          rcases this with h | h
          · rw [h]
          · exact hG.max _ _ _ hpop _ h
  classical
  have hex : ∃ m, Represents content u m := by
    refine ⟨fun i => if h : ∃ w, (w, i) ∈ content u.heap then some h.choose else none, hinv.1, fun i w => ?_⟩
    beta_reduce
    constructor
    · intro h
      split at h
      · rename_i hx
        have := hx.choose_spec
        rw [Option.some.inj h] at this
        exact this
      · cases h
    · intro h
      have hx : ∃ w, (w, i) ∈ content u.heap := ⟨w, h⟩
      rw [dif_pos hx]
      exact congrArg some (inv_unique hinv.1 hx.choose_spec h)
  obtain ⟨m, hm⟩ := hex
  obtain ⟨m', h1, h2⟩ := gen cs u m hinv hm
  exact ⟨m, m', hm, h1, h2⟩

/-- **C10** (first weight wins) A heap collected from an iterator represents exactly the first weight of each item. -/
theorem C10_from_iter_first_weight [LinearOrder It] [LinearOrder Wt] {G : Agenda H (Wt × It)}
    {content : H → Multiset (Wt × It)} (hG : HeapLaws G content (fun p => toLex p))
    {empty : H} (he : content empty = 0) (l : List (It × Wt)) :
    Represents content (UniqueHeap.fromIter G empty l) (fun i => (l.find? (fun p => p.1 = i)).map Prod.snd) := by
  rw [UniqueHeap.fromIter_eq]
  have gen : ∀ (l : List (It × Wt)) (u : UniqueHeap H It), u.Inv content →
      ∀ i w, (w, i) ∈ content (l.foldl (fun u p => (UniqueHeap.push G u p.1 p.2).2) u).heap ↔
        ((w, i) ∈ content u.heap ∨ (i ∉ u.items ∧ (l.find? (fun p => p.1 = i)).map Prod.snd = some w)) := by
    intro l
    induction l with
    | nil => intro u _ i w; simp
    | cons p l ih =>
      intro u hu i w
      rw [List.foldl_cons, ih _ (UniqueHeap.push_inv hG.lossless u p.1 p.2 hu)]
      obtain ⟨j, v⟩ := p
      unfold UniqueHeap.push
      by_cases hj : j ∈ u.items
      · simp only [hj, if_true]
        rw [List.find?_cons]
        by_cases hji : j = i
        · subst hji; simp [hj]
        · simp [hji]
      · simp only [hj, if_false, hG.lossless.push, Multiset.mem_cons, Prod.mk.injEq, List.mem_cons, not_or]
        rw [List.find?_cons]
        by_cases hji : j = i
        · subst hji
          simp only [decide_true, hj, not_false_eq_true, not_true_eq_false, false_and, and_true, or_false,
            true_and, Option.map_some, Option.some.injEq]
          constructor
          · rintro (rfl | h)
            · exact Or.inr rfl
            · exact Or.inl h
          · rintro (h | h)
            · exact Or.inr h
            · exact Or.inl h.symm
        · simp [hji, Ne.symm hji]
  have hd := UniqueHeap.default_inv (c := content) (It := It) empty he
  refine ⟨(UniqueHeap.pushes_inv hG.lossless l _ hd).1, fun i w => ?_⟩
  rw [gen l _ hd]
  simp [UniqueHeap.default, he]

/-- **C10** `into_sorted_vec` lists exactly the content in ascending order. -/
theorem C10_into_sorted_vec [LinearOrder It] [LinearOrder Wt] {G : Agenda H (Wt × It)}
    {content : H → Multiset (Wt × It)} (hG : HeapLaws G content (fun p => toLex p))
    {size : H → Nat} (hs : ∀ h, size h = (content h).card) (u : UniqueHeap H It) :
    (UniqueHeap.intoSortedVec G size u : Multiset (Wt × It)) = content u.heap ∧
    (UniqueHeap.intoSortedVec G size u).Pairwise (fun a b => toLex a ≤ toLex b) :=
  UniqueHeap.drain_spec hG _ _ (hs _).ge

/-- The full claim **C10**: also heaps made from a `Vec` hold each item at most once. -/
def C10_claim : Prop :=
  ∀ (It Wt H : Type) (_ : LinearOrder It) (_ : LinearOrder Wt) (G : Agenda H (Wt × It))
    (content : H → Multiset (Wt × It)) (empty : H), HeapLaws G content (fun p => toLex p) → content empty = 0 →
    ∀ l : List (Wt × It), ((content (UniqueHeap.fromVec G empty l).heap).map Prod.snd).Nodup

/-- **C10 is violated** by the conversion from a `Vec` that contains an item twice. -/
theorem C10_from_vec_violated : ¬ C10_claim := by
  intro h
  have := h Nat Nat (List (Nat × Nat)) inferInstance inferInstance
    (listHeap (fun p => toLex p)) (fun l => (l : Multiset (Nat × Nat))) [] (listHeap_laws _) rfl [(1, 7), (2, 7)]
  revert this
  decide

/-- The hypotheses of C10 are satisfiable. -/
example : HeapLaws (listHeap (fun p : Nat × Nat => toLex p)) (fun l => (l : Multiset (Nat × Nat))) (fun p => toLex p) ∧
    Constructed (listHeap (fun p : Nat × Nat => toLex p)) []
      (UniqueHeap.fromIter (listHeap (fun p : Nat × Nat => toLex p)) [] [(7, 1), (8, 5), (7, 2)]) ∧
    (uexec (listHeap (fun p : Nat × Nat => toLex p)) [.push 7 9, .pop, .pop, .push 7 9]
      (UniqueHeap.fromIter (listHeap (fun p : Nat × Nat => toLex p)) [] [(7, 1), (8, 5), (7, 2)])).2.heap = [(9, 7)] :=
  ⟨listHeap_laws _, .fromIter _, by decide⟩

end C10

end Rustomata.Props
