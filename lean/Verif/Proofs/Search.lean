import Verif.Model.Search
import Verif.Spec.Search
import Mathlib.Data.Multiset.Bind
import Mathlib.Data.List.Basic

set_option linter.unusedSectionVars false
set_option linter.unusedSimpArgs false

namespace Rustomata
open Spec

variable {A I W : Type _}

theorem Agenda.Lossless.sound {G : Agenda A I} {c : A → Multiset I} (h : G.Lossless c) : G.Sound c :=
  ⟨fun a x => (h.push a x).le, h.pop_some⟩

theorem Agenda.Lossless.extend {G : Agenda A I} {c : A → Multiset I} (h : G.Lossless c)
    (a : A) (xs : List I) : c (G.extend a xs) = c a + (xs : Multiset I) := by
  induction xs generalizing a with
  | nil => simp [Agenda.extend]
  | cons x xs ih =>
    have : G.extend a (x :: xs) = G.extend (G.push a x) xs := rfl
    rw [this, ih, h.push, ← Multiset.cons_coe, Multiset.add_cons, Multiset.cons_add]

theorem Agenda.Sound.extend {G : Agenda A I} {c : A → Multiset I} (h : G.Sound c)
    (a : A) (xs : List I) : c (G.extend a xs) ≤ c a + (xs : Multiset I) := by
  induction xs generalizing a with
  | nil => simp [Agenda.extend]
  | cons x xs ih =>
    have : G.extend a (x :: xs) = G.extend (G.push a x) xs := rfl
    rw [this, ← Multiset.cons_coe, Multiset.add_cons, ← Multiset.cons_add]
    exact (ih _).trans (by gcongr; exact h.push a x)

theorem vecAgenda_lossless : (vecAgenda I).Lossless (fun l => (l : Multiset I)) := by
  refine ⟨fun a x => ?_, fun a h => ?_, fun a x a' h => ?_⟩
  · simp only [vecAgenda, ← Multiset.coe_add, Multiset.coe_singleton]
    rw [add_comm]; rfl
  · simpa [vecAgenda] using h
  · simp only [vecAgenda, Option.map_eq_some_iff, Prod.mk.injEq] at h
    obtain ⟨y, hy, rfl, rfl⟩ := h
    conv_lhs => rw [← List.dropLast_append_getLast? y hy]
    rw [← Multiset.coe_add, add_comm]; rfl

theorem dequeAgenda_lossless : (dequeAgenda I).Lossless (fun l => (l : Multiset I)) := by
  refine ⟨fun a x => rfl, fun a h => ?_, fun a x a' h => ?_⟩
  · simpa [dequeAgenda] using h
  · simp only [dequeAgenda, Option.map_eq_some_iff, Prod.mk.injEq] at h
    obtain ⟨y, hy, rfl, rfl⟩ := h
    conv_lhs => rw [← List.dropLast_append_getLast? y hy]
    rw [← Multiset.coe_add, add_comm]; rfl

theorem Search.next_eq_none {G : Agenda A I} {succ : I → List I} {a : A} :
    Search.next G succ a = none ↔ G.pop a = none := by
  unfold Search.next; split <;> simp_all

theorem Search.next_eq_some {G : Agenda A I} {succ : I → List I} {a a'' : A} {x : I} :
    Search.next G succ a = some (x, a'') ↔
      ∃ a', G.pop a = some (x, a') ∧ a'' = G.extend a' (succ x) := by
  unfold Search.next
  split
  · simp_all
  · rename_i y a' h
    simp only [h, Option.some.injEq, Prod.mk.injEq]
    constructor
    · rintro ⟨rfl, rfl⟩; exact ⟨a', ⟨rfl, rfl⟩, rfl⟩
    · rintro ⟨_, ⟨rfl, rfl⟩, rfl⟩; exact ⟨rfl, rfl⟩

/-- Invariant: if all pending items are reachable then all yielded and pending items are. -/
theorem Search.run_reach {G : Agenda A I} {c : A → Multiset I} (h : G.Sound c) (succ : I → List I)
    (P : I → Prop) (n : Nat) (a : A) (ha : ∀ x ∈ c a, Reach succ P x) :
    (∀ x ∈ (Search.run G succ n a).1, Reach succ P x) ∧
    (∀ x ∈ c (Search.run G succ n a).2, Reach succ P x) := by
  induction n generalizing a with
  | zero => simpa [Search.run] using ha
  | succ n ih =>
    unfold Search.run
    split
    · simpa using ha
    · rename_i x a'' hn
      obtain ⟨a', hp, rfl⟩ := Search.next_eq_some.1 hn
      have hc := h.pop_some _ _ _ hp
      have hx : Reach succ P x := ha x (by simp [hc])
      have := ih (G.extend a' (succ x)) (by
        intro y hy
        have := Multiset.mem_of_le (h.extend a' (succ x)) hy
        rw [Multiset.mem_add] at this
        rcases this with h1 | h1
        · exact ha y (by simp [hc, h1])
        · exact Reach.step hx (by simpa using h1))
      refine ⟨?_, this.2⟩
      simp only [List.mem_cons, forall_eq_or_imp]
      exact ⟨hx, this.1⟩

theorem Search.run_balance {G : Agenda A I} {c : A → Multiset I} (h : G.Lossless c)
    (succ : I → List I) (n : Nat) (a : A) :
    ((Search.run G succ n a).1 : Multiset I) + c (Search.run G succ n a).2 =
      c a + (((Search.run G succ n a).1.flatMap succ : List I) : Multiset I) := by
  induction n generalizing a with
  | zero => simp [Search.run]
  | succ n ih =>
    unfold Search.run
    split
    · simp
    · rename_i x a'' hn
      obtain ⟨a', hp, rfl⟩ := Search.next_eq_some.1 hn
      have hc := h.pop_some _ _ _ hp
      have := ih (G.extend a' (succ x))
      simp only [List.flatMap_cons, ← Multiset.coe_add]
      rw [← Multiset.cons_coe, Multiset.cons_add, this, h.extend, hc, Multiset.cons_add, add_assoc]

theorem closed_of_balance {succ : I → List I} {ys : List I} {init : Multiset I}
    (h : (ys : Multiset I) = init + ((ys.flatMap succ : List I) : Multiset I)) :
    ∀ x, Reach succ (· ∈ init) x → x ∈ ys := by
  intro x hx
  have hm : ∀ z, z ∈ ys ↔ z ∈ init ∨ z ∈ ys.flatMap succ := by
    intro z
    rw [← Multiset.mem_coe, h, Multiset.mem_add, Multiset.mem_coe]
  induction hx with
  | base h => exact (hm _).2 (Or.inl h)
  | step _ hy ih => exact (hm _).2 (Or.inr (List.mem_flatMap.2 ⟨_, ih, hy⟩))

/-! ### best first -/

/-- Everything yielded from now on is bounded by a bound of the agenda. -/
theorem Search.run_bounded [Preorder W] {G : Agenda A I} {c : A → Multiset I} (h : G.Sound c)
    (succ : I → List I) (prio : I → W) (hs : ∀ x, ∀ y ∈ succ x, prio y ≤ prio x)
    (n : Nat) (a : A) (b : W) (ha : ∀ x ∈ c a, prio x ≤ b) :
    (∀ x ∈ (Search.run G succ n a).1, prio x ≤ b) ∧
    (∀ x ∈ c (Search.run G succ n a).2, prio x ≤ b) := by
  induction n generalizing a with
  | zero => simpa [Search.run] using ha
  | succ n ih =>
    unfold Search.run
    split
    · simpa using ha
    · rename_i x a'' hn
      obtain ⟨a', hp, rfl⟩ := Search.next_eq_some.1 hn
      have hc := h.pop_some _ _ _ hp
      have hx : prio x ≤ b := ha x (by simp [hc])
      have := ih (G.extend a' (succ x)) (by
        intro y hy
        have := Multiset.mem_of_le (h.extend a' (succ x)) hy
        rw [Multiset.mem_add] at this
        rcases this with h1 | h1
        · exact ha y (by simp [hc, h1])
        · exact (hs x y (by simpa using h1)).trans hx)
      refine ⟨?_, this.2⟩
      simp only [List.mem_cons, forall_eq_or_imp]
      exact ⟨hx, this.1⟩

theorem Search.extend_bounded [Preorder W] {G : Agenda A I} {c : A → Multiset I} (h : G.Sound c)
    (succ : I → List I) (prio : I → W) (hs : ∀ x, ∀ y ∈ succ x, prio y ≤ prio x)
    (hmax : G.PopsMax c prio) {a a' : A} {x : I} (hp : G.pop a = some (x, a')) :
    ∀ y ∈ c (G.extend a' (succ x)), prio y ≤ prio x := by
  intro y hy
  have := Multiset.mem_of_le (h.extend a' (succ x)) hy
  rw [Multiset.mem_add] at this
  rcases this with h1 | h1
  · exact hmax _ _ _ hp y h1
  · exact hs x y (by simpa using h1)

theorem Search.run_sorted [Preorder W] {G : Agenda A I} {c : A → Multiset I} (h : G.Sound c)
    (succ : I → List I) (prio : I → W) (hs : ∀ x, ∀ y ∈ succ x, prio y ≤ prio x)
    (hmax : G.PopsMax c prio) (n : Nat) (a : A) :
    (Search.run G succ n a).1.Pairwise (fun x y => prio y ≤ prio x) ∧
    (∀ x ∈ (Search.run G succ n a).1, ∀ y ∈ c (Search.run G succ n a).2, prio y ≤ prio x) := by
  induction n generalizing a with
  | zero => simp [Search.run]
  | succ n ih =>
    unfold Search.run
    split
    · simp
    · rename_i x a'' hn
      obtain ⟨a', hp, rfl⟩ := Search.next_eq_some.1 hn
      have hb := Search.run_bounded h succ prio hs n (G.extend a' (succ x)) (prio x)
        (Search.extend_bounded h succ prio hs hmax hp)
      obtain ⟨h1, h2⟩ := ih (G.extend a' (succ x))
      refine ⟨List.pairwise_cons.2 ⟨hb.1, h1⟩, ?_⟩
      intro z hz
      rcases List.mem_cons.1 hz with rfl | hz
      · exact hb.2
      · exact h2 z hz

/-- Every reachable item is yielded, or is (a successor of ... of) a pending item. -/
theorem reach_yielded_or_pending {succ : I → List I} {ys : List I} {init pend : Multiset I}
    (h : (ys : Multiset I) + pend = init + ((ys.flatMap succ : List I) : Multiset I))
    {x : I} (hx : Reach succ (· ∈ init) x) : x ∈ ys ∨ Reach succ (· ∈ pend) x := by
  have hm : ∀ z, (z ∈ ys ∨ z ∈ pend) ↔ z ∈ init ∨ z ∈ ys.flatMap succ := by
    intro z
    rw [← Multiset.mem_coe, ← Multiset.mem_add, h, Multiset.mem_add, Multiset.mem_coe]
  induction hx with
  | base h =>
    rcases (hm _).2 (Or.inl h) with h | h
    · exact Or.inl h
    · exact Or.inr (.base h)
  | step _ hy ih =>
    rcases ih with ih | ih
    · rcases (hm _).2 (Or.inr (List.mem_flatMap.2 ⟨_, ih, hy⟩)) with h | h
      · exact Or.inl h
      · exact Or.inr (.base h)
    · exact Or.inr (.step ih hy)

theorem reach_bounded [Preorder W] {succ : I → List I} {P : I → Prop} {prio : I → W}
    (hs : ∀ x, ∀ y ∈ succ x, prio y ≤ prio x) {b : W} (hb : ∀ x, P x → prio x ≤ b)
    {x : I} (hx : Reach succ P x) : prio x ≤ b := by
  induction hx with
  | base h => exact hb _ h
  | step _ hy ih => exact (hs _ _ hy).trans ih

/-! ### breadth first -/

/-- The items at path-distance `d`, in the order in which the queue releases them. -/
def bfsLevel (succ : I → List I) (q : List I) : Nat → List I
  | 0 => q
  | d + 1 => (bfsLevel succ q d).flatMap succ

theorem foldl_push_deque (a xs : List I) : (dequeAgenda I).extend a xs = xs.reverse ++ a := by
  induction xs generalizing a with
  | nil => rfl
  | cons x xs ih =>
    have : (dequeAgenda I).extend a (x :: xs) = (dequeAgenda I).extend (x :: a) xs := rfl
    rw [this, ih]; simp

theorem deque_next (succ : I → List I) (q : List I) (x : I) :
    Search.next (dequeAgenda I) succ (q ++ [x]) = some (x, (succ x).reverse ++ q) := by
  rw [← foldl_push_deque q (succ x)]
  simp [Search.next, dequeAgenda]

/-- Working off the queue `q` (given in pop order). -/
theorem deque_run (succ : I → List I) (q rest : List I) (n : Nat) :
    Search.run (dequeAgenda I) succ (q.length + n) (rest.reverse ++ q.reverse) =
      let r := Search.run (dequeAgenda I) succ n ((rest ++ q.flatMap succ).reverse)
      (q ++ r.1, r.2) := by
  induction q generalizing rest with
  | nil => simp
  | cons x q ih =>
    rw [List.length_cons, Nat.add_right_comm, Search.run]
    have hn := deque_next succ (rest.reverse ++ q.reverse) x
    rw [List.append_assoc] at hn
    rw [List.reverse_cons, hn]
    have := ih (rest ++ succ x)
    simp only [List.reverse_append, List.append_assoc, List.flatMap_cons] at this ⊢
    rw [this]
    simp

theorem bfs_levels (succ : I → List I) (initials : List I) (d : Nat) (n : Nat) :
    Search.run (dequeAgenda I) succ
        (((List.range d).flatMap (bfsLevel succ initials.reverse)).length + n) initials =
      let r := Search.run (dequeAgenda I) succ n (bfsLevel succ initials.reverse d).reverse
      ((List.range d).flatMap (bfsLevel succ initials.reverse) ++ r.1, r.2) := by
  induction d generalizing n with
  | zero => simp [bfsLevel]
  | succ d ih =>
    rw [List.range_succ, List.flatMap_append, List.length_append, Nat.add_assoc, ih]
    have := deque_run succ (bfsLevel succ initials.reverse d) [] n
    simp only [List.flatMap_cons, List.flatMap_nil, List.append_nil, List.reverse_nil,
      List.nil_append] at this ⊢
    rw [this]
    simp [bfsLevel]

theorem mem_bfsLevel (succ : I → List I) (q : List I) (d : Nat) (x : I) :
    x ∈ bfsLevel succ q d ↔ ReachIn succ (· ∈ q) d x := by
  induction d generalizing x with
  | zero =>
    constructor
    · exact fun h => .base h
    · intro h; cases h; assumption
  | succ d ih =>
    simp only [bfsLevel, List.mem_flatMap]
    constructor
    · rintro ⟨y, hy, hx⟩; exact .step ((ih y).1 hy) hx
    · intro h; cases h with
      | step h1 h2 => exact ⟨_, (ih _).2 h1, h2⟩

theorem reach_iff_reachIn (succ : I → List I) (P : I → Prop) (x : I) :
    Reach succ P x ↔ ∃ d, ReachIn succ P d x := by
  constructor
  · intro h
    induction h with
    | base h => exact ⟨0, .base h⟩
    | step _ hy ih => obtain ⟨d, hd⟩ := ih; exact ⟨d + 1, .step hd hy⟩
  · rintro ⟨d, h⟩
    induction h with
    | base h => exact .base h
    | step _ hy ih => exact .step ih hy

theorem Search.run_take {G : Agenda A I} {succ : I → List I} {n m : Nat} (h : n ≤ m) (a : A) :
    (Search.run G succ n a).1 = (Search.run G succ m a).1.take n := by
  induction n generalizing m a with
  | zero => simp [Search.run]
  | succ n ih =>
    obtain ⟨m, rfl⟩ : ∃ k, m = k + 1 := ⟨m - 1, by omega⟩
    unfold Search.run
    split
    · simp
    · rename_i x a' hn
      simp only [List.take_succ_cons, List.cons.injEq, true_and]
      exact ih (by omega) a'

theorem Search.run_length {G : Agenda A I} {succ : I → List I} (n : Nat) (a : A) :
    (Search.run G succ n a).1.length ≤ n := by
  induction n generalizing a with
  | zero => simp [Search.run]
  | succ n ih =>
    unfold Search.run
    split
    · simp
    · rename_i x a' hn
      simpa using ih a'

theorem bfsLevel_empty_of_le {succ : I → List I} {q : List I} {d e : Nat} (h : d ≤ e)
    (hd : bfsLevel succ q d = []) : bfsLevel succ q e = [] := by
  induction h with
  | refl => exact hd
  | step _ ih => simp [bfsLevel, ih]

theorem levels_length_ge {succ : I → List I} {q : List I} (n : Nat)
    (h : ∀ d < n, bfsLevel succ q d ≠ []) :
    n ≤ ((List.range n).flatMap (bfsLevel succ q)).length := by
  induction n with
  | zero => simp
  | succ n ih =>
    have h1 := ih (fun d hd => h d (by omega))
    have h2 := List.length_pos_iff.2 (h n (by omega))
    rw [List.range_succ, List.flatMap_append, List.length_append]
    simp only [List.flatMap_cons, List.flatMap_nil, List.append_nil]
    omega

theorem deque_run_nil (succ : I → List I) (n : Nat) :
    Search.run (dequeAgenda I) succ n [] = ([], []) := by
  cases n <;> simp [Search.run, Search.next, dequeAgenda]

theorem bfs_eq_take (succ : I → List I) (initials : List I) (n : Nat) :
    Search.bfs initials succ n =
      ((List.range n).flatMap (bfsLevel succ initials.reverse)).take n := by
  unfold Search.bfs
  by_cases h : n ≤ ((List.range n).flatMap (bfsLevel succ initials.reverse)).length
  · rw [Search.run_take h]
    have := bfs_levels succ initials n 0
    rw [Nat.add_zero] at this
    rw [this]
    simp [Search.run]
  · have hl : bfsLevel succ initials.reverse n = [] := by
      by_contra hne
      apply h
      apply levels_length_ge
      intro d hd he
      exact hne (bfsLevel_empty_of_le hd.le he)
    obtain ⟨k, hk⟩ : ∃ k, n = ((List.range n).flatMap (bfsLevel succ initials.reverse)).length + k :=
      ⟨n - ((List.range n).flatMap (bfsLevel succ initials.reverse)).length, by omega⟩
    have := bfs_levels succ initials n k
    rw [← hk, hl] at this
    rw [this, List.reverse_nil, deque_run_nil]
    simp only [List.append_nil]
    rw [List.take_of_length_le (by omega)]

/-- The path lengths of the items in the level order. -/
def levelDists (succ : I → List I) (q : List I) (n : Nat) : List Nat :=
  (List.range n).flatMap fun d => List.replicate (bfsLevel succ q d).length d

theorem levelDists_forall₂ (succ : I → List I) (q : List I) (n : Nat) :
    List.Forall₂ (fun d x => ReachIn succ (· ∈ q) d x) (levelDists succ q n)
      ((List.range n).flatMap (bfsLevel succ q)) := by
  induction n with
  | zero => simp [levelDists]
  | succ n ih =>
    unfold levelDists
    rw [List.range_succ, List.flatMap_append, List.flatMap_append]
    refine List.rel_append ih ?_
    simp only [List.flatMap_cons, List.flatMap_nil, List.append_nil]
    have : ∀ l : List I, (∀ x ∈ l, ReachIn succ (· ∈ q) n x) →
        List.Forall₂ (fun d x => ReachIn succ (· ∈ q) d x) (List.replicate l.length n) l := by
      intro l hl
      induction l with
      | nil => exact .nil
      | cons x l ih =>
        rw [List.length_cons, List.replicate_succ]
        exact .cons (hl x List.mem_cons_self) (ih fun y hy => hl y (List.mem_cons_of_mem _ hy))
    exact this _ fun x hx => (mem_bfsLevel _ _ _ _).1 hx

theorem levelDists_sorted (succ : I → List I) (q : List I) (n : Nat) :
    (levelDists succ q n).Pairwise (· ≤ ·) ∧ ∀ d ∈ levelDists succ q n, d < n := by
  induction n with
  | zero => simp [levelDists]
  | succ n ih =>
    have e : levelDists succ q (n + 1) =
        levelDists succ q n ++ List.replicate (bfsLevel succ q n).length n := by
      simp [levelDists, List.range_succ]
    rw [e]
    refine ⟨List.pairwise_append.2 ⟨ih.1, ?_, ?_⟩, ?_⟩
    · rw [List.pairwise_replicate]; simp
    · intro a ha b hb
      rw [List.eq_of_mem_replicate hb]
      exact (ih.2 a ha).le
    · intro d hd
      rcases List.mem_append.1 hd with h | h
      · have := ih.2 d h; omega
      · rw [List.eq_of_mem_replicate h]; omega

theorem levelDists_complete (succ : I → List I) (q : List I) (n k d : Nat)
    (hk : (levelDists succ q n)[k]? = some d) (z : I) (d' : Nat) (hz : ReachIn succ (· ∈ q) d' z)
    (hd : d' < d) : z ∈ ((List.range n).flatMap (bfsLevel succ q)).take k := by
  induction n with
  | zero => simp [levelDists] at hk
  | succ n ih =>
    have e : levelDists succ q (n + 1) =
        levelDists succ q n ++ List.replicate (bfsLevel succ q n).length n := by
      simp [levelDists, List.range_succ]
    have hlen := (levelDists_forall₂ succ q n).length_eq
    rw [e] at hk
    have e2 : (List.range (n + 1)).flatMap (bfsLevel succ q) =
        (List.range n).flatMap (bfsLevel succ q) ++ bfsLevel succ q n := by
      simp [List.range_succ]
    rw [e2]
    by_cases hlt : k < (levelDists succ q n).length
    · rw [List.getElem?_append_left hlt] at hk
      have := ih hk
      rw [List.take_append_of_le_length (by omega)]
      exact this
    · rw [List.getElem?_append_right (by omega)] at hk
      have hdn := List.eq_of_mem_replicate (List.mem_of_getElem? hk)
      subst hdn
      rw [List.take_append]
      refine List.mem_append_left _ ?_
      rw [List.take_of_length_le (by omega)]
      rw [List.mem_flatMap]
      exact ⟨d', by simpa using hd, (mem_bfsLevel _ _ _ _).2 hz⟩

/-! ### depth first -/

theorem foldl_push_vec (a xs : List I) : (vecAgenda I).extend a xs = a ++ xs := by
  induction xs generalizing a with
  | nil => simp [Agenda.extend]
  | cons x xs ih =>
    have : (vecAgenda I).extend a (x :: xs) = (vecAgenda I).extend (a ++ [x]) xs := rfl
    rw [this, ih]; simp

theorem vec_next (succ : I → List I) (q : List I) (x : I) :
    Search.next (vecAgenda I) succ (q ++ [x]) = some (x, q ++ succ x) := by
  rw [← foldl_push_vec q (succ x)]
  simp [Search.next, vecAgenda]

theorem dfs_pre (succ : I → List I) {xs l : List I} (h : Pre succ xs l) (below : List I) (n : Nat) :
    Search.run (vecAgenda I) succ (l.length + n) (below ++ xs) =
      let r := Search.run (vecAgenda I) succ n below
      (l ++ r.1, r.2) := by
  induction h generalizing below n with
  | nil => simp
  | @cons x xs l r _ _ ih1 ih2 =>
    have e : (x :: l ++ r).length + n = (l.length + (r.length + n)) + 1 := by simp; omega
    rw [e, Search.run, ← List.append_assoc, vec_next]
    simp only [ih1, ih2]
    simp

/-! ### unique search -/

section unique
variable [DecidableEq I]

theorem USearch.next_some {G : Agenda A I} {succ : I → List I} {s s' : USearch A I} {x : I}
    (h : USearch.next G succ s = (some x, s')) :
    ∃ a', G.pop s.agenda = some (x, a') ∧ x ∉ s.elements ∧
      s' = ⟨G.extend a' ((succ x).filter fun y => y ∉ x :: s.elements), x :: s.elements⟩ := by
  unfold USearch.next at h
  split at h
  · simp at h
  · rename_i y a' hp
    split at h
    · simp at h
    · simp only [Prod.mk.injEq, Option.some.injEq] at h
      obtain ⟨rfl, rfl⟩ := h
      exact ⟨a', hp, by assumption, rfl⟩

theorem USearch.next_none {G : Agenda A I} {succ : I → List I} {s s' : USearch A I}
    (h : USearch.next G succ s = (none, s')) :
    (G.pop s.agenda = none ∧ s' = s) ∨
    ∃ x a', G.pop s.agenda = some (x, a') ∧ x ∈ s.elements ∧ s' = ⟨a', s.elements⟩ := by
  unfold USearch.next at h
  split at h
  · simp only [Prod.mk.injEq, true_and] at h; exact Or.inl ⟨by assumption, h.symm⟩
  · rename_i y a' hp
    split at h
    · simp only [Prod.mk.injEq, true_and] at h
      exact Or.inr ⟨y, a', hp, by assumption, h.symm⟩
    · simp at h

/-- The elements set is what was yielded (in reverse), and nothing is yielded twice. -/
theorem USearch.run_elements {G : Agenda A I} {succ : I → List I} (n : Nat) (s : USearch A I) :
    (USearch.run G succ n s).2.elements = (USearch.run G succ n s).1.reverse ++ s.elements ∧
    (s.elements.Nodup → (USearch.run G succ n s).2.elements.Nodup) := by
  induction n generalizing s with
  | zero => simp [USearch.run]
  | succ n ih =>
    unfold USearch.run
    split
    · simp
    · rename_i x s' hn
      obtain ⟨a', hp, hx, rfl⟩ := USearch.next_some hn
      obtain ⟨h1, h2⟩ := ih ⟨G.extend a' ((succ x).filter fun y => y ∉ x :: s.elements), x :: s.elements⟩
      refine ⟨by simpa using h1, fun hd => h2 ?_⟩
      simp [hx, hd]

theorem USearch.run_reach {G : Agenda A I} {c : A → Multiset I} (h : G.Sound c) (succ : I → List I)
    (P : I → Prop) (n : Nat) (s : USearch A I) (ha : ∀ x ∈ c s.agenda, Reach succ P x) :
    (∀ x ∈ (USearch.run G succ n s).1, Reach succ P x) := by
  induction n generalizing s with
  | zero => simp [USearch.run]
  | succ n ih =>
    unfold USearch.run
    split
    · simp
    · rename_i x s' hn
      obtain ⟨a', hp, hx, rfl⟩ := USearch.next_some hn
      have hc := h.pop_some _ _ _ hp
      have hx : Reach succ P x := ha x (by simp [hc])
      simp only [List.mem_cons, forall_eq_or_imp]
      refine ⟨hx, ih _ ?_⟩
      intro y hy
      have := Multiset.mem_of_le (h.extend _ _) hy
      rw [Multiset.mem_add] at this
      rcases this with h1 | h1
      · exact ha y (by simp [hc, h1])
      · rw [Multiset.mem_coe, List.mem_filter] at h1
        exact Reach.step hx h1.1

/-- Closure invariant: initial items and successors of yielded items are yielded or pending. -/
def UClosed (succ : I → List I) (init : I → Prop) (el : List I) (pend : Multiset I) : Prop :=
  (∀ x, init x → x ∈ el ∨ x ∈ pend) ∧ (∀ x ∈ el, ∀ y ∈ succ x, y ∈ el ∨ y ∈ pend)

theorem USearch.next_closed {G : Agenda A I} {c : A → Multiset I} (h : G.Lossless c)
    (succ : I → List I) (init : I → Prop) (s : USearch A I)
    (hs : UClosed succ init s.elements (c s.agenda)) :
    UClosed succ init (USearch.next G succ s).2.elements (c (USearch.next G succ s).2.agenda) := by
  rcases hn : USearch.next G succ s with ⟨o, s'⟩
  cases o with
  | none =>
    rcases USearch.next_none hn with ⟨_, rfl⟩ | ⟨x, a', hp, hx, rfl⟩
    · exact hs
    · have hc := h.pop_some _ _ _ hp
      have key : ∀ z, z ∈ s.elements ∨ z ∈ c s.agenda → z ∈ s.elements ∨ z ∈ c a' := by
        intro z hz
        rw [hc, Multiset.mem_cons] at hz
        rcases hz with hz | rfl | hz
        · exact Or.inl hz
        · exact Or.inl hx
        · exact Or.inr hz
      exact ⟨fun x hx => key _ (hs.1 x hx), fun x hx y hy => key _ (hs.2 x hx y hy)⟩
  | some x =>
    obtain ⟨a', hp, hx, rfl⟩ := USearch.next_some hn
    have hc := h.pop_some _ _ _ hp
    have hm : ∀ z, z ∈ c (G.extend a' ((succ x).filter fun y => y ∉ x :: s.elements)) ↔
        z ∈ c a' ∨ (z ∈ succ x ∧ z ∉ x :: s.elements) := by
      intro z
      rw [h.extend, Multiset.mem_add, Multiset.mem_coe, List.mem_filter]
      simp
    have key : ∀ z, z ∈ s.elements ∨ z ∈ c s.agenda → z ∈ x :: s.elements ∨ z ∈ c a' := by
      intro z hz
      rw [hc, Multiset.mem_cons] at hz
      rcases hz with hz | rfl | hz
      · exact Or.inl (List.mem_cons_of_mem _ hz)
      · exact Or.inl List.mem_cons_self
      · exact Or.inr hz
    refine ⟨fun z hz => ?_, fun z hz y hy => ?_⟩
    · simp only [hm]
      rcases key z (hs.1 z hz) with h1 | h1
      · exact Or.inl h1
      · exact Or.inr (Or.inl h1)
    · simp only [hm]
      rcases List.mem_cons.1 hz with rfl | hz
      · by_cases hy' : y ∈ z :: s.elements
        · exact Or.inl hy'
        · exact Or.inr (Or.inr ⟨hy, hy'⟩)
      · rcases key y (hs.2 z hz y hy) with h1 | h1
        · exact Or.inl h1
        · exact Or.inr (Or.inl h1)

theorem USearch.run_closed {G : Agenda A I} {c : A → Multiset I} (h : G.Lossless c)
    (succ : I → List I) (init : I → Prop) (n : Nat) (s : USearch A I)
    (hs : UClosed succ init s.elements (c s.agenda)) :
    UClosed succ init (USearch.run G succ n s).2.elements (c (USearch.run G succ n s).2.agenda) := by
  induction n generalizing s with
  | zero => exact hs
  | succ n ih =>
    unfold USearch.run
    split
    · exact hs
    · rename_i x s' hn
      have := USearch.next_closed h succ init s hs
      rw [hn] at this
      exact ih _ this

theorem USearch.runThrough_closed {G : Agenda A I} {c : A → Multiset I} (h : G.Lossless c)
    (succ : I → List I) (init : I → Prop) (n : Nat) (s : USearch A I)
    (hs : UClosed succ init s.elements (c s.agenda)) :
    UClosed succ init (USearch.runThrough G succ n s).2.elements
      (c (USearch.runThrough G succ n s).2.agenda) := by
  induction n generalizing s with
  | zero => exact hs
  | succ n ih =>
    unfold USearch.runThrough
    exact ih _ (USearch.next_closed h succ init s hs)

theorem USearch.runThrough_elements {G : Agenda A I} {succ : I → List I} (n : Nat)
    (s : USearch A I) :
    (USearch.runThrough G succ n s).2.elements =
      (USearch.runThrough G succ n s).1.reverse ++ s.elements ∧
    (s.elements.Nodup → (USearch.runThrough G succ n s).2.elements.Nodup) := by
  induction n generalizing s with
  | zero => simp [USearch.runThrough]
  | succ n ih =>
    unfold USearch.runThrough
    rcases hn : USearch.next G succ s with ⟨o, s'⟩
    obtain ⟨h1, h2⟩ := ih s'
    cases o with
    | none =>
      have he : s'.elements = s.elements := by
        rcases USearch.next_none hn with ⟨_, rfl⟩ | ⟨x, a', hp, hx, rfl⟩ <;> rfl
      simp only [Option.toList_none, List.nil_append]
      exact ⟨by rw [h1, he], fun hd => h2 (he ▸ hd)⟩
    | some x =>
      obtain ⟨a', hp, hx, rfl⟩ := USearch.next_some hn
      refine ⟨by simpa using h1, fun hd => h2 ?_⟩
      simp [hx, hd]

theorem uclosed_complete {succ : I → List I} {init : I → Prop} {el : List I}
    (h : UClosed succ init el 0) : ∀ x, Reach succ init x → x ∈ el := by
  intro x hx
  induction hx with
  | base hi => simpa using h.1 _ hi
  | step _ hy ih => simpa using h.2 _ ih _ hy

/-- In a forest no item is ever pending twice or again after it was yielded. -/
theorem USearch.run_forest {G : Agenda A I} {c : A → Multiset I} (h : G.Lossless c)
    (succ : I → List I) (init : I → Prop)
    (hnd : ∀ x, (succ x).Nodup) (hone : ∀ x y z, z ∈ succ x → z ∈ succ y → x = y)
    (hinit : ∀ z, init z → ∀ x, z ∉ succ x)
    (n : Nat) (s : USearch A I)
    (hs : (s.elements ++ (c s.agenda).toList).Nodup ∧
      (∀ z, z ∈ s.elements ∨ z ∈ c s.agenda → init z ∨ ∃ x ∈ s.elements, z ∈ succ x)) :
    let s' := (USearch.run G succ n s).2
    (s'.elements ++ (c s'.agenda).toList).Nodup := by
  induction n generalizing s with
  | zero => exact hs.1
  | succ n ih =>
    unfold USearch.run
    split
    · exact hs.1
    · rename_i x s' hn
      obtain ⟨a', hp, hx, rfl⟩ := USearch.next_some hn
      have hc := h.pop_some _ _ _ hp
      obtain ⟨h1, h2⟩ := hs
      have hxm : x ∈ c s.agenda := by simp [hc]
      have hnd' : (x ::ₘ c a').Nodup ∧ (s.elements).Nodup ∧ ∀ z ∈ s.elements, z ∉ x ::ₘ c a' := by
        rw [List.nodup_append, hc] at h1
        refine ⟨?_, h1.1, fun z hz hz' => ?_⟩
        · have := h1.2.1
          rwa [← Multiset.coe_nodup, Multiset.coe_toList] at this
        · exact h1.2.2 z hz z (by simpa using hz') rfl
      apply ih
      have hm : ∀ z, z ∈ c (G.extend a' ((succ x).filter fun y => y ∉ x :: s.elements)) ↔
          z ∈ c a' ∨ (z ∈ succ x ∧ z ∉ x :: s.elements) := by
        intro z
        rw [h.extend, Multiset.mem_add, Multiset.mem_coe, List.mem_filter]
        simp
      obtain ⟨q1, q2, q3⟩ := hnd'
      rw [Multiset.nodup_cons] at q1
      -- a pending item of `a'` is not a successor of the newly yielded item
      have hfresh : ∀ z, z ∈ c a' → z ∉ succ x := by
        intro z hz hzx
        have hz' : z ∈ c s.agenda := by simp [hc, hz]
        rcases h2 z (Or.inr hz') with hi | ⟨w, hw, hwz⟩
        · exact hinit z hi x hzx
        · have := hone _ _ _ hzx hwz
          subst this; exact hx hw
      refine ⟨?_, ?_⟩
      · rw [List.nodup_append]
        refine ⟨List.nodup_cons.2 ⟨hx, q2⟩, ?_, ?_⟩
        · rw [← Multiset.coe_nodup, Multiset.coe_toList, h.extend, Multiset.nodup_add]
          refine ⟨q1.2, ?_, ?_⟩
          · rw [Multiset.coe_nodup]; exact (hnd x).filter _
          · rw [Multiset.disjoint_left]
            intro z hz hz'
            rw [Multiset.mem_coe, List.mem_filter] at hz'
            exact hfresh z hz hz'.1
        · rintro z hz w hw rfl
          rw [Multiset.mem_toList, hm] at hw
          rcases hw with hw | ⟨_, hw⟩
          · rcases List.mem_cons.1 hz with rfl | hz
            · exact q1.1 hw
            · exact q3 z hz (by simp [hw])
          · exact hw hz
      · intro z hz
        rw [hm] at hz
        have lift : ∀ z, z ∈ s.elements ∨ z ∈ c s.agenda →
            init z ∨ ∃ x' ∈ x :: s.elements, z ∈ succ x' := by
          intro z hz
          rcases h2 z hz with hi | ⟨w, hw, hwz⟩
          · exact Or.inl hi
          · exact Or.inr ⟨w, List.mem_cons_of_mem _ hw, hwz⟩
        rcases hz with hz | hz | ⟨hz, _⟩
        · rcases List.mem_cons.1 hz with rfl | hz
          · exact lift _ (Or.inr hxm)
          · exact lift _ (Or.inl hz)
        · exact lift _ (Or.inr (by simp [hc, hz]))
        · exact Or.inr ⟨x, List.mem_cons_self, hz⟩

end unique

end Rustomata
