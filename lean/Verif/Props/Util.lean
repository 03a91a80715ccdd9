import Verif.Proofs.Util
import Verif.Props.Search
import Mathlib.Algebra.Group.Basic
import Mathlib.Algebra.BigOperators.Group.List.Basic
import Mathlib.Algebra.Order.Monoid.Defs

/-!
# Properties C11–C14: utility data structures
-/

namespace Rustomata.Props
open Spec

variable {T A B W : Type _}

/-! ### C11 -/

/-- **C11** After any sequence of operations on a new `VecMultiMap`, all lists returned by `get` along the way
are those of the abstract map `Nat → List`, and `get_or_fail` finds the abstract list, failing only for an empty one. -/
theorem C11_multimap_refines (os : List (VOp T)) :
    let r := runOps VecMultiMap.step VecMultiMap.new os
    let s := runOps VOp.step (fun _ => []) os
    r.2 = s.2 ∧
    ∀ i, VecMultiMap.getOrFail r.1 i = some (s.1 i) ∨ (VecMultiMap.getOrFail r.1 i = none ∧ s.1 i = []) := by
  have h := VecMultiMap.runOps_refines (VecMultiMap.new : VecMultiMap T) os
  rw [VecMultiMap.abs_new] at h
  refine ⟨h.2, fun i => ?_⟩
  rw [← h.1]
  unfold VecMultiMap.getOrFail VecMultiMap.abs
  cases (runOps VecMultiMap.step VecMultiMap.new os).1[i]? <;> simp

/-- **C11** Conversion into a vector keeps every list, drops only trailing empty lists, and does not end in an
empty list. -/
theorem C11_into_vec (os : List (VOp T)) :
    let v := VecMultiMap.intoVec (runOps VecMultiMap.step VecMultiMap.new os).1
    let s := (runOps VOp.step (fun _ => []) os).1
    (∀ i, v[i]? = some (s i) ∨ (v[i]? = none ∧ s i = [])) ∧ v.getLast? ≠ some [] := by
  have h := (VecMultiMap.runOps_refines (VecMultiMap.new : VecMultiMap T) os).1
  rw [VecMultiMap.abs_new] at h
  simp only
  rw [← h]
  generalize (runOps VecMultiMap.step VecMultiMap.new os).1 = m
  have hf := VecMultiMap.find_last_spec m
  unfold VecMultiMap.intoVec VecMultiMap.intoVecWithSize
  generalize m.zipIdx.reverse.find? (fun p => p.1.length > 0) = o at hf
  obtain _ | ⟨l, k⟩ := o
  swap
  · simp only at hf ⊢
    constructor
    · intro i
      rw [VecMultiMap.resize_get]
      by_cases hi : i < k + 1
      · simp [hi]
      · right; simp only [hi, if_false, true_and]; exact hf.2.2 i (by omega)
    · rw [List.getLast?_eq_getElem?, VecMultiMap.resize_length, VecMultiMap.resize_get]
      simp [VecMultiMap.abs, hf.1, hf.2.1]
  · simp only at hf ⊢
    constructor
    · intro i; right; exact ⟨by simp, hf i⟩
    · simp

/-- **C11** `into_vec_with_size(n)` has length `n` and contains the abstract lists below `n`. -/
theorem C11_into_vec_with_size (os : List (VOp T)) (n : Nat) :
    let v := VecMultiMap.intoVecWithSize (runOps VecMultiMap.step VecMultiMap.new os).1 n
    let s := (runOps VOp.step (fun _ => []) os).1
    v.length = n ∧ ∀ i < n, v[i]? = some (s i) := by
  have h := (VecMultiMap.runOps_refines (VecMultiMap.new : VecMultiMap T) os).1
  rw [VecMultiMap.abs_new] at h
  refine ⟨VecMultiMap.resize_length _ _, fun i hi => ?_⟩
  simp only [VecMultiMap.intoVecWithSize, VecMultiMap.resize_get, hi, if_true]
  rw [← h]

example : VecMultiMap.intoVec (runOps VecMultiMap.step (VecMultiMap.new : VecMultiMap Nat)
    [.push 2 7, .get 5, .push 0 1, .push 2 8]).1 = [[1], [], [7, 8]] := by decide

/-! ### C12 -/

section
variable [LinearOrder T]

/-- **C12** `Partition::new` succeeds exactly for pairwise disjoint cells. -/
theorem C12_new_iff_disjoint (cells : List (List T)) (hs : ∀ c ∈ cells, c.Pairwise (· < ·)) :
    (Partition.new cells).isSome ↔ cells.Pairwise List.Disjoint := by
  have := Partition.new_spec cells (fun c hc => (hs c hc).imp (fun h => ne_of_lt h))
  split at this
  · rename_i h; rw [h]; simpa using this
  · rename_i h; rw [h]; simpa using this.1

/-- **C12** `get_cell(x)` is the given cell that contains `x`, and `alphabet` lists the union, ascending and
without repetitions. -/
theorem C12_lookup (cells : List (List T)) (hs : ∀ c ∈ cells, c.Pairwise (· < ·))
    (p : Partition T) (hp : Partition.new cells = some p) :
    (∀ x c, p.getCell x = some c ↔ c ∈ cells ∧ x ∈ c) ∧
    (∀ x, p.getCell x = none ↔ ∀ c ∈ cells, x ∉ c) ∧
    p.alphabet.Pairwise (· < ·) ∧ ∀ x, x ∈ p.alphabet ↔ ∃ c ∈ cells, x ∈ c := by
  have := Partition.new_spec cells (fun c hc => (hs c hc).imp (fun h => ne_of_lt h))
  rw [hp] at this
  obtain ⟨_, hg⟩ := this
  refine ⟨hg.get, fun x => ?_, hg.sorted, fun x => ?_⟩
  · rw [Option.eq_none_iff_forall_ne_some]
    constructor
    · intro h c hc hx; exact h c ((hg.get x c).2 ⟨hc, hx⟩)
    · intro h c hc; exact h c ((hg.get x c).1 hc).1 ((hg.get x c).1 hc).2
  · rw [Partition.alphabet, BMap.mem_keys]
    constructor
    · rintro ⟨c, hc⟩; exact ⟨c, (hg.get x c).1 ((BMap.get_eq_some hg.sorted).2 hc)⟩
    · rintro ⟨c, hc⟩; exact ⟨c, (BMap.get_eq_some hg.sorted).1 ((hg.get x c).2 hc)⟩

/-- **C12** `collapse` lists exactly the given non-empty cells, each once. -/
theorem C12_collapse (cells : List (List T)) (hs : ∀ c ∈ cells, c.Pairwise (· < ·))
    (p : Partition T) (hp : Partition.new cells = some p) :
    p.collapse.Perm (cells.filter (· ≠ [])) := by
  have := Partition.new_spec cells (fun c hc => (hs c hc).imp (fun h => ne_of_lt h))
  rw [hp] at this
  obtain ⟨hdis, hg⟩ := this
  have hmem : ∀ x c, (x, c) ∈ p ↔ c ∈ cells ∧ x ∈ c := fun x c => by
    rw [← BMap.get_eq_some hg.sorted]; exact hg.get x c
  have hc := Partition.collapseLoop_spec cells hdis p [] (fun x c h => (hmem x c).1 h) (by simp)
  show (Partition.collapseLoop p []).Perm _
  rw [List.perm_ext_iff_of_nodup hc.1]
  · intro c
    rw [hc.2 c]
    simp only [hmem, List.mem_filter, List.not_mem_nil, not_false_eq_true, and_true, exists_and_left,
      decide_eq_true_eq]
    exact and_congr_right fun _ =>
      ⟨fun ⟨x, hx⟩ => List.ne_nil_of_mem hx, List.exists_mem_of_ne_nil c⟩
  · refine List.Pairwise.imp_of_mem ?_ (hdis.filter _)
    intro a b ha hb hab heq
    subst heq
    obtain ⟨x, hx⟩ := List.exists_mem_of_ne_nil a (by simpa using (List.mem_filter.1 ha).2)
    exact hab hx hx

end

example : (Partition.new [[1, 5], [], [2, 3]]).map (fun p => (p.collapse, p.alphabet, p.getCell 5)) =
    some ([[1, 5], [2, 3]], [1, 2, 3, 5], some [1, 5]) ∧
    (∀ c ∈ [[1, 5], [], [2, 3]], c.Pairwise (· < ·)) := by decide

/-! ### C13 -/

/-- **C13** After any sequence of operations, a `Pushdown` contains (bottom first) the symbols of the abstract stack, and all
results and failures along the way are those of the abstract stack. -/
theorem C13_pushdown_refines (l : List A) (os : List (StackOp A)) :
    let r := runOps Pushdown.step (Pushdown.ofSlice l) os
    let s := runOps StackOp.step l os
    r.2 = s.2 ∧ r.1.toVec = s.1 := by
  have h := Pushdown.runOps_refines (Pushdown.ofSlice l) os
  have hl : (Pushdown.ofSlice l).toVec = l := by
    unfold Pushdown.ofSlice; rw [Pushdown.toVec_foldl]; simp
  rw [hl] at h
  exact ⟨h.2, h.1⟩

/-- **C13** Slice and vector conversions are mutually inverse. -/
theorem C13_pushdown_slice (l : List A) (p : Pushdown A) :
    (Pushdown.ofSlice l).toVec = l ∧ Pushdown.ofSlice p.toVec = p := by
  have hl : ∀ l : List A, (Pushdown.ofSlice l).toVec = l := by
    intro l; unfold Pushdown.ofSlice; rw [Pushdown.toVec_foldl]; simp
  exact ⟨hl l, Pushdown.toVec_injective (hl _)⟩

/-- **C13** `map` changes every symbol in place; with a stateful function the symbols are visited from top to bottom. -/
theorem C13_pushdown_map {S : Type _} (f : A → B) (g : S → A → S × B) (s : S) (p : Pushdown A) :
    (p.map f).toVec = p.toVec.map f ∧
    ((Pushdown.mapS g s p).1, (Pushdown.mapS g s p).2.toVec.reverse) = runOps g s p.toVec.reverse := by
  refine ⟨Pushdown.toVec_map f p, ?_⟩
  induction p generalizing s with
  | empty => rfl
  | cons a b ih =>
    simp only [Pushdown.mapS, Pushdown.toVec_cons, List.reverse_append, List.reverse_cons, List.reverse_nil,
      List.nil_append, List.singleton_append, runOps]
    rw [← ih]

example : (runOps Pushdown.step (Pushdown.ofSlice [1, 2]) [.push 3, .set 4, .pop, .pop, .map (· + 1)]).1.toVec = [2] := by
  decide

/-! ### C14 -/

section
variable [LinearOrder W]

/-- The order of `Reverse<W>` as implemented by `cmp`. -/
instance : LE (Reverse W) := ⟨fun a b => Reverse.cmp compare a b ≠ .gt⟩
instance : LT (Reverse W) := ⟨fun a b => Reverse.cmp compare a b = .lt⟩
instance : DecidableRel (α := Reverse W) (· ≤ ·) := fun _ _ => inferInstanceAs (Decidable (_ ≠ _))
instance : DecidableRel (α := Reverse W) (· < ·) := fun _ _ => inferInstanceAs (Decidable (_ = _))

/-- **C14** Comparison of reversed weights is the flipped comparison, and all three outcomes occur accordingly. -/
theorem C14_reverse_order (a b : W) :
    (Reverse.mk a ≤ Reverse.mk b ↔ b ≤ a) ∧ (Reverse.mk a < Reverse.mk b ↔ b < a) ∧
    (Reverse.cmp compare (Reverse.mk a) (Reverse.mk b) = .eq ↔ a = b) ∧
    Reverse.cmp compare (Reverse.mk a) (Reverse.mk b) = (compare a b).swap := by
  refine ⟨?_, ?_, ?_, ?_⟩
  · show compare b a ≠ .gt ↔ _
    rw [Ne, compare_gt_iff_gt, not_lt]
  · show compare b a = .lt ↔ _
    rw [compare_lt_iff_lt]
  · show compare b a = .eq ↔ _
    rw [compare_eq_iff_eq, eq_comm]
  · show compare b a = _
    rcases lt_trichotomy a b with h | h | h
    · rw [compare_lt_iff_lt.2 h, compare_gt_iff_gt.2 h]; rfl
    · rw [h, compare_eq_iff_eq.2 rfl]; rfl
    · rw [compare_lt_iff_lt.2 h, compare_gt_iff_gt.2 h]; rfl

/-- **C14** It is a total order again. -/
theorem C14_reverse_total :
    (∀ a : Reverse W, a ≤ a) ∧ (∀ a b c : Reverse W, a ≤ b → b ≤ c → a ≤ c) ∧
    (∀ a b : Reverse W, a ≤ b → b ≤ a → a = b) ∧ (∀ a b : Reverse W, a ≤ b ∨ b ≤ a) ∧
    (∀ a b : Reverse W, a < b ↔ a ≤ b ∧ ¬ b ≤ a) := by
  have h := fun a b : Reverse W => (C14_reverse_order a.inner b.inner).1
  have h' := fun a b : Reverse W => (C14_reverse_order a.inner b.inner).2.1
  refine ⟨fun a => (h a a).2 (le_refl _), fun a b c hab hbc => ?_, fun a b hab hba => ?_, fun a b => ?_, fun a b => ?_⟩
  · exact (h a c).2 (le_trans ((h b c).1 hbc) ((h a b).1 hab))
  · have := le_antisymm ((h b a).1 hba) ((h a b).1 hab)
    cases a; cases b; simp_all
  · rcases le_total a.inner b.inner with hab | hab
    · exact Or.inr ((h b a).2 hab)
    · exact Or.inl ((h a b).2 hab)
  · constructor
    · intro hab
      exact ⟨(h a b).2 (le_of_lt ((h' a b).1 hab)), fun hba => not_le.2 ((h' a b).1 hab) ((h b a).1 hba)⟩
    · intro hab
      exact (h' a b).2 (lt_of_le_not_ge ((h a b).1 hab.1) (fun hba => hab.2 ((h b a).2 hba)))

/-- The preorder instance that C04 needs. -/
instance : Preorder (Reverse W) where
  le_refl := C14_reverse_total.1
  le_trans := C14_reverse_total.2.1
  lt_iff_le_not_ge := C14_reverse_total.2.2.2.2

/-- **C14** A search that is maximum-first for the reversed priority is minimum-first for the priority itself:
if successors never have a lower priority, items come in non-decreasing priority, and nothing reachable that is cheaper is missing. -/
theorem C14_reverse_search {H I : Type _} {G : Agenda H I} {content : H → Multiset I} {prio : I → W}
    (hG : HeapLaws G content (fun x => Reverse.mk (prio x))) (succ : I → List I)
    (hs : ∀ x, ∀ y ∈ succ x, prio x ≤ prio y) (start : H) (n : Nat) :
    (Search.run G succ n start).1.Pairwise (fun x y => prio x ≤ prio y) ∧
    ∀ ys x, (Search.run G succ n start).1 = ys ++ [x] →
      ∀ z, Reach succ (· ∈ content start) z → prio z < prio x → z ∈ ys := by
  have hs' : ∀ x, ∀ y ∈ succ x, Reverse.mk (prio y) ≤ Reverse.mk (prio x) :=
    fun x y hy => (C14_reverse_order _ _).1.2 (hs x y hy)
  refine ⟨?_, ?_⟩
  · exact (C04_weighted_sorted hG succ hs' start n).imp (fun h => (C14_reverse_order _ _).1.1 h)
  · intro ys x hrun z hz hlt
    exact C04_weighted_best_first hG succ hs' start n ys x hrun z hz ((C14_reverse_order _ _).2.1.2 hlt)

end

instance [Mul W] : Mul (Reverse W) := ⟨Reverse.mul⟩
instance [One W] : One (Reverse W) := ⟨Reverse.one⟩

/-- **C14** The arithmetic acts on the wrapped weight, so all equations between weights carry over; in particular a factorisation of the
weight is a factorisation of the reversed weight. -/
theorem C14_reverse_arithmetic [CommMonoid W] [Add W] [Zero W] (a b : W) (f : W → Nat → List W) (n : Nat) :
    Reverse.mul ⟨a⟩ ⟨b⟩ = ⟨a * b⟩ ∧ Reverse.add ⟨a⟩ ⟨b⟩ = ⟨a + b⟩ ∧
    Reverse.mul Reverse.one (⟨a⟩ : Reverse W) = ⟨a⟩ ∧ (Reverse.zero : Reverse W) = ⟨0⟩ ∧
    ((f a n).prod = a → (Reverse.factorize f ⟨a⟩ n).prod = ⟨a⟩) := by
  refine ⟨rfl, rfl, ?_, rfl, ?_⟩
  · show Reverse.mk (1 * a) = _; rw [one_mul]
  · intro h
    have : ∀ l : List W, (l.map Reverse.mk).prod = ⟨l.prod⟩ := by
      intro l
      induction l with
      | nil => rfl
      | cons x l ih => rw [List.map_cons, List.prod_cons, ih, List.prod_cons]; rfl
    rw [Reverse.factorize, this, h]

/-- **C14** Multiplication by a weight that lowers weights raises reversed weights, and vice versa. -/
theorem C14_reverse_mono [CommMonoid W] [LinearOrder W] (a b : W) :
    Reverse.mul ⟨a⟩ ⟨b⟩ ≤ Reverse.mk a ↔ a ≤ a * b :=
  (C14_reverse_order _ _).1

example : Reverse.mk 3 < Reverse.mk 2 ∧
    (Search.run (listHeap (fun x : Nat => Reverse.mk x)) (fun x => [x + 2, x + 3]) 5 [0, 1]).1 = [0, 1, 2, 3, 3] := by
  decide

end Rustomata.Props
