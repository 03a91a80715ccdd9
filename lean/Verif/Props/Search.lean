import Verif.Proofs.Search
import Verif.Proofs.Heaps

/-!
# Properties C01–C07 and C50: graph search and agendas

Only property theorems and the examples that show their hypotheses to be satisfiable.
-/

namespace Rustomata.Props
open Spec

variable {A I W : Type _}

/-- **C01** Whatever agenda is used (also a dropping one), the items returned by the first `n` calls of `next`
are reachable from the items initially on the agenda. -/
theorem C01_search_sound {G : Agenda A I} {content : A → Multiset I} (h : G.Sound content)
    (succ : I → List I) (start : A) (n : Nat) :
    ∀ x ∈ (Search.run G succ n start).1, Reach succ (· ∈ content start) x :=
  (Search.run_reach h succ _ n start fun _ hx => .base hx).1

/-- All agendas of the crate meet the hypothesis of C01, for every contract-abiding heap. -/
theorem C01_agendas {H : Type _} [Preorder W] [DecidableRel (α := W) (· ≤ ·)] [Mul W] {prio : I → W} :
    (vecAgenda I).Sound (fun l => (l : Multiset I)) ∧
    (dequeAgenda I).Sound (fun l => (l : Multiset I)) ∧
    (∀ (G : Agenda H I) (c : H → Multiset I), HeapLaws G c prio →
      G.Sound c ∧ (BeamHeap.agenda G prio).Sound (fun b => c b.heap)) ∧
    (∀ (M : MinMaxHeap H I) (c : H → Multiset I), MinMaxLaws M c prio →
      (LimitedHeap.agenda M).Sound (fun l => c l.heap)) :=
  ⟨vecAgenda_lossless.sound, dequeAgenda_lossless.sound,
   fun _ _ h => ⟨h.lossless.sound, BeamHeap.agenda_sound h⟩, fun _ _ h => LimitedHeap.agenda_sound h⟩

/-- A search with successors `2n, 2n+1` below 8, with a limited heap of capacity 2: it yields items. -/
example :
    (Search.run (LimitedHeap.agenda (listMinMax (id : Nat → Nat)))
      (fun n => [2 * n, 2 * n + 1].filter (· < 8)) 5 ⟨[1], 2⟩).1 = [1, 3, 7, 6] := by decide

/-- **C02** (balance) What was returned and what is pending is exactly what was initially there and the successors
of everything returned, as multisets. -/
theorem C02_search_balance {G : Agenda A I} {content : A → Multiset I} (h : G.Lossless content)
    (succ : I → List I) (start : A) (n : Nat) :
    let r := Search.run G succ n start
    (r.1 : Multiset I) + content r.2 = content start + ((r.1.flatMap succ : List I) : Multiset I) :=
  Search.run_balance h succ n start

/-- **C02** (completeness) If `next` returns `None` after `n` calls, exactly the reachable items were returned. -/
theorem C02_search_exhaustive {G : Agenda A I} {content : A → Multiset I} (h : G.Lossless content)
    (succ : I → List I) (start : A) (n : Nat)
    (hnone : Search.next G succ (Search.run G succ n start).2 = none) (x : I) :
    x ∈ (Search.run G succ n start).1 ↔ Reach succ (· ∈ content start) x := by
  refine ⟨C01_search_sound h.sound succ start n x, ?_⟩
  have h0 := h.pop_none _ (Search.next_eq_none.1 hnone)
  have hb := Search.run_balance h succ n start
  rw [h0, add_zero] at hb
  exact closed_of_balance hb x

/-- The hypotheses of C02 hold for depth-first, breadth-first and weighted search. -/
theorem C02_agendas {H : Type _} [LE W] {prio : I → W} :
    (vecAgenda I).Lossless (fun l => (l : Multiset I)) ∧
    (dequeAgenda I).Lossless (fun l => (l : Multiset I)) ∧
    (∀ (G : Agenda H I) (c : H → Multiset I), HeapLaws G c prio → G.Lossless c) :=
  ⟨vecAgenda_lossless, dequeAgenda_lossless, fun _ _ h => h.lossless⟩

example : Search.next (vecAgenda Nat) (fun n => [2 * n, 2 * n + 1].filter (· < 8))
    (Search.run (vecAgenda Nat) (fun n => [2 * n, 2 * n + 1].filter (· < 8)) 7 [1]).2 = none := by
  decide

/-- **C03** (liveness) Breadth-first search returns every reachable item after finitely many calls, also in an
infinite graph. -/
theorem C03_bfs_complete (initials : List I) (succ : I → List I) (x : I)
    (hx : Reach succ (· ∈ initials) x) : ∃ n, x ∈ Search.bfs initials succ n := by
  have hx' : Reach succ (· ∈ initials.reverse) x := by simpa using hx
  obtain ⟨d, hd⟩ := (reach_iff_reachIn _ _ _).1 hx'
  refine ⟨((List.range (d + 1)).flatMap (bfsLevel succ initials.reverse)).length + 0, ?_⟩
  unfold Search.bfs
  rw [bfs_levels]
  refine List.mem_append_left _ (List.mem_flatMap.2 ⟨d, by simp, ?_⟩)
  exact (mem_bfsLevel _ _ _ _).2 hd

/-- **C03** (order) The returned items can be labelled with path lengths that never decrease, and before an
item labelled `d` every item with a path of length less than `d` was returned. -/
theorem C03_bfs_order (initials : List I) (succ : I → List I) (n : Nat) :
    ∃ ds : List Nat, ds.Pairwise (· ≤ ·) ∧
      List.Forall₂ (fun d x => ReachIn succ (· ∈ initials) d x) ds (Search.bfs initials succ n) ∧
      ∀ k d, ds[k]? = some d → ∀ z d', ReachIn succ (· ∈ initials) d' z → d' < d →
        z ∈ (Search.bfs initials succ n).take k := by
  have hi : (fun x => x ∈ initials) = (fun x => x ∈ initials.reverse) := by funext x; simp
  rw [hi, bfs_eq_take]
  refine ⟨(levelDists succ initials.reverse n).take n, ?_, ?_, ?_⟩
  · exact (levelDists_sorted succ initials.reverse n).1.sublist (List.take_sublist _ _)
  · exact List.forall₂_take n (levelDists_forall₂ succ initials.reverse n)
  · intro k d hk z d' hz hd
    rw [List.getElem?_take] at hk
    split at hk
    · rw [List.take_take, Nat.min_eq_left (by omega)]
      exact levelDists_complete succ initials.reverse n k d hk z d' hz hd
    · simp at hk

/-- An infinite graph (`n ↦ n+1, n+2`): 3 has the distance 2. -/
example : Reach (fun n => [n + 1, n + 2]) (· ∈ [0]) 3 ∧
    Search.bfs [0] (fun n => [n + 1, n + 2]) 7 = [0, 1, 2, 2, 3, 3, 4] :=
  ⟨.step (.step (.base (by simp)) (by simp : 1 ∈ [0 + 1, 0 + 2])) (by simp), by decide⟩

/-- **C04** (order) If successors never have a higher priority, a search with a maximum-first heap returns items in
non-increasing priority. -/
theorem C04_weighted_sorted [Preorder W] {G : Agenda A I} {content : A → Multiset I} {prio : I → W}
    (hG : HeapLaws G content prio) (succ : I → List I)
    (hs : ∀ x, ∀ y ∈ succ x, prio y ≤ prio x) (start : A) (n : Nat) :
    (Search.run G succ n start).1.Pairwise (fun x y => prio y ≤ prio x) :=
  (Search.run_sorted hG.lossless.sound succ prio hs hG.max n start).1

/-- **C04** (nothing better is missing) When `x` is returned, every reachable item with a strictly higher priority has been
returned before, also if infinitely many items are reachable. -/
theorem C04_weighted_best_first [Preorder W] {G : Agenda A I} {content : A → Multiset I} {prio : I → W}
    (hG : HeapLaws G content prio) (succ : I → List I)
    (hs : ∀ x, ∀ y ∈ succ x, prio y ≤ prio x) (start : A) (n : Nat)
    (ys : List I) (x : I) (hrun : (Search.run G succ n start).1 = ys ++ [x])
    (z : I) (hz : Reach succ (· ∈ content start) z) (hlt : prio x < prio z) : z ∈ ys := by
  have hb := Search.run_balance hG.lossless succ n start
  have ho := (Search.run_sorted hG.lossless.sound succ prio hs hG.max n start).2
  rcases reach_yielded_or_pending hb hz with h | h
  · rw [hrun] at h
    rcases List.mem_append.1 h with h | h
    · exact h
    · rw [List.mem_singleton] at h
      subst h
      exact absurd hlt (lt_irrefl _)
  · have := reach_bounded hs (fun y hy => ho x (by simp [hrun]) y hy) h
    exact absurd (lt_of_lt_of_le hlt this) (lt_irrefl _)

/-- The hypotheses of C04 hold for an actual heap and the infinite graph on pairs that lowers the second component. -/
example : HeapLaws (listHeap (Prod.snd : Nat × Int → Int)) (fun l => (l : Multiset (Nat × Int))) Prod.snd ∧
    (∀ x : Nat × Int, ∀ y ∈ [(x.1 + 1, x.2 - 1), (x.1, x.2 - 2)], y.2 ≤ x.2) ∧
    (Search.run (listHeap (Prod.snd : Nat × Int → Int)) (fun x => [(x.1 + 1, x.2 - 1), (x.1, x.2 - 2)]) 4
      [(0, 0)]).1 = [(0, 0), (1, -1), (2, -2)] ++ [(0, -2)] := by
  refine ⟨listHeap_laws _, ?_, by decide⟩
  intro x y hy
  simp only [List.mem_cons, List.not_mem_nil, or_false] at hy
  rcases hy with rfl | rfl <;> simp only <;> omega

/-- **C05** `uniques()` never returns an item twice, and only reachable items, for every agenda. -/
theorem C05_unique_nodup [DecidableEq I] {G : Agenda A I} {content : A → Multiset I} (h : G.Sound content)
    (succ : I → List I) (start : A) (n : Nat) :
    (USearch.run G succ n (USearch.init start)).1.Nodup ∧
    ∀ x ∈ (USearch.run G succ n (USearch.init start)).1, Reach succ (· ∈ content start) x := by
  refine ⟨?_, USearch.run_reach h succ _ n _ fun x hx => .base hx⟩
  have := USearch.run_elements (G := G) (succ := succ) n (USearch.init start)
  have h2 := this.2 (by simp [USearch.init])
  rw [this.1] at h2
  simpa [USearch.init] using h2

/-- **C05**, also for consumers that continue after a `None`. -/
theorem C05_unique_nodup_through [DecidableEq I] {G : Agenda A I}
    (succ : I → List I) (start : A) (n : Nat) :
    (USearch.runThrough G succ n (USearch.init start)).1.Nodup := by
  have := USearch.runThrough_elements (G := G) (succ := succ) n (USearch.init start)
  have h2 := this.2 (by simp [USearch.init])
  rw [this.1] at h2
  simpa [USearch.init] using h2

example : (USearch.run (vecAgenda Nat) (fun n => [(n + 1) % 5]) 9 (USearch.init [0])).1
    = [0, 1, 2, 3, 4] := by decide

/-- The full claim **C06**: if the iterator of `uniques()` returns `None`, everything reachable was returned. -/
def C06_claim : Prop :=
  ∀ (I : Type) (_ : DecidableEq I) (A : Type) (G : Agenda A I) (content : A → Multiset I), G.Lossless content →
    ∀ (succ : I → List I) (start : A) (n : Nat),
      (USearch.next G succ (USearch.run G succ n (USearch.init start)).2).1 = none →
      ∀ x, Reach succ (· ∈ content start) x → x ∈ (USearch.run G succ n (USearch.init start)).1

/-- **C06 is violated**: `0 → 1, 1, 2`; with depth-first search: after `0, 2, 1` fine, but with breadth-first search
the second `1` on the queue ends the iteration before `2` is returned. -/
theorem C06_unique_complete_violated : ¬ C06_claim := by
  intro h
  have := h Nat inferInstance _ (dequeAgenda Nat) _ dequeAgenda_lossless
    (fun n => if n = 0 then [1, 1, 2] else []) [0] 5 (by decide) 2
    (.step (.base (x := 0) (by simp)) (by simp))
  revert this
  decide

/-- **C06, partial 1**: the claim holds if the `None` is due to an empty agenda, i.e. not to a duplicate. -/
theorem C06_unique_complete_partial [DecidableEq I] {G : Agenda A I} {content : A → Multiset I}
    (h : G.Lossless content) (succ : I → List I) (start : A) (n : Nat)
    (hempty : G.pop (USearch.run G succ n (USearch.init start)).2.agenda = none) (x : I) :
    x ∈ (USearch.run G succ n (USearch.init start)).1 ↔ Reach succ (· ∈ content start) x := by
  refine ⟨(C05_unique_nodup h.sound succ start n).2 x, fun hx => ?_⟩
  have hc := USearch.run_closed h succ (· ∈ content start) n (USearch.init start)
    ⟨fun x hx => Or.inr hx, by simp [USearch.init]⟩
  rw [h.pop_none _ hempty] at hc
  have := uclosed_complete hc x hx
  rw [(USearch.run_elements n _).1] at this
  simpa [USearch.init] using this

/-- **C06, partial 2**: the claim holds in forests (each item is a successor of at most one item, once;
initial items are no successors), whatever the agenda. -/
theorem C06_unique_complete_forest_partial [DecidableEq I] {G : Agenda A I} {content : A → Multiset I}
    (h : G.Lossless content) (succ : I → List I)
    (hnd : ∀ x, (succ x).Nodup) (hone : ∀ x y z, z ∈ succ x → z ∈ succ y → x = y)
    (start : A) (hstart : (content start).Nodup) (hinit : ∀ z ∈ content start, ∀ x, z ∉ succ x) (n : Nat)
    (hnone : (USearch.next G succ (USearch.run G succ n (USearch.init start)).2).1 = none) (x : I) :
    x ∈ (USearch.run G succ n (USearch.init start)).1 ↔ Reach succ (· ∈ content start) x := by
  refine C06_unique_complete_partial h succ start n ?_ x
  have hf := USearch.run_forest h succ (· ∈ content start) hnd hone hinit n (USearch.init start)
    ⟨by
      simp only [USearch.init, List.nil_append]
      rw [← Multiset.coe_nodup, Multiset.coe_toList]; exact hstart,
     fun z hz => Or.inl (by simpa [USearch.init] using hz)⟩
  rcases hn : USearch.next G succ (USearch.run G succ n (USearch.init start)).2 with ⟨o, s'⟩
  rw [hn] at hnone
  simp only at hnone
  subst hnone
  rcases USearch.next_none hn with ⟨hp, _⟩ | ⟨y, a', hp, hy, _⟩
  · exact hp
  · exfalso
    have hc := h.pop_some _ _ _ hp
    rw [List.nodup_append] at hf
    exact hf.2.2 y hy y (by simp [hc]) rfl

/-- **C06, partial 3**: a consumer that keeps calling `next` after `None` until the agenda is empty gets everything. -/
theorem C06_unique_complete_through_partial [DecidableEq I] {G : Agenda A I} {content : A → Multiset I}
    (h : G.Lossless content) (succ : I → List I) (start : A) (n : Nat)
    (hempty : G.pop (USearch.runThrough G succ n (USearch.init start)).2.agenda = none) (x : I)
    (hx : Reach succ (· ∈ content start) x) :
    x ∈ (USearch.runThrough G succ n (USearch.init start)).1 := by
  have hc := USearch.runThrough_closed h succ (· ∈ content start) n (USearch.init start)
    ⟨fun x hx => Or.inr hx, by simp [USearch.init]⟩
  rw [h.pop_none _ hempty] at hc
  have := uclosed_complete hc x hx
  rw [(USearch.runThrough_elements n _).1] at this
  simpa [USearch.init] using this

/-- The hypotheses of the three partial versions are met. -/
example : (dequeAgenda Nat).pop
    (USearch.run (dequeAgenda Nat) (fun n => [(n + 1) % 5]) 9 (USearch.init [0])).2.agenda = none := by
  decide
example : (USearch.next (dequeAgenda Nat) (fun n => if n = 0 then [1, 2] else [])
    (USearch.run (dequeAgenda Nat) (fun n => if n = 0 then [1, 2] else []) 3 (USearch.init [0])).2).1 = none ∧
    ∀ x y z, z ∈ (if x = 0 then [1, 2] else []) → z ∈ (if y = 0 then [1, 2] else []) → x = y :=
  ⟨by decide, by intro x y z; split <;> split <;> simp_all⟩
example : (dequeAgenda Nat).pop (USearch.runThrough (dequeAgenda Nat)
    (fun n => if n = 0 then [1, 1, 2] else []) 9 (USearch.init [0])).2.agenda = none := by decide

/-! ### C07 -/

/-- Operations on an agenda. -/
inductive Op (I : Type _)
  | push (x : I)
  | pop

/-- Executes operations on an agenda and collects the results of the pops. -/
def exec {A I : Type _} (G : Agenda A I) : List (Op I) → A → List (Option I) × A
  | [], a => ([], a)
  | .push x :: ops, a => exec G ops (G.push a x)
  | .pop :: ops, a =>
    match G.pop a with
    | none => let r := exec G ops a; (none :: r.1, r.2)
    | some (x, a') => let r := exec G ops a'; (some x :: r.1, r.2)

/-- Specification: a stack, top first. -/
def stackSpec {I : Type _} : List (Op I) → List I → List (Option I) × List I
  | [], a => ([], a)
  | .push x :: ops, a => stackSpec ops (x :: a)
  | .pop :: ops, [] => let r := stackSpec ops []; (none :: r.1, r.2)
  | .pop :: ops, x :: a => let r := stackSpec ops a; (some x :: r.1, r.2)

/-- Specification: a queue, oldest first. -/
def queueSpec {I : Type _} : List (Op I) → List I → List (Option I) × List I
  | [], a => ([], a)
  | .push x :: ops, a => queueSpec ops (a ++ [x])
  | .pop :: ops, [] => let r := queueSpec ops []; (none :: r.1, r.2)
  | .pop :: ops, x :: a => let r := queueSpec ops a; (some x :: r.1, r.2)

/-- **C07** The `Vec` agenda is a stack whose top is the end of the vector. -/
theorem C07_vec_is_stack (ops : List (Op I)) (a : List I) :
    (exec (vecAgenda I) ops a).1 = (stackSpec ops a.reverse).1 ∧
    (exec (vecAgenda I) ops a).2.reverse = (stackSpec ops a.reverse).2 := by
  induction ops generalizing a with
  | nil => simp [exec, stackSpec]
  | cons op ops ih =>
    cases op with
    | push x => simpa [exec, stackSpec, vecAgenda] using ih (a ++ [x])
    | pop =>
      rcases List.eq_nil_or_concat a with rfl | ⟨b, x, rfl⟩
      · simpa [exec, stackSpec, vecAgenda] using ih []
      · simpa [exec, stackSpec, vecAgenda] using ih b

/-- **C07** The `VecDeque` agenda is a queue whose oldest item is the back of the deque. -/
theorem C07_deque_is_queue (ops : List (Op I)) (a : List I) :
    (exec (dequeAgenda I) ops a).1 = (queueSpec ops a.reverse).1 ∧
    (exec (dequeAgenda I) ops a).2.reverse = (queueSpec ops a.reverse).2 := by
  induction ops generalizing a with
  | nil => simp [exec, queueSpec]
  | cons op ops ih =>
    cases op with
    | push x => simpa [exec, queueSpec, dequeAgenda] using ih (x :: a)
    | pop =>
      rcases List.eq_nil_or_concat a with rfl | ⟨b, x, rfl⟩
      · simpa [exec, queueSpec, dequeAgenda] using ih []
      · simpa [exec, queueSpec, dequeAgenda] using ih b

example : (exec (dequeAgenda Nat) [.push 1, .push 2, .pop, .pop, .pop] []).1 = [some 1, some 2, none] ∧
    (exec (vecAgenda Nat) [.push 1, .push 2, .pop, .pop, .pop] []).1 = [some 2, some 1, none] := by
  decide

/-- **C50** If the unfolding from the initial items is finite with pre-order listing `l` (last items first),
then depth-first search returns exactly `l` and then `None`. -/
theorem C50_dfs_preorder (initials : List I) (succ : I → List I) (l : List I) (h : Pre succ initials l)
    (n : Nat) : Search.dfs initials succ n = l.take n ∧
      Search.next (vecAgenda I) succ (Search.run (vecAgenda I) succ l.length initials).2 = none := by
  have hrun := fun m => dfs_pre succ h [] m
  simp only [List.nil_append] at hrun
  have hnil : ∀ m, Search.run (vecAgenda I) succ m [] = ([], []) := by
    intro m; cases m <;> simp [Search.run, Search.next, vecAgenda]
  constructor
  · unfold Search.dfs
    rw [Search.run_take (Nat.le_add_left n l.length), hrun, hnil, List.append_nil]
  · have := hrun 0
    rw [Nat.add_zero, hnil] at this
    rw [this]; rfl

example : Pre (fun n => if n = 0 then [1, 2] else []) [0] [0, 2, 1] :=
  .cons (xs := []) (r := []) (l := [2, 1])
    (.cons (xs := [1]) (l := []) (r := [1]) .nil (.cons (xs := []) (l := []) (r := []) .nil .nil)) .nil

end Rustomata.Props
