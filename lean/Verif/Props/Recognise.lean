import Verif.Proofs.Recognise
import Verif.Props.Search

/-!
# Properties C16–C20: recognition with automata with storage, for every storage type

The theorems are about the internal (integer) representation and any automaton; `Verif.Props.Pda`, `Verif.Props.Fsa`
and `Verif.Props.Tsa` lift them to the outer representation of the concrete automata.
-/

namespace Rustomata.Props
open Spec

variable {A H K S I T W : Type _} [DecidableEq K] [DecidableEq T]

/-- **C16** Every item that `recognise` returns within `n` steps is terminal and carries a run of the automaton on the whole given
word: the transitions are the automaton's, they lead from the initial storage to the reported storage, they read the word up to the reported rest,
and the reported weight is the product of their weights, in the order of the run (the multiplication need not be associative). This holds for dropping agendas (beam search) as well. -/
theorem C16_recognise_sound [Mul W] [One W] {G : Agenda A (Item S I T W)} {content : A → Multiset (Item S I T W)}
    (hG : G.Sound content) (empty : A) (hempty : content empty = 0) (M : Automaton K S I T W) (word : Option (List T)) (n : Nat)
    (out : List (Item S I T W)) (a : A) (hrun : M.recognise G empty word n = some (out, a)) (i : Item S I T W) (hi : i ∈ out) :
    M.isTerminal i.conf = true ∧ ∃ w, word = some w ∧
      IsRun M.apply M.transitions M.initial w i.run.toVec i.conf ∧
      w = wordOf i.run.toVec ++ i.conf.word ∧ i.conf.weight = weightOf i.run.toVec := by
  unfold Automaton.recognise at hrun
  obtain ⟨⟨Y, b⟩, hr, he⟩ := Option.map_eq_some_iff.1 hrun
  simp only [Prod.mk.injEq] at he
  obtain ⟨rfl, rfl⟩ := he
  obtain ⟨hm, ht⟩ := List.mem_filter.1 hi
  refine ⟨ht, ?_⟩
  have hstart : ∀ x ∈ content (G.extend empty (M.initItem word)),
      Reach (noPanic M.successors) (· ∈ M.initItem word) x := by
    intro x hx
    have := Multiset.mem_of_le (hG.extend _ _) hx
    rw [hempty, zero_add] at this
    exact .base (by simpa using this)
  have h1 := (Search.run_reach hG (noPanic M.successors) _ n _ hstart).1 i
    (by rw [(Search.runP_run hr).1]; exact hm)
  obtain ⟨w, hw, hrun⟩ := Automaton.reach_isRun h1
  have h2 := (exec_iff_from _ _ _ _).1 hrun.1
  exact ⟨w, hw, hrun, h2.1, h2.2.2⟩

section complete
variable [DecidableEq S] [DecidableEq I] [DecidableEq W]

/-- **C17** When `recognise` has ended, an item is in the output exactly as often as there are ways to execute its run:
the number of ways to choose the run's transitions from the automaton's list times the number of ways its instructions lead to the
reported storage, if word, weight and terminality fit, and not at all otherwise. -/
theorem C17_recognise_complete [Mul W] [One W] {G : Agenda A (Item S I T W)} {content : A → Multiset (Item S I T W)}
    (hG : G.Lossless content) (empty : A) (hempty : content empty = 0) (M : Automaton K S I T W) (hM : M.Coherent)
    (w : List T) (n : Nat) (out : List (Item S I T W)) (a : A)
    (hrun : M.recognise G empty (some w) n = some (out, a)) (hend : G.pop a = none) (i : Item S I T W) :
    out.count i =
      if M.isTerminal i.conf = true ∧ w = wordOf i.run.toVec ++ i.conf.word ∧ i.conf.weight = weightOf i.run.toVec then
        (i.run.toVec.map fun t => M.transitions.count t).prod *
          (storages M.apply (i.run.toVec.map Transition.instruction) M.initial).count i.conf.storage
      else 0 := by
  unfold Automaton.recognise at hrun
  obtain ⟨⟨Y, b⟩, hr, he⟩ := Option.map_eq_some_iff.1 hrun
  simp only [Prod.mk.injEq] at he
  obtain ⟨rfl, rfl⟩ := he
  obtain ⟨hr1, hr2⟩ := Search.runP_run hr
  have hb := Search.run_balance hG (noPanic M.successors) n (G.extend empty (M.initItem (some w)))
  rw [hr1, hG.extend, hempty, zero_add, hG.pop_none _ hend, add_zero] at hb
  have hY : ∀ i ∈ Y, ∃ k, M.key i.conf = some k := by
    intro j hj
    obtain ⟨ys, hys⟩ := hr2 j hj
    unfold Automaton.successors at hys
    cases hk : M.key j.conf with
    | none => simp [hk] at hys
    | some k => exact ⟨k, rfl⟩
  by_cases ht : M.isTerminal i.conf = true
  · rw [List.count_filter (by exact ht), ← Multiset.coe_count,
      Automaton.count_filter_of (fun j => j.run = i.run) _ i rfl,
      Automaton.filter_run_eq M hM w Y hY hb, Automaton.count_itemsOf]
    simp [ht, Automaton.mult]
  · rw [if_neg (fun h => ht h.1), List.count_eq_zero]
    intro hm
    exact ht (List.mem_filter.1 hm).2

/-- **C17** At no time has an item been returned more often than that. -/
theorem C17_recognise_at_most [Mul W] [One W] {G : Agenda A (Item S I T W)} {content : A → Multiset (Item S I T W)}
    (hG : G.Lossless content) (empty : A) (hempty : content empty = 0) (M : Automaton K S I T W) (hM : M.Coherent)
    (w : List T) (n : Nat) (out : List (Item S I T W)) (a : A)
    (hrun : M.recognise G empty (some w) n = some (out, a)) (i : Item S I T W) :
    out.count i ≤ (i.run.toVec.map fun t => M.transitions.count t).prod *
          (storages M.apply (i.run.toVec.map Transition.instruction) M.initial).count i.conf.storage := by
  unfold Automaton.recognise at hrun
  obtain ⟨⟨Y, b⟩, hr, he⟩ := Option.map_eq_some_iff.1 hrun
  simp only [Prod.mk.injEq] at he
  obtain ⟨rfl, rfl⟩ := he
  obtain ⟨hr1, hr2⟩ := Search.runP_run hr
  have hb := Search.run_balance hG (noPanic M.successors) n (G.extend empty (M.initItem (some w)))
  rw [hr1, hG.extend, hempty, zero_add] at hb
  have hY : ∀ i ∈ Y, ∃ k, M.key i.conf = some k := by
    intro j hj
    obtain ⟨ys, hys⟩ := hr2 j hj
    unfold Automaton.successors at hys
    cases hk : M.key j.conf with
    | none => simp [hk] at hys
    | some k => exact ⟨k, rfl⟩
  have h1 : (Y.filter fun i => M.isTerminal i.conf).count i ≤ Y.count i := List.filter_sublist.count_le i
  have h2 : Y.count i ≤ ((Y : Multiset (Item S I T W)) + content b).count i := by
    rw [Multiset.count_add, Multiset.coe_count]; omega
  rw [Automaton.count_filter_of (fun j => j.run = i.run) _ i rfl] at h2
  have h3 := Multiset.count_le_of_le i (Automaton.filter_run_le M hM w Y (content b) hY hb i.run)
  rw [Automaton.count_itemsOf] at h3
  refine le_trans h1 (le_trans h2 (le_trans h3 ?_))
  split
  · exact le_refl _
  · exact Nat.zero_le _

end complete

/-- **C17** In particular, when `recognise` has ended, exactly the accepting runs have been returned. -/
theorem C17_recognise_exact [Mul W] [One W] {G : Agenda A (Item S I T W)} {content : A → Multiset (Item S I T W)}
    (hG : G.Lossless content) (empty : A) (hempty : content empty = 0) (M : Automaton K S I T W) (hM : M.Coherent)
    (w : List T) (n : Nat) (out : List (Item S I T W)) (a : A)
    (hrun : M.recognise G empty (some w) n = some (out, a)) (hend : G.pop a = none) (i : Item S I T W) :
    i ∈ out ↔ IsRun M.apply M.transitions M.initial w i.run.toVec i.conf ∧ M.isTerminal i.conf = true := by
  constructor
  · intro hi
    obtain ⟨ht, w', hw, hr, _⟩ := C16_recognise_sound hG.sound empty hempty M _ n out a hrun i hi
    cases hw
    exact ⟨hr, ht⟩
  · rintro ⟨hi, ht⟩
    unfold Automaton.recognise at hrun
    obtain ⟨⟨Y, b⟩, hr, he⟩ := Option.map_eq_some_iff.1 hrun
    simp only [Prod.mk.injEq] at he
    obtain ⟨rfl, rfl⟩ := he
    refine List.mem_filter.2 ⟨?_, ht⟩
    obtain ⟨hr1, hr2⟩ := Search.runP_run hr
    have hb := Search.run_balance hG (noPanic M.successors) n (G.extend empty (M.initItem (some w)))
    rw [hr1, hG.extend, hempty, zero_add, hG.pop_none _ hend, add_zero] at hb
    have hc := closed_of_balance hb
    simp only [Multiset.mem_coe] at hc
    refine hc i (Automaton.isRun_reach hM ?_ i.run i.conf hi)
    intro j hj
    obtain ⟨ys, hys⟩ := hr2 j (hc j hj)
    unfold Automaton.successors at hys
    cases hk : M.key j.conf with
    | none => simp [hk] at hys
    | some k => exact ⟨k, rfl⟩

/-- **C17** A word with an unknown terminal symbol has no parse, and recognition ends at once without panicking. -/
theorem C17_unknown_terminal [Mul W] [One W] {G : Agenda A (Item S I T W)} (empty : A) (hp : G.pop empty = none)
    (M : Automaton K S I T W) (n : Nat) : M.recognise G empty none n = some ([], empty) := by
  unfold Automaton.recognise Automaton.initItem
  cases n with
  | zero => rfl
  | succ n => simp [Search.runP, Agenda.extend, hp]

/-- **C18** If no transition increases a weight, parses are returned in non-increasing weight. -/
theorem C18_recognise_sorted [Mul W] [One W] [Preorder W] {G : Agenda A (Item S I T W)} {content : A → Multiset (Item S I T W)}
    (hG : HeapLaws G content (fun i => i.conf.weight)) (empty : A) (M : Automaton K S I T W)
    (hw : ∀ t ∈ M.transitions, ∀ u : W, u * t.weight ≤ u)
    (word : Option (List T)) (n : Nat) (out : List (Item S I T W)) (a : A)
    (hrun : M.recognise G empty word n = some (out, a)) :
    out.Pairwise (fun i j => j.conf.weight ≤ i.conf.weight) := by
  unfold Automaton.recognise at hrun
  obtain ⟨⟨Y, b⟩, hr, he⟩ := Option.map_eq_some_iff.1 hrun
  simp only [Prod.mk.injEq] at he
  obtain ⟨rfl, rfl⟩ := he
  have hs : ∀ x, ∀ y ∈ noPanic M.successors x, y.conf.weight ≤ x.conf.weight := by
    intro x y hy
    obtain ⟨t, ht, hst, _⟩ := Automaton.mem_successors hy
    rw [hst.weight]; exact hw t ht _
  have := C04_weighted_sorted hG (noPanic M.successors) hs (G.extend empty (M.initItem word)) n
  rw [(Search.runP_run hr).1] at this
  exact this.filter _

/-- **C18** When a parse `x` is returned, every parse `z` of the word with a greater weight has been returned before; this holds
also if there are infinitely many parses. -/
theorem C18_recognise_best_first [Mul W] [One W] [Preorder W] {G : Agenda A (Item S I T W)} {content : A → Multiset (Item S I T W)}
    (hG : HeapLaws G content (fun i => i.conf.weight)) (empty : A) (hempty : content empty = 0)
    (M : Automaton K S I T W) (hM : M.Coherent)
    (hw : ∀ t ∈ M.transitions, ∀ u : W, u * t.weight ≤ u)
    (w : List T) (n : Nat) (ys : List (Item S I T W)) (x : Item S I T W) (a : A)
    (hrun : M.recognise G empty (some w) n = some (ys ++ [x], a))
    (z : Item S I T W) (hz : IsRun M.apply M.transitions M.initial w z.run.toVec z.conf) (hzt : M.isTerminal z.conf = true)
    (hlt : x.conf.weight < z.conf.weight) : z ∈ ys := by
  unfold Automaton.recognise at hrun
  obtain ⟨⟨Y, b⟩, hr, he⟩ := Option.map_eq_some_iff.1 hrun
  simp only [Prod.mk.injEq] at he
  obtain ⟨hY, rfl⟩ := he
  obtain ⟨hr1, hr2⟩ := Search.runP_run hr
  -- cut the search right after `x`
  obtain ⟨Y1, Y2, rfl, hY1, hY2⟩ := List.filter_eq_append_iff.1 hY
  obtain ⟨Y3, Y4, rfl, hnot, hx, hY4⟩ := List.filter_eq_cons_iff.1 hY2
  have hs : ∀ x, ∀ y ∈ noPanic M.successors x, y.conf.weight ≤ x.conf.weight := by
    intro x y hy
    obtain ⟨t, ht, hst, _⟩ := Automaton.mem_successors hy
    rw [hst.weight]; exact hw t ht _
  have hcut := Search.run_take (G := G) (succ := noPanic M.successors) (n := (Y1 ++ Y3 ++ [x]).length) (m := n) (by
    have := Search.run_length (G := G) (succ := noPanic M.successors) n (G.extend empty (M.initItem (some w)))
    rw [hr1] at this
    simp only [List.length_append, List.length_cons, List.length_nil] at this ⊢
    omega) (G.extend empty (M.initItem (some w)))
  rw [hr1] at hcut
  have hcut' : List.take (Y1 ++ Y3 ++ [x]).length (Y1 ++ (Y3 ++ x :: Y4)) = (Y1 ++ Y3) ++ [x] := by
    have : Y1 ++ (Y3 ++ x :: Y4) = (Y1 ++ Y3 ++ [x]) ++ Y4 := by simp
    rw [this, List.take_left]
  simp only [hcut'] at hcut
  have hinit : ∀ j, j ∈ M.initItem (some w) ↔ j ∈ content (G.extend empty (M.initItem (some w))) := by
    intro j; rw [hG.lossless.extend, hempty, zero_add, Multiset.mem_coe]
  have hbest := fun z hz hlt => C04_weighted_best_first hG (noPanic M.successors) hs
    (G.extend empty (M.initItem (some w))) _ (Y1 ++ Y3) x hcut z hz hlt
  -- all prefixes of the run of `z` are found before `x`
  have key : ∀ (p : Pushdown (Transition I T W)) (c : Configuration S T W),
      IsRun M.apply M.transitions M.initial w p.toVec c → x.conf.weight < c.weight →
      (⟨c, p⟩ : Item S I T W) ∈ Y1 ++ Y3 := by
    intro p
    induction p with
    | empty =>
      intro c hc hlt
      refine hbest _ (.base ?_) hlt
      rw [← hinit]
      obtain ⟨he, _⟩ := hc
      simp only [Pushdown.toVec_empty] at he
      cases he
      simp [Automaton.initItem, Pushdown.new]
    | cons t p ih =>
      intro c hc hlt
      obtain ⟨he, hm⟩ := hc
      simp only [Pushdown.toVec_cons] at he hm
      obtain ⟨c1, h1, h2⟩ := exec_append.1 he
      cases h2 with
      | cons hst hn =>
        cases hn
        have htm := hm t (by simp)
        have hlt1 : x.conf.weight < c1.weight := by
          refine lt_of_lt_of_le hlt ?_
          rw [hst.weight]; exact hw t htm _
        have hmem := ih c1 ⟨h1, fun u hu => hm u (by simp [hu])⟩ hlt1
        have hkey : ∃ k, M.key c1 = some k := by
          obtain ⟨ys, hys⟩ := hr2 ⟨c1, p⟩ (by
            rcases List.mem_append.1 hmem with h | h
            · simp [h]
            · simp [h])
          unfold Automaton.successors at hys
          cases hk : M.key c1 with
          | none => simp [hk] at hys
          | some k => exact ⟨k, rfl⟩
        have hreach : Reach (noPanic M.successors) (· ∈ content (G.extend empty (M.initItem (some w)))) ⟨c1, p⟩ := by
          refine (C01_search_sound hG.lossless.sound (noPanic M.successors) _ n) _ ?_
          rw [hr1]
          rcases List.mem_append.1 hmem with h | h
          · simp [h]
          · simp [h]
        exact hbest _ (.step hreach ((Automaton.mem_successors_iff hM hkey).2 ⟨t, htm, hst, rfl⟩)) hlt
  have hzm := key z.run z.conf hz hlt
  rcases List.mem_append.1 hzm with h | h
  · rw [← hY1]; exact List.mem_filter.2 ⟨h, hzt⟩
  · exact absurd hzt (hnot _ h)

/-- **C19** Every item returned by the beam search is an accepting run (soundness). -/
theorem C19_beam_sound [Mul W] [One W] [Preorder W] {heap : MinMaxHeap H (Item S I T W)} {content : H → Multiset (Item S I T W)}
    (hH : MinMaxLaws heap content (fun i => i.conf.weight)) (M : Automaton K S I T W) (beam : Nat) (word : Option (List T)) (n : Nat)
    (out : List (Item S I T W)) (l : LimitedHeap H) (hrun : M.recogniseBeam heap beam word n = some (out, l))
    (i : Item S I T W) (hi : i ∈ out) :
    M.isTerminal i.conf = true ∧ ∃ w, word = some w ∧
      IsRun M.apply M.transitions M.initial w i.run.toVec i.conf ∧
      w = wordOf i.run.toVec ++ i.conf.word ∧ i.conf.weight = weightOf i.run.toVec :=
  C16_recognise_sound (LimitedHeap.agenda_sound hH) _ hH.empty M word n out l hrun i hi

/-- **C19** The number of waiting items never exceeds the beam. -/
theorem C19_beam_waiting [Mul W] [One W] [LE W] {heap : MinMaxHeap H (Item S I T W)} {content : H → Multiset (Item S I T W)}
    (hH : MinMaxLaws heap content (fun i => i.conf.weight)) (M : Automaton K S I T W) (beam : Nat) (word : Option (List T)) (n : Nat)
    (out : List (Item S I T W)) (l : LimitedHeap H) (hrun : M.recogniseBeam heap beam word n = some (out, l)) :
    (content l.heap).card ≤ beam := by
  unfold Automaton.recogniseBeam Automaton.recognise at hrun
  obtain ⟨⟨Y, b⟩, hr, he⟩ := Option.map_eq_some_iff.1 hrun
  simp only [Prod.mk.injEq] at he
  obtain ⟨_, rfl⟩ := he
  have h0 := LimitedHeap.extend_card hH (M.initItem word) (LimitedHeap.withCapacity heap beam)
    (by simp [LimitedHeap.withCapacity, hH.empty])
  have h1 : (LimitedHeap.withCapacity heap beam : LimitedHeap H).capacity = beam := rfl
  rw [h1] at h0
  have := LimitedHeap.runP_card hH M.successors n _ (by rw [h0.2]; exact h0.1) Y b hr
  rw [h0.2] at this
  exact this.1

/-- **C19** If the beam is at least as large as the number of items that ever wait in the unlimited search,
the output is that of `recognise` (on the same heap), step by step. -/
theorem C19_beam_large_enough [Mul W] [One W] [LE W] {heap : MinMaxHeap H (Item S I T W)} {content : H → Multiset (Item S I T W)}
    (hH : MinMaxLaws heap content (fun i => i.conf.weight)) (M : Automaton K S I T W) (beam : Nat) (word : Option (List T)) (n : Nat)
    (hbeam : ∀ m ≤ n, ∀ out h, M.recognise heap.agenda heap.empty word m = some (out, h) → (content h).card ≤ beam) :
    (M.recogniseBeam heap beam word n).map Prod.fst = (M.recognise heap.agenda heap.empty word n).map Prod.fst := by
  unfold Automaton.recogniseBeam Automaton.recognise
  have h0 : (content (heap.agenda.extend heap.empty (M.initItem word))).card ≤ beam :=
    hbeam 0 (by omega) _ _ rfl
  have hext := LimitedHeap.extend_eq hH beam (M.initItem word) heap.empty h0
  have hle : ∀ m ≤ n, ∀ r b, Search.runP heap.agenda M.successors m (heap.agenda.extend heap.empty (M.initItem word)) = some (r, b) →
      (content b).card ≤ beam := by
    intro m hm r b hr
    refine hbeam m hm (r.filter fun i => M.isTerminal i.conf) b ?_
    unfold Automaton.recognise
    rw [hr]; rfl
  have := LimitedHeap.runP_eq hH beam M.successors n _ hle
  rw [show (LimitedHeap.withCapacity heap beam : LimitedHeap H) = ⟨heap.empty, beam⟩ from rfl, hext, this]
  cases Search.runP heap.agenda M.successors n (heap.agenda.extend heap.empty (M.initItem word)) <;> rfl

omit [DecidableEq K] [DecidableEq T] in
/-- **C20** `check_run` lists exactly the storages that the run's instructions lead to, once for each way, each with the
product of the run's weights and the run itself. -/
theorem C20_check_run [Mul W] [One W] (ap : I → S → List S) (initial : S) (run : Pushdown (Transition I T W)) :
    Automaton.checkRun ap initial run =
      (storages ap (run.toVec.map Transition.instruction) initial).map fun s => ⟨⟨[], s, weightOf run.toVec⟩, run⟩ := by
  unfold Automaton.checkRun
  rw [checkRunLoop_eq]
  simp [weightOf]

omit [DecidableEq K] [DecidableEq T] in
/-- **C20** In terms of executions: an item is listed iff the run executes on the word it reads, ending with this storage and weight. -/
theorem C20_check_run_exec [Mul W] [One W] (ap : I → S → List S) (initial : S) (run : Pushdown (Transition I T W)) (i : Item S I T W) :
    i ∈ Automaton.checkRun ap initial run ↔
      i.run = run ∧ i.conf.word = [] ∧ Exec ap ⟨wordOf run.toVec, initial, 1⟩ run.toVec i.conf := by
  rw [C20_check_run, List.mem_map]
  obtain ⟨⟨cw, cs, cwt⟩, p⟩ := i
  simp only [Item.mk.injEq, Configuration.mk.injEq, exec_iff_from]
  constructor
  · rintro ⟨s, hs, ⟨rfl, rfl, rfl⟩, rfl⟩
    exact ⟨rfl, rfl, by simp, hs, rfl⟩
  · rintro ⟨rfl, rfl, _, hs, rfl⟩
    exact ⟨cs, hs, ⟨rfl, rfl, rfl⟩, rfl⟩

omit [DecidableEq K] [DecidableEq T] in
/-- **C20** The run of an accepting item on the whole word is confirmed by `check_run` with the same storage and weight. -/
theorem C20_check_run_confirms [Mul W] [One W] (ap : I → S → List S) (initial : S) (all : List (Transition I T W)) (w : List T)
    (i : Item S I T W) (hi : IsRun ap all initial w i.run.toVec i.conf) (hw : i.conf.word = []) :
    i ∈ Automaton.checkRun ap initial i.run := by
  rw [C20_check_run_exec]
  refine ⟨rfl, hw, ?_⟩
  have := (exec_iff_from _ _ _ _).1 hi.1
  have hw' : w = wordOf i.run.toVec := by simpa [hw] using this.1
  rw [← hw']; exact hi.1

/-! ### Examples: a counter automaton -/

/-- A storage with a non-deterministic instruction: `true` counts up by one or two, `false` down by one. -/
private def exApply (up : Bool) (s : Nat) : List Nat := if up then [s + 1, s + 2] else if s = 0 then [] else [s - 1]

/-- All transitions are stored under one key. -/
private def exAut : Automaton Unit Nat Bool Char Nat where
  apply := exApply
  key _ := some ()
  isTerminal c := c.word.isEmpty && c.storage == 0
  table := [((), [⟨['a'], 1, true⟩, ⟨['b'], 1, false⟩])]
  initial := 0

example : exAut.Coherent := ⟨by decide, by simp⟩

/-- `aab` has no parse with `a` counting one each, `abb` has one with `a` counting two. -/
example : (exAut.recognise (listHeap fun i => i.conf.weight) [] (some ['a', 'b', 'b']) 6).map
    (fun r => (r.1.map fun i => i.run.toVec.map Transition.word, r.2.length)) = some ([[['a'], ['b'], ['b']]], 0) := by decide

example : ∀ t ∈ exAut.transitions, ∀ u : Nat, u * t.weight ≤ u := by
  intro t ht u
  simp [exAut, Automaton.transitions] at ht
  rcases ht with rfl | rfl <;> simp

/-- With beam 1 a parse may be lost, here one is found. -/
example : (exAut.recogniseBeam (listMinMax fun i => i.conf.weight) 2 (some ['a', 'b', 'b']) 6).map
    (fun r => r.1.length) = some 1 := by decide

/-- `check_run` is non-deterministic here. -/
example : (Automaton.checkRun exApply 0 (Pushdown.ofSlice exAut.transitions)).map (fun i => i.conf.storage) = [0, 1] := by decide

end Rustomata.Props
