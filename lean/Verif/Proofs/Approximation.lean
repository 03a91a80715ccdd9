import Verif.Model.Approximation
import Verif.Proofs.Tsa
import Verif.Proofs.Cfg
import Verif.Proofs.Search
import Verif.Spec.Approximation

/-!
# Helper lemmas: approximation and coarse-to-fine recognition
-/

set_option linter.unusedSectionVars false
set_option linter.unusedSimpArgs false

namespace Rustomata
open Spec

section tts
variable {A : Type _}

theorem ttsLoop_eq (t : TreeStack A) (pd : List A) : ttsLoop t.parents.length t pd = pd ++ t.parents.map Frame.value := by
  obtain ⟨ps, v, c⟩ := t
  simp only
  induction ps generalizing v c pd with
  | nil => simp [ttsLoop]
  | cons f ps ih =>
    simp only [List.length_cons, ttsLoop, TreeStack.down]
    rw [ih]
    simp [TreeStack.currentSymbol]

theorem tts_storage (t : TreeStack A) : tts.storage t = (t.parents.map Frame.value).reverse ++ [t.value] := by
  simp [tts, ttsLoop_eq, TreeStack.currentSymbol]

theorem tts_storage_length (t : TreeStack A) : (tts.storage t).length = t.parents.length + 1 := by
  rw [tts_storage]; simp

end tts

/-! ### simulation -/

theorem PdInstr.apply_length {A : Type _} [DecidableEq A] (i : PdInstr A) (p : PushDown A) : (i.apply p).length ≤ 1 := by
  unfold PdInstr.apply
  split <;> simp

theorem storages_length {S I : Type _} {ap : I → S → List S} (h : ∀ i s, (ap i s).length ≤ 1) (is : List I) (s : S) : (storages ap is s).length ≤ 1 := by
  induction is generalizing s with
  | nil => simp [storages]
  | cons j js ih =>
    simp only [storages]
    have := h j s
    match hj : ap j s, this with
    | [], _ => simp
    | [x], _ => simpa using ih x

theorem tts_simulation {A : Type _} [DecidableEq A] : Simulation (tts (A := A)) TsInstr.apply PdInstr.apply (fun t => t.isAtBottom) (fun p => p.length == 1) where
  step := by
    intro i s s' h
    rw [PdInstr.mem_apply]
    unfold TsInstr.apply at h
    cases i with
    | up n c o w =>
      simp only at h
      split at h
      · rename_i hc
        split at h
        · rename_i x hu
          split at h
          · rw [List.mem_singleton] at h
            subst h
            obtain ⟨v, d, _, rfl⟩ := TreeStack.up_ok.1 hu
            refine ⟨(s.parents.map Frame.value).reverse, ?_, ?_⟩
            · rw [tts_storage]; simp [tts, ← hc, TreeStack.currentSymbol]
            · rw [tts_storage]; simp [tts, ← hc, TreeStack.currentSymbol, TreeStack.set]
          · simp at h
        · simp at h
      · simp at h
    | push n c w =>
      simp only at h
      split at h
      · rename_i hc
        split at h
        · rename_i x hu
          rw [List.mem_singleton] at h
          subst h
          obtain ⟨_, rfl⟩ := TreeStack.push_ok.1 hu
          refine ⟨(s.parents.map Frame.value).reverse, ?_, ?_⟩
          · rw [tts_storage]; simp [tts, ← hc, TreeStack.currentSymbol]
          · rw [tts_storage]; simp [tts, ← hc, TreeStack.currentSymbol]
        · simp at h
      · simp at h
    | down c o w =>
      simp only at h
      split at h
      · rename_i hc
        split at h
        · rename_i x hu
          split at h
          · rename_i ho
            rw [List.mem_singleton] at h
            subst h
            obtain ⟨f, ps, hp, rfl⟩ := TreeStack.down_ok.1 hu
            refine ⟨(ps.map Frame.value).reverse, ?_, ?_⟩
            · rw [tts_storage, hp]
              simp only [TreeStack.currentSymbol] at ho hc
              simp [tts, ← hc, ← ho]
            · rw [tts_storage]; simp [tts, TreeStack.set]
          · simp at h
        · simp at h
      · simp at h
  det := PdInstr.apply_length
  acc := by
    intro s
    rw [tts_storage_length, TreeStack.isAtBottom]
    cases s.parents <;> simp

theorem relabel_simulation {A B : Type _} [DecidableEq A] [DecidableEq B] (f : A → B) :
    Simulation (relabel f) PdInstr.apply PdInstr.apply (fun p => p.length == 1) (fun p => p.length == 1) where
  step := by
    intro i s s' h
    obtain ⟨below, rfl, rfl⟩ := PdInstr.mem_apply.1 h
    rw [PdInstr.mem_apply]
    refine ⟨below.map f, ?_, ?_⟩ <;> simp [relabel, PushDown.map]
  det := PdInstr.apply_length
  acc := by intro s; simp [relabel, PushDown.map]

section runs
variable {S₁ I₁ S₂ I₂ T W : Type _} {Z : ApproximationStrategy S₁ I₁ S₂ I₂} {ap₁ : I₁ → S₁ → List S₁} {ap₂ : I₂ → S₂ → List S₂}
  {acc₁ : S₁ → Bool} {acc₂ : S₂ → Bool}

theorem Spec.Simulation.storages (h : Simulation Z ap₁ ap₂ acc₁ acc₂) (is : List I₁) (s s' : S₁) (hs : s' ∈ Spec.storages ap₁ is s) :
    Z.storage s' ∈ Spec.storages ap₂ (is.map Z.instruction) (Z.storage s) := by
  induction is generalizing s with
  | nil => simp only [Spec.storages, List.mem_singleton] at hs; simp [Spec.storages, hs]
  | cons i is ih =>
    simp only [Spec.storages, List.mem_flatMap] at hs
    obtain ⟨x, hx, hs⟩ := hs
    simp only [List.map_cons, Spec.storages, List.mem_flatMap]
    exact ⟨_, h.step _ _ _ hx, ih x hs⟩

theorem wordOf_mirrors {ts1 : List (Transition I₁ T W)} {ts2 : List (Transition I₂ T W)} (h : List.Forall₂ (Mirrors Z) ts1 ts2) : wordOf ts2 = wordOf ts1 := by
  induction h with
  | nil => rfl
  | cons h _ ih => simp [wordOf, h.1] at *; exact ih

theorem instructions_mirrors {ts1 : List (Transition I₁ T W)} {ts2 : List (Transition I₂ T W)} (h : List.Forall₂ (Mirrors Z) ts1 ts2) :
    ts2.map Transition.instruction = (ts1.map Transition.instruction).map Z.instruction := by
  induction h with
  | nil => rfl
  | cons h _ ih => simp only [List.map_cons, ih, h.2]

/-- Runs of mirrored transitions. -/
theorem Spec.Simulation.exec [Mul W] [One W] (h : Simulation Z ap₁ ap₂ acc₁ acc₂) {ts1 : List (Transition I₁ T W)} {ts2 : List (Transition I₂ T W)}
    (hm : List.Forall₂ (Mirrors Z) ts1 ts2) {w : List T} {s s' : S₁} {u : W} (he : Exec ap₁ ⟨w, s, 1⟩ ts1 ⟨[], s', u⟩) :
    Exec ap₂ ⟨w, Z.storage s, 1⟩ ts2 ⟨[], Z.storage s', weightOf ts2⟩ := by
  obtain ⟨h1, h2, h3⟩ := (exec_iff_from _ _ _ _).1 he
  rw [exec_iff_from]
  refine ⟨by rw [wordOf_mirrors hm]; exact h1, ?_, rfl⟩
  rw [instructions_mirrors hm]
  exact h.storages _ _ _ h2

/-- A coarse accepting run determines the acceptance of its fine runs. -/
theorem Spec.Simulation.accepting [Mul W] [One W] (h : Simulation Z ap₁ ap₂ acc₁ acc₂) {ts1 : List (Transition I₁ T W)} {ts2 : List (Transition I₂ T W)}
    (hm : List.Forall₂ (Mirrors Z) ts1 ts2) {w : List T} {s s' : S₁} {s2 : S₂} {u2 : W} (he2 : Exec ap₂ ⟨w, Z.storage s, 1⟩ ts2 ⟨[], s2, u2⟩)
    (hacc : acc₂ s2 = true) (hs : s' ∈ Spec.storages ap₁ (ts1.map Transition.instruction) s) :
    Exec ap₁ ⟨w, s, 1⟩ ts1 ⟨[], s', weightOf ts1⟩ ∧ acc₁ s' = true := by
  obtain ⟨h1, h2, h3⟩ := (exec_iff_from _ _ _ _).1 he2
  refine ⟨(exec_iff_from _ _ _ _).2 ⟨by rw [← wordOf_mirrors hm]; exact h1, hs, rfl⟩, ?_⟩
  have h4 := h.storages _ _ _ hs
  rw [← instructions_mirrors hm] at h4
  have h5 := storages_length h.det (ts2.map Transition.instruction) (Z.storage s)
  have h6 : Z.storage s' = s2 := by
    simp only at h2
    match hl : Spec.storages ap₂ (ts2.map Transition.instruction) (Z.storage s), h5 with
    | [], _ => rw [hl] at h2; simp at h2
    | [x], _ => rw [hl, List.mem_singleton] at h2 h4; rw [h2, h4]
  rw [← h.acc, h6, hacc]

end runs

/-! ### instances -/

section inst
variable {S₁ I₁ S₂ I₂ T W : Type _} [DecidableEq I₂] [DecidableEq T] [DecidableEq W] (Z : ApproximationStrategy S₁ I₁ S₂ I₂)

theorem unapproximateTransition_upd (m : ReverseMap I₁ I₂ T W) (k t2 : Transition I₂ T W) (t1 : Transition I₁ T W) :
    unapproximateTransition (HMap.upd k [] (fun v => v ++ [t1]) m) t2 =
      unapproximateTransition m t2 ++ if k = t2 then [t1] else [] := by
  induction m with
  | nil =>
    by_cases h : k = t2 <;> simp [HMap.upd, unapproximateTransition, h]
  | cons p m ih =>
    obtain ⟨k', v⟩ := p
    simp only [unapproximateTransition, HMap.upd] at ih ⊢
    by_cases h1 : k' = k
    · subst h1
      by_cases h2 : k' = t2 <;> simp [h2]
    · by_cases h2 : k' = t2
      · have : ¬ k = t2 := fun e => h1 (by rw [h2, e])
        simp [h1, h2, this]
        simp [show ¬ t2 = k from fun e => this e.symm]
      · simp only [h1, if_false, h2, List.find?_cons, decide_false]
        exact ih

theorem approximateTransitions_snd (m : ReverseMap I₁ I₂ T W) (L : List (Transition I₁ T W)) : (approximateTransitions Z m L).2 = L.map Z.transition := by
  induction L generalizing m with
  | nil => rfl
  | cons t L ih => simp [approximateTransitions, approximateTransition, ih]

theorem unapproximateTransition_eq (m : ReverseMap I₁ I₂ T W) (L : List (Transition I₁ T W)) (t2 : Transition I₂ T W) :
    unapproximateTransition (approximateTransitions Z m L).1 t2 = unapproximateTransition m t2 ++ L.filter (fun t => Z.transition t = t2) := by
  induction L generalizing m with
  | nil => simp [approximateTransitions]
  | cons t L ih =>
    simp only [approximateTransitions, approximateTransition, ih, unapproximateTransition_upd, List.append_assoc, List.filter_cons]
    by_cases h : Z.transition t = t2 <;> simp [h]

theorem unapproximateTransition_new (L : List (Transition I₁ T W)) (t2 : Transition I₂ T W) :
    unapproximateTransition (approximateTransitions Z [] L).1 t2 = L.filter (fun t => Z.transition t = t2) := by
  rw [unapproximateTransition_eq]; simp [unapproximateTransition]

end inst

section unrun
variable {X : Type _} [DecidableEq X]

theorem count_push (H : List (Pushdown X)) (ts : List X) (p : Pushdown X) (t : X) :
    (H.flatMap fun run => ts.map fun t1 => run.push t1).count (p.push t) = H.count p * ts.count t := by
  induction H with
  | nil => simp
  | cons q H ih =>
    rw [List.flatMap_cons, List.count_append, ih]
    by_cases h : q = p
    · subst h
      have : (ts.map fun t1 => q.push t1).count (q.push t) = ts.count t := by
        refine List.count_map_of_injective ts (fun t1 => q.push t1) ?_ t
        intro a b hab
        simpa [Pushdown.push] using hab
      rw [this, List.count_cons_self, Nat.add_mul, Nat.one_mul, Nat.add_comm]
    · have : (ts.map fun t1 => q.push t1).count (p.push t) = 0 := by
        rw [List.count_eq_zero]
        intro hc
        obtain ⟨t1, _, e⟩ := List.mem_map.1 hc
        simp only [Pushdown.push, Pushdown.cons.injEq] at e
        exact h e.2
      rw [this, List.count_cons_of_ne h, Nat.zero_add]

theorem count_push_empty (H : List (Pushdown X)) (ts : List X) :
    (H.flatMap fun run => ts.map fun t1 => run.push t1).count Pushdown.empty = 0 := by
  rw [List.count_eq_zero]
  intro hc
  simp only [List.mem_flatMap, List.mem_map, Pushdown.push] at hc
  obtain ⟨_, _, _, _, h⟩ := hc
  cases h

/-- What `unapproximate_run` computes: `p` occurs as often as there are ways to pick its elements. -/
theorem count_foldl {order : List (Pushdown X) → List (Pushdown X)} (ho : ∀ l, (order l).Perm l) (tss : List (List X)) :
    ∀ p : Pushdown X, (tss.foldl (fun h ts1 => order (h.flatMap fun run => ts1.map fun t1 => run.push t1)) (order [Pushdown.empty])).count p =
      if p.toVec.length = tss.length then (List.zipWith (fun t ts => List.count t ts) p.toVec tss).prod else 0 := by
  induction tss using List.reverseRecOn with
  | nil =>
    intro p
    simp only [List.foldl_nil, (ho _).count_eq]
    cases p with
    | empty => simp
    | cons v b => simp [Pushdown.toVec_cons]
  | append_singleton tss ts ih =>
    intro p
    rw [List.foldl_append, List.foldl_cons, List.foldl_nil, (ho _).count_eq]
    cases p with
    | empty => rw [count_push_empty]; simp
    | cons v b =>
      have := count_push (tss.foldl (fun h ts1 => order (h.flatMap fun run => ts1.map fun t1 => run.push t1)) (order [Pushdown.empty])) ts b v
      rw [Pushdown.push] at this
      rw [this, ih, Pushdown.toVec_cons]
      simp only [List.length_append, List.length_cons, List.length_nil, Nat.add_right_cancel_iff]
      by_cases hl : b.toVec.length = tss.length
      · rw [if_pos hl, if_pos hl, List.zipWith_append hl, List.prod_append]
        simp
      · rw [if_neg hl, if_neg hl, Nat.zero_mul]

end unrun

/-! ### coarse-to-fine -/

namespace CtfState
variable {H X₁ X₂ W : Type _} [LT W] [DecidableRel (α := W) (· < ·)]

/-- The items a heap gives in `n` calls of `pop`. -/
def drain (G : Agenda H X₁) : Nat → H → List X₁
  | 0, _ => []
  | n + 1, h => match G.pop h with
    | none => []
    | some (x, h') => x :: drain G n h'

theorem loop_used (G : Agenda H X₁) (weight₁ : X₁ → W) (weight₂ : X₂ → W) (fine : X₂ → List X₁) (n : Nat) (sub : List X₂) (h : H) :
    loop G weight₁ weight₂ fine (n + 1) ⟨sub, some none, h⟩ =
      some (match G.pop h with | none => (none, ⟨sub, some none, h⟩) | some (x, h') => (some x, ⟨sub, some none, h'⟩)) := by
  have hc : continue_ G weight₁ weight₂ (⟨sub, some none, h⟩ : CtfState H X₂) = ((heapPeek G h).isNone, ⟨sub, some none, h⟩) := by
    unfold continue_
    cases heapPeek G h <;> rfl
  unfold loop
  rw [hc]
  obtain hp | ⟨x, hp⟩ : G.pop h = none ∨ ∃ x, G.pop h = some x := by cases G.pop h <;> simp
  · simp [heapPeek, hp, nextInput, fill]
  · simp [heapPeek, hp]

theorem take_used (G : Agenda H X₁) (weight₁ : X₁ → W) (weight₂ : X₂ → W) (fine : X₂ → List X₁) (n : Nat) (sub : List X₂) (h : H) :
    take G weight₁ weight₂ fine n ⟨sub, some none, h⟩ = drain G n h := by
  induction n generalizing h with
  | zero => rfl
  | succ n ih =>
    simp only [take, next, loop_used, Option.getD_some, drain]
    cases hp : G.pop h with
    | none => rfl
    | some x => simp [ih]

/-- The loop of the first call. -/
theorem loop_first (G : Agenda H X₁) (weight₁ : X₁ → W) (weight₂ : X₂ → W) (fine : X₂ → List X₁) (n : Nat) (coarse : List X₂) (empty : H)
    (he : G.pop empty = none) :
    loop G weight₁ weight₂ fine (n + 2) ⟨coarse, none, empty⟩ =
      match coarse with
      | [] => some (none, ⟨[], some none, empty⟩)
      | c :: cs => loop G weight₁ weight₂ fine (n + 1) ⟨cs, some none, G.extend empty (fine c)⟩ := by
  conv_lhs => unfold loop
  simp only [continue_, heapPeek, he, Option.map_none, if_true, nextInput, fill]
  cases coarse with
  | nil => simp
  | cons c cs => simp

/-- Only the first coarse parse is considered: `next` gives the fine items for it, in the order of the heap. -/
theorem take_eq (G : Agenda H X₁) (weight₁ : X₁ → W) (weight₂ : X₂ → W) (fine : X₂ → List X₁) (n : Nat) (coarse : List X₂) (empty : H)
    (he : G.pop empty = none) :
    take G weight₁ weight₂ fine n ⟨coarse, none, empty⟩ = drain G n (G.extend empty (coarse.head?.toList.flatMap fine)) := by
  cases n with
  | zero => rfl
  | succ n =>
    simp only [take, next]
    rw [loop_first G weight₁ weight₂ fine 1 coarse empty he]
    cases coarse with
    | nil => simp [drain, Agenda.extend, he]
    | cons c cs =>
      simp only [loop_used, Option.getD_some, List.head?_cons, Option.toList_some, List.flatMap_cons, List.flatMap_nil, List.append_nil, drain]
      cases hp : G.pop (G.extend empty (fine c)) with
      | none => rfl
      | some x => simp [take_used]

/-- The bound on the iterations is not reached: the loop ends, whatever the state. -/
theorem loop_terminates (G : Agenda H X₁) (weight₁ : X₁ → W) (weight₂ : X₂ → W) (fine : X₂ → List X₁) (s : CtfState H X₂) (n : Nat) :
    loop G weight₁ weight₂ fine (n + 3) s = loop G weight₁ weight₂ fine 3 s ∧ loop G weight₁ weight₂ fine 3 s ≠ none := by
  have key : ∀ (s : CtfState H X₂) n, s.inputBuffer = some none → loop G weight₁ weight₂ fine (n + 1) s = loop G weight₁ weight₂ fine 1 s ∧
      loop G weight₁ weight₂ fine 1 s ≠ none := by
    rintro ⟨sub, b, h⟩ n rfl
    rw [loop_used, loop_used]
    exact ⟨rfl, by simp⟩
  have hb : ∀ s : CtfState H X₂, s.nextInput.2.inputBuffer = some none := fun _ => rfl
  unfold loop
  dsimp only
  generalize continue_ G weight₁ weight₂ s = c
  have h1 := hb c.2
  generalize c.2.nextInput = i at h1
  obtain ⟨i1, sub, b, h⟩ := i
  simp only at h1
  subst h1
  constructor
  · split
    · cases i1 with
      | none => rfl
      | some x2 =>
        simp only
        rw [(key ⟨sub, some none, G.extend h (fine x2)⟩ (n + 1) rfl).1, (key ⟨sub, some none, G.extend h (fine x2)⟩ 1 rfl).1]
    · rfl
  · split
    · cases i1 with
      | none => simp
      | some x2 =>
        simp only
        rw [(key ⟨sub, some none, G.extend h (fine x2)⟩ 1 rfl).1]
        exact (key ⟨sub, some none, G.extend h (fine x2)⟩ 0 rfl).2
    · split <;> simp

end CtfState

section drain
variable {H X W : Type _}
open CtfState

theorem drain_le {G : Agenda H X} {content : H → Multiset X} (hG : G.Lossless content) (n : Nat) (h : H) :
    ∃ rest, content h = (drain G n h : Multiset X) + rest ∧ (n ≥ (content h).card → rest = 0) := by
  induction n generalizing h with
  | zero =>
    refine ⟨content h, by simp [drain], fun hn => ?_⟩
    exact Multiset.card_eq_zero.1 (Nat.le_zero.1 hn)
  | succ n ih =>
    simp only [drain]
    cases hp : G.pop h with
    | none => exact ⟨0, by simp [hG.pop_none h hp], fun _ => rfl⟩
    | some x =>
      obtain ⟨x, h'⟩ := x
      obtain ⟨rest, h1, h2⟩ := ih h'
      have h3 := hG.pop_some h x h' hp
      refine ⟨rest, ?_, ?_⟩
      · rw [h3, h1]; simp [← Multiset.cons_coe]
      · intro hn
        rw [h3, Multiset.card_cons] at hn
        exact h2 (by omega)

theorem drain_sorted [Preorder W] {G : Agenda H X} {content : H → Multiset X} {prio : X → W} (hG : HeapLaws G content prio) (n : Nat) (h : H) :
    (drain G n h).Pairwise (fun i j => prio j ≤ prio i) := by
  induction n generalizing h with
  | zero => simp [drain]
  | succ n ih =>
    simp only [drain]
    cases hp : G.pop h with
    | none => simp
    | some x =>
      obtain ⟨x, h'⟩ := x
      refine List.pairwise_cons.2 ⟨?_, ih h'⟩
      intro y hy
      obtain ⟨rest, h1, _⟩ := drain_le hG.lossless n h'
      exact hG.max h x h' hp y (by rw [h1]; simp [hy])

end drain

/-! ### the approximated automaton -/

section built
variable {A S₁ I₁ T W : Type _} [DecidableEq A] [DecidableEq T] [DecidableEq W] {Z : ApproximationStrategy S₁ I₁ (PushDown A) (PdInstr A)}

theorem approximateAutomaton_isSome [Zero W] [Add W] (L : List (Transition I₁ T W)) (hZ : ∀ t ∈ L, (Z.instruction t.instruction).current ≠ [])
    (initial : S₁) :
    ∃ P m, approximateAutomaton Z L initial = some (P, m) := by
  unfold approximateAutomaton PDA.new
  dsimp only
  have := PDA.foldlM_isSome (approximateTransitions Z [] L).2
    (⟨(PushDown.integ.integerise Integeriser.new (Z.storage initial)).1, Integeriser.new, []⟩ : PDA.BuildState A T W) (by
      rw [approximateTransitions_snd]
      intro t ht
      obtain ⟨t1, ht1, rfl⟩ := List.mem_map.1 ht
      exact hZ _ ht1)
  obtain ⟨s, hs⟩ := Option.isSome_iff_exists.1 this
  rw [hs]
  exact ⟨_, _, rfl⟩

theorem approximateAutomaton_built [Zero W] [Add W] {L : List (Transition I₁ T W)} {initial : S₁} {P : PDA A T W} {m : ReverseMap I₁ (PdInstr A) T W}
    (h : approximateAutomaton Z L initial = some (P, m)) :
    ∃ L2, P.listTransitions = some L2 ∧ PDA.Built P (L.map Z.transition) (Z.storage initial) L2 ∧ m = (approximateTransitions Z [] L).1 := by
  unfold approximateAutomaton at h
  obtain ⟨Q, hQ, he⟩ := Option.map_eq_some_iff.1 h
  obtain ⟨rfl, rfl⟩ := Prod.mk.inj he
  rw [approximateTransitions_snd] at hQ
  obtain ⟨L2, h1, h2⟩ := PDA.new_built hQ
  exact ⟨L2, h1, h2, rfl⟩

/-- The transitions of the approximated automaton: every transition has a mirror, which carries the sum of the weights. -/
theorem built_mirror [Zero W] [Add W] {L : List (Transition I₁ T W)} {initial : S₁} {P : PDA A T W} {L2 : List (Transition (PdInstr A) T W)}
    (h : PDA.Built P (L.map Z.transition) (Z.storage initial) L2) {t : Transition I₁ T W} (ht : t ∈ L) :
    ∃ t2 ∈ L2, Mirrors Z t t2 ∧ ∃ xs ys, t2.weight = (xs ++ t.weight :: ys).foldl (· + ·) 0 := by
  obtain ⟨t2, h1, h2⟩ := List.mem_map.1 ((h.mem (PDA.keyOf (Z.transition t))).2 (List.mem_map.2 ⟨_, List.mem_map.2 ⟨t, ht, rfl⟩, rfl⟩))
  obtain ⟨e1, e2⟩ := Prod.mk.inj h2
  refine ⟨t2, h1, ⟨e1, e2⟩, ?_⟩
  rw [h.weight t2 h1, PDA.total, h2]
  have : Z.transition t ∈ (L.map Z.transition).filter fun t' => PDA.keyOf t' = PDA.keyOf (Z.transition t) :=
    List.mem_filter.2 ⟨List.mem_map.2 ⟨t, ht, rfl⟩, by simp⟩
  obtain ⟨xs, ys, e⟩ := List.append_of_mem this
  rw [e]
  exact ⟨xs.map Transition.weight, ys.map Transition.weight, by simp [ApproximationStrategy.transition]⟩

theorem built_mirrors [Zero W] [Add W] {L : List (Transition I₁ T W)} {initial : S₁} {P : PDA A T W} {L2 : List (Transition (PdInstr A) T W)}
    (h : PDA.Built P (L.map Z.transition) (Z.storage initial) L2) {ts : List (Transition I₁ T W)} (hts : ∀ t ∈ ts, t ∈ L) :
    ∃ ts2, (∀ t ∈ ts2, t ∈ L2) ∧ List.Forall₂ (fun t t2 => Mirrors Z t t2 ∧ ∃ xs ys, t2.weight = (xs ++ t.weight :: ys).foldl (· + ·) 0) ts ts2 := by
  induction ts with
  | nil => exact ⟨[], by simp, .nil⟩
  | cons t ts ih =>
    obtain ⟨ts2, h1, h2⟩ := ih (fun t ht => hts t (by simp [ht]))
    obtain ⟨t2, h3, h4⟩ := built_mirror h (hts t (by simp))
    refine ⟨t2 :: ts2, ?_, .cons h4 h2⟩
    intro t' ht'
    rcases List.mem_cons.1 ht' with rfl | ht'
    · exact h3
    · exact h1 _ ht'

theorem le_sum_of_split [Zero W] [Add W] [Preorder W] (hl : ∀ a b : W, a ≤ a + b) (hr : ∀ a b : W, b ≤ a + b) (xs ys : List W) (u : W) :
    u ≤ (xs ++ u :: ys).foldl (· + ·) 0 := by
  rw [List.foldl_append, List.foldl_cons]
  have : ∀ (ys : List W) (v : W), u ≤ v → u ≤ ys.foldl (· + ·) v := by
    intro ys
    induction ys with
    | nil => exact fun v h => h
    | cons y ys ih => exact fun v h => ih _ (le_trans h (hl _ _))
  exact this _ _ (hr _ _)

theorem weight_le [Mul W] [One W] [Zero W] [Add W] [Preorder W] (hl : ∀ a b : W, a ≤ a + b) (hr : ∀ a b : W, b ≤ a + b)
    (hm : ∀ a b c d : W, a ≤ b → c ≤ d → a * c ≤ b * d) {ts : List (Transition I₁ T W)} {ts2 : List (Transition (PdInstr A) T W)}
    (h : List.Forall₂ (fun t t2 => Mirrors Z t t2 ∧ ∃ xs ys, t2.weight = (xs ++ t.weight :: ys).foldl (· + ·) 0) ts ts2) : weightOf ts ≤ weightOf ts2 := by
  have : ∀ u v : W, u ≤ v → weightFrom u ts ≤ weightFrom v ts2 := by
    induction h with
    | nil => exact fun _ _ h => h
    | @cons t t2 ts ts2 h1 _ ih =>
      obtain ⟨_, xs, ys, e⟩ := h1
      exact fun u v huv => ih _ _ (hm _ _ _ _ huv (by rw [e]; exact le_sum_of_split hl hr _ _ _))
  exact this _ _ (le_refl _)

/-- Accepting runs are mapped to accepting runs. -/
theorem approx_accepting [Mul W] [One W] [Zero W] [Add W] {ap₁ : I₁ → S₁ → List S₁} {acc₁ : S₁ → Bool}
    (hsim : Simulation Z ap₁ PdInstr.apply acc₁ (fun p => p.length == 1)) {L : List (Transition I₁ T W)} {initial : S₁} {P : PDA A T W}
    {L2 : List (Transition (PdInstr A) T W)} (h : PDA.Built P (L.map Z.transition) (Z.storage initial) L2) {w : List T}
    {ts : List (Transition I₁ T W)} {s : S₁} {u : W} (hacc : Device.Accepting ⟨ap₁, L, initial, acc₁⟩ w ts s u) :
    ∃ ts2, List.Forall₂ (fun t t2 => Mirrors Z t t2 ∧ ∃ xs ys, t2.weight = (xs ++ t.weight :: ys).foldl (· + ·) 0) ts ts2 ∧
      (PDA.device L2 (Z.storage initial)).Accepting w ts2 (Z.storage s) (weightOf ts2) := by
  obtain ⟨⟨h1, h2⟩, h3⟩ := hacc
  obtain ⟨ts2, h4, h5⟩ := built_mirrors h h2
  refine ⟨ts2, h5, ⟨hsim.exec (h5.imp fun _ _ => And.left) h1, h4⟩, ?_⟩
  have := hsim.acc s
  simp only at this h3
  simp only [PDA.device, this, h3]

end built

section ctf
variable {S₁ I₁ S₂ I₂ T W : Type _} [DecidableEq I₁] [DecidableEq I₂] [DecidableEq T] [DecidableEq W] {Z : ApproximationStrategy S₁ I₁ S₂ I₂}

theorem zipWith_prod_pos {X Y : Type _} (f : X → Y → Nat) : ∀ (l : List X) (m : List Y), l.length = m.length →
    (0 < (List.zipWith f l m).prod ↔ List.Forall₂ (fun x y => 0 < f x y) l m)
  | [], [], _ => by simp
  | x :: l, y :: m, h => by
    have ih := zipWith_prod_pos f l m (by simpa using h)
    have hm : 0 < f x y * (List.zipWith f l m).prod ↔ 0 < f x y ∧ 0 < (List.zipWith f l m).prod := by
      simp only [Nat.pos_iff_ne_zero, ne_eq, Nat.mul_eq_zero, not_or]
    rw [List.zipWith_cons_cons, List.prod_cons, hm, ih, List.forall₂_cons]
  | [], _ :: _, h => by simp at h
  | _ :: _, [], h => by simp at h

theorem filter_count_pos {L : List (Transition I₁ T W)} {t1 : Transition I₁ T W} {t2 : Transition I₂ T W} :
    0 < (L.filter fun t => Z.transition t = t2).count t1 ↔ t1 ∈ L ∧ Z.transition t1 = t2 := by
  rw [List.count_pos_iff, List.mem_filter]; simp

theorem mem_unapproximateRun {order : List (Pushdown (Transition I₁ T W)) → List (Pushdown (Transition I₁ T W))} (ho : ∀ l, (order l).Perm l)
    (L : List (Transition I₁ T W)) (run2 : Pushdown (Transition I₂ T W)) (r : Pushdown (Transition I₁ T W)) :
    r ∈ unapproximateRun order (approximateTransitions Z [] L).1 run2 ↔ List.Forall₂ (fun t1 t2 => t1 ∈ L ∧ Z.transition t1 = t2) r.toVec run2.toVec := by
  rw [← List.count_pos_iff, unapproximateRun, count_foldl ho]
  simp only [List.length_map]
  split
  · rename_i hl
    rw [zipWith_prod_pos _ _ _ (by simpa using hl), List.forall₂_map_right_iff]
    simp only [unapproximateTransition_new, filter_count_pos]
  · rename_i hl
    simp only [Nat.lt_irrefl, false_iff]
    intro h
    exact hl h.length_eq

theorem count_unapproximateRun {order : List (Pushdown (Transition I₁ T W)) → List (Pushdown (Transition I₁ T W))} (ho : ∀ l, (order l).Perm l)
    (L : List (Transition I₁ T W)) (run2 : Pushdown (Transition I₂ T W)) (r : Pushdown (Transition I₁ T W))
    (h : List.Forall₂ (fun t1 t2 => t1 ∈ L ∧ Z.transition t1 = t2) r.toVec run2.toVec) :
    (unapproximateRun order (approximateTransitions Z [] L).1 run2).count r = (r.toVec.map fun t => L.count t).prod := by
  rw [unapproximateRun, count_foldl ho]
  simp only [List.length_map, h.length_eq, if_true]
  congr 1
  have key : ∀ (l : List (Transition I₁ T W)) (m : List (Transition I₂ T W)), List.Forall₂ (fun t1 t2 => t1 ∈ L ∧ Z.transition t1 = t2) l m →
      List.zipWith (fun t ts => List.count t ts) l (m.map (unapproximateTransition (approximateTransitions Z [] L).1)) = l.map fun t => L.count t := by
    intro l m hlm
    induction hlm with
    | nil => rfl
    | @cons t1 t2 l m h1 _ ih =>
      rw [List.map_cons, List.zipWith_cons_cons, ih, List.map_cons, unapproximateTransition_new]
      congr 1
      rw [List.count_filter]
      simp [h1.2]
  exact key _ _ h

theorem count_flatMap_runs {S : Type _} [DecidableEq S] [Mul W] [One W] (ap : I₁ → S → List S) (initial : S) (runs : List (Pushdown (Transition I₁ T W)))
    (i : Item S I₁ T W) :
    (runs.flatMap fun r => Automaton.checkRun ap initial r).count i =
      if i.conf.word = [] ∧ i.conf.weight = weightOf i.run.toVec then
        runs.count i.run * (storages ap (i.run.toVec.map Transition.instruction) initial).count i.conf.storage else 0 := by
  induction runs with
  | nil => simp
  | cons r runs ih =>
    rw [List.flatMap_cons, List.count_append, ih]
    have hc : (Automaton.checkRun ap initial r).count i = if r = i.run ∧ i.conf.word = [] ∧ i.conf.weight = weightOf i.run.toVec then
        (storages ap (i.run.toVec.map Transition.instruction) initial).count i.conf.storage else 0 := by
      unfold Automaton.checkRun
      rw [checkRunLoop_eq]
      simp only [one_mul, List.flatMap_cons, List.flatMap_nil, List.append_nil]
      split
      · rename_i h
        obtain ⟨rfl, h1, h2⟩ := h
        have : i = (fun s => (⟨⟨[], s, weightOf i.run.toVec⟩, i.run⟩ : Item S I₁ T W)) i.conf.storage := by
          obtain ⟨⟨a, b, c⟩, d⟩ := i
          simp only at h1 h2 ⊢
          rw [h1, h2]
        conv_lhs => rw [this]
        have hinj : Function.Injective (fun s => (⟨⟨[], s, weightOf i.run.toVec⟩, i.run⟩ : Item S I₁ T W)) := by
          intro a b hab
          simpa using hab
        exact List.count_map_of_injective _ _ hinj _
      · rename_i h
        rw [List.count_eq_zero]
        intro hm
        obtain ⟨s, _, rfl⟩ := List.mem_map.1 hm
        simp [weightOf] at h
    rw [hc]
    by_cases h1 : i.conf.word = [] ∧ i.conf.weight = weightOf i.run.toVec
    · by_cases h2 : r = i.run
      · subst h2; simp [h1, Nat.add_mul, Nat.add_comm]
      · simp [h1, h2, List.count_cons_of_ne h2]
    · simp [h1]

end ctf

end Rustomata
