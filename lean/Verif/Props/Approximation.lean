import Verif.Proofs.Approximation
import Verif.Proofs.EquivalenceRelation
import Verif.Proofs.Heaps
import Verif.Spec.Tsa
import Mathlib.Data.List.Infix

/-!
# Properties C29–C32, C52: approximation and coarse-to-fine recognition
-/

set_option linter.unusedSectionVars false

namespace Rustomata.Props
open Spec

private theorem current_of_built {A T W : Type _} [DecidableEq A] [DecidableEq T] [Zero W] [Add W] {ts L : List (Transition (PdInstr A) T W)}
    {initial : PushDown A} {P : PDA A T W} (h : PDA.Built P ts initial L) (t : Transition (PdInstr A) T W) (ht : t ∈ L) : t.instruction.current ≠ [] := by
  obtain ⟨t', h1, h2⟩ := forall₂_exists_left h.list ht
  obtain ⟨p, hp, ht'⟩ := List.mem_flatMap.1 h1
  have h3 := h.keyed p.1 p.2 hp t' ht'
  intro hc
  have h4 := h2.instruction.1
  rw [hc] at h4
  rw [List.forall₂_nil_right_iff.1 h4] at h3
  simp at h3

/-! ### C29: tts -/

section tts
variable {A T W : Type _} [DecidableEq A] [DecidableEq T]

/-- **C29** The approximated storage holds the labels on the path from the root to the pointer. -/
theorem C29_storage {t : TreeStack A} (h : Reachable t) : List.map some (tts.storage t) = (view t).pointer.inits.map (view t).label := by
  have hw := TreeStack.reachable_wf h
  have key : ∀ (n : Nat) (t : TreeStack A), t.parents.length = n → t.Wf →
      List.map some (tts.storage t) = (view t).pointer.inits.map (view t).label := by
    intro n
    induction n with
    | zero =>
      intro t hn hw
      have hp : t.parents = [] := List.length_eq_zero_iff.1 hn
      have h1 := TreeStack.view_below hw []
      have h2 : (view t).pointer = [] := by rw [TreeStack.pointer_eq, hp]; rfl
      rw [h2] at h1 ⊢
      rw [tts_storage, hp]
      simpa [nodeAt] using h1.symm
    | succ n ih =>
      intro t hn hw
      obtain ⟨f, ps, hp⟩ : ∃ f ps, t.parents = f :: ps := by
        cases hp : t.parents with
        | nil => simp [hp] at hn
        | cons f ps => exact ⟨f, ps, rfl⟩
      obtain ⟨s, hs⟩ : ∃ s, t.down = .ok s := ⟨_, TreeStack.down_ok.2 ⟨f, ps, hp, rfl⟩⟩
      obtain ⟨p, k, h1, h2⟩ := TreeStack.view_down hw hs
      have h3 := TreeStack.view_below hw []
      obtain ⟨f', ps', hp', rfl⟩ := TreeStack.down_ok.1 hs
      rw [hp] at hp'
      obtain ⟨rfl, rfl⟩ := List.cons.inj hp'
      have h4 := ih _ (by simp only; rw [hp] at hn; simpa using hn) (TreeStack.wf_down hw hs)
      rw [h2] at h4
      simp only [Marked.move] at h4
      rw [tts_storage] at h4 ⊢
      rw [h1, List.inits_append]
      simp only [hp, List.map_cons, List.reverse_cons, List.map_append, List.inits, List.map_nil] at h4 ⊢
      rw [h4]
      simp only [List.tail_cons, List.map_cons, List.map_nil]
      rw [← h1]
      simpa [nodeAt] using h3.symm
  exact key _ t rfl hw

/-- **C29** If an instruction leads from a tree stack to another one, its approximation leads from the approximated storage to the approximated
result, and nowhere else. -/
theorem C29_instruction (i : TsInstr A) (s s' : TreeStack A) (h : s' ∈ i.apply s) :
    (tts.instruction i).apply (tts.storage s) = [tts.storage s'] := by
  have h1 := tts_simulation.step i s s' h
  have h2 := PdInstr.apply_length (tts.instruction i) (tts.storage s)
  match hl : (tts.instruction i).apply (tts.storage s), h2 with
  | [], _ => rw [hl] at h1; simp at h1
  | [x], _ => rw [hl, List.mem_singleton] at h1; rw [h1]

/-- **C29** `tts` is an over-approximation. -/
theorem C29_simulation : Simulation (tts (A := A)) TsInstr.apply PdInstr.apply (fun t => t.isAtBottom) (fun p => p.length == 1) := tts_simulation

/-- **C29** Approximating a tree stack automaton never panics; every accepting run is mirrored by an accepting run over the same word that ends in
the approximated storage. -/
theorem C29_automaton [Mul W] [One W] [Zero W] [Add W] [DecidableEq W] (ts : List (Transition (TsInstr A) T W)) (initial : TreeStack A) :
    ∃ P m L2, approximateAutomaton tts ts initial = some (P, m) ∧ P.listTransitions = some L2 ∧ P.initialStore = some (tts.storage initial) ∧
      ∀ w run s u, (TSA.device ts initial).Accepting w run s u →
        ∃ run2, List.Forall₂ (Mirrors tts) run run2 ∧ (PDA.device L2 (tts.storage initial)).Accepting w run2 (tts.storage s) (weightOf run2) := by
  obtain ⟨P, m, hP⟩ := approximateAutomaton_isSome (Z := tts) ts (by intro t _; cases t.instruction <;> simp [tts]) initial
  obtain ⟨L2, h1, h2, h3⟩ := approximateAutomaton_built hP
  refine ⟨P, m, L2, hP, h1, PushDown.integLaws.unInteg.2 h2.init, ?_⟩
  intro w run s u hacc
  obtain ⟨ts2, h4, h5⟩ := approx_accepting tts_simulation h2 hacc
  exact ⟨ts2, h4.imp fun _ _ => And.left, h5⟩

/-- **C29** The mirrored run is at least as good if a sum is at least as good as its summands. -/
theorem C29_weight [Mul W] [One W] [Zero W] [Add W] [DecidableEq W] [Preorder W] (hl : ∀ a b : W, a ≤ a + b) (hr : ∀ a b : W, b ≤ a + b)
    (hm : ∀ a b c d : W, a ≤ b → c ≤ d → a * c ≤ b * d) {ts : List (Transition (TsInstr A) T W)} {initial : TreeStack A}
    {P : PDA A T W} {m : ReverseMap (TsInstr A) (PdInstr A) T W} (hP : approximateAutomaton tts ts initial = some (P, m))
    {L2 : List (Transition (PdInstr A) T W)} (hL : P.listTransitions = some L2) {w : List T} {run : List (Transition (TsInstr A) T W)}
    {s : TreeStack A} {u : W} (hacc : (TSA.device ts initial).Accepting w run s u) :
    ∃ run2, (PDA.device L2 (tts.storage initial)).Accepting w run2 (tts.storage s) (weightOf run2) ∧ u ≤ weightOf run2 := by
  obtain ⟨L2', h1, h2, h3⟩ := approximateAutomaton_built hP
  rw [hL, Option.some.injEq] at h1
  subst h1
  obtain ⟨ts2, h4, h5⟩ := approx_accepting tts_simulation h2 hacc
  have h6 := ((exec_iff_from _ _ _ _).1 hacc.1.1).2.2
  exact ⟨ts2, h5, h6.trans_le (weight_le hl hr hm h4)⟩

private def exTs : List (Transition (TsInstr Char) Char Nat) :=
  [⟨['a'], 2, .push 0 'i' 'p'⟩, ⟨['b'], 3, .down 'p' 'i' 'j'⟩, ⟨['c'], 5, .up 0 'j' 'p' 'q'⟩, ⟨['d'], 7, .down 'q' 'j' 'k'⟩]

example : (TSA.device exTs (.new 'i')).Language ['a', 'b', 'c', 'd'] :=
  ⟨exTs, _, _, ⟨(exec_iff _ _ _ _).2 ⟨by decide, (by decide : (⟨[], 'k', .occ 'q' .nil .nil⟩ : TreeStack Char) ∈ _), rfl⟩, by decide⟩, by decide⟩

example : ((approximateAutomaton tts exTs (.new 'i')).bind fun r => r.1.listTransitions.map fun l => l.map fun t => (t.word, t.instruction)) =
    some [(['a'], ⟨['i'], ['i', 'p']⟩), (['b'], ⟨['p', 'i'], ['j']⟩), (['c'], ⟨['j'], ['j', 'q']⟩), (['d'], ⟨['q', 'j'], ['k']⟩)] := by decide

example : tts.storage (⟨[⟨1, 'a', .occ 'b' .nil (.vac .nil)⟩], 'd', .nil⟩ : TreeStack Char) = ['a', 'd'] := by decide

end tts

/-! ### C30: relabelling -/

section relabel
variable {A B T W : Type _} [DecidableEq A] [DecidableEq B] [DecidableEq T]

/-- **C30** Relabelling is an over-approximation. -/
theorem C30_simulation (f : A → B) : Simulation (relabel f) PdInstr.apply PdInstr.apply (fun p => p.length == 1) (fun p => p.length == 1) :=
  relabel_simulation f

/-- **C30** If an instruction leads from a store to another one, its relabelling leads from the relabelled store to the relabelled result, and
nowhere else. -/
theorem C30_instruction (f : A → B) (i : PdInstr A) (s s' : PushDown A) (h : s' ∈ i.apply s) :
    ((relabel f).instruction i).apply (List.map f s) = [List.map f s'] := by
  have h1 := (relabel_simulation f).step i s s' h
  have h2 := PdInstr.apply_length ((relabel f).instruction i) ((relabel f).storage s)
  show ((relabel f).instruction i).apply ((relabel f).storage s) = [(relabel f).storage s']
  match hl : ((relabel f).instruction i).apply ((relabel f).storage s), h2 with
  | [], _ => rw [hl] at h1; simp at h1
  | [x], _ => rw [hl, List.mem_singleton] at h1; rw [h1]

/-- **C30** Relabelling a push-down automaton never panics; every accepting run is mirrored by an accepting run over the same word that ends in
the relabelled store. If no two transitions become equal up to their weights, the mirrored run has the same weight. -/
theorem C30_automaton [Mul W] [One W] [AddZeroClass W] [DecidableEq W] (f : A → B) (ts : List (Transition (PdInstr A) T W)) (initial : PushDown A)
    (P1 : PDA A T W) (hP1 : PDA.new ts initial = some P1) :
    ∃ L P m L2, P1.listTransitions = some L ∧ approximateAutomaton (relabel f) L initial = some (P, m) ∧ P.listTransitions = some L2 ∧
      P.initialStore = some (List.map f initial) ∧
      ∀ w run s u, (PDA.device L initial).Accepting w run s u →
        ∃ run2, List.Forall₂ (Mirrors (relabel f)) run run2 ∧ (PDA.device L2 (List.map f initial)).Accepting w run2 (List.map f s) (weightOf run2) ∧
          ((L.map fun t => (t.word, (relabel f).instruction t.instruction)).Nodup → weightOf run2 = u) := by
  obtain ⟨L, h0, h00⟩ := PDA.new_built hP1
  obtain ⟨P, m, hP⟩ := approximateAutomaton_isSome (Z := relabel f) L (by
    intro t ht
    have := current_of_built h00 t ht
    simpa [relabel] using this) initial
  obtain ⟨L2, h1, h2, h3⟩ := approximateAutomaton_built hP
  refine ⟨L, P, m, L2, h0, hP, h1, PushDown.integLaws.unInteg.2 h2.init, ?_⟩
  intro w run s u hacc
  obtain ⟨ts2, h4, h5⟩ := approx_accepting (relabel_simulation f) h2 hacc
  refine ⟨ts2, h4.imp fun _ _ => And.left, h5, ?_⟩
  intro hnd
  have h6 : u = weightOf run := ((exec_iff_from _ _ _ _).1 hacc.1.1).2.2
  rw [h6]
  have hnd' : ((L.map (relabel f).transition).map PDA.keyOf).Nodup := by rw [List.map_map]; exact hnd
  have key : ∀ (l1 : List (Transition (PdInstr A) T W)) (l2 : List (Transition (PdInstr B) T W)),
      List.Forall₂ (fun t t2 => Mirrors (relabel f) t t2 ∧ ∃ xs ys, t2.weight = (xs ++ t.weight :: ys).foldl (· + ·) 0) l1 l2 →
      (∀ t ∈ l1, t ∈ L) → (∀ t ∈ l2, t ∈ L2) → ∀ v : W, weightFrom v l2 = weightFrom v l1 := by
    intro l1 l2 hl
    induction hl with
    | nil => intros; rfl
    | @cons t t2 l1 l2 ht _ ih =>
      intro g1 g2 v
      have e := ih (fun t ht => g1 t (by simp [ht])) (fun t ht => g2 t (by simp [ht]))
      show weightFrom (v * t2.weight) l2 = weightFrom (v * t.weight) l1
      rw [e]
      have g3 := (h2.mem_iff hnd' t2).1 (g2 t2 (by simp))
      obtain ⟨t', g4, rfl⟩ := List.mem_map.1 g3
      have g5 : t' = t := List.inj_on_of_nodup_map hnd g4 (g1 t (by simp)) (by
        obtain ⟨⟨e1, e2⟩, _⟩ := ht
        exact Prod.ext e1 e2)
      rw [g5]; rfl
  exact key _ _ h4 hacc.1.2 h5.1.2 _

/-- **C30** The mirrored run is at least as good if a sum is at least as good as its summands. -/
theorem C30_weight [Mul W] [One W] [Zero W] [Add W] [DecidableEq W] [Preorder W] (hl : ∀ a b : W, a ≤ a + b) (hr : ∀ a b : W, b ≤ a + b)
    (hm : ∀ a b c d : W, a ≤ b → c ≤ d → a * c ≤ b * d) (f : A → B) {L : List (Transition (PdInstr A) T W)} {initial : PushDown A}
    {P : PDA B T W} {m : ReverseMap (PdInstr A) (PdInstr B) T W} (hP : approximateAutomaton (relabel f) L initial = some (P, m))
    {L2 : List (Transition (PdInstr B) T W)} (hL : P.listTransitions = some L2) {w : List T} {run : List (Transition (PdInstr A) T W)}
    {s : PushDown A} {u : W} (hacc : (PDA.device L initial).Accepting w run s u) :
    ∃ run2, (PDA.device L2 (List.map f initial)).Accepting w run2 (List.map f s) (weightOf run2) ∧ u ≤ weightOf run2 := by
  obtain ⟨L2', h1, h2, h3⟩ := approximateAutomaton_built hP
  rw [hL, Option.some.injEq] at h1
  subst h1
  obtain ⟨ts2, h4, h5⟩ := approx_accepting (relabel_simulation f) h2 hacc
  have h6 := ((exec_iff_from _ _ _ _).1 hacc.1.1).2.2
  exact ⟨ts2, h5, h6.trans_le (weight_le hl hr hm h4)⟩

private def exPd : List (Transition (PdInstr Char) Char Nat) :=
  [⟨['a'], 2, ⟨['S'], ['X']⟩⟩, ⟨['a'], 3, ⟨['S'], ['Y']⟩⟩, ⟨['b'], 5, ⟨['Y'], ['Z', 'Y']⟩⟩, ⟨['c'], 7, ⟨['Y', 'Z'], ['Z']⟩⟩]

example : (PDA.device exPd ['S']).Language ['a', 'b', 'c'] :=
  ⟨[⟨['a'], 3, ⟨['S'], ['Y']⟩⟩, ⟨['b'], 5, ⟨['Y'], ['Z', 'Y']⟩⟩, ⟨['c'], 7, ⟨['Y', 'Z'], ['Z']⟩⟩], _, _,
    ⟨(exec_iff _ _ _ _).2 ⟨by decide, (by decide : ['Z'] ∈ _), rfl⟩, by decide⟩, by decide⟩

example : ((approximateAutomaton (relabel fun c => if c = 'Y' then 'X' else c) exPd ['S']).bind fun r => r.1.listTransitions) =
    some [⟨['a'], 5, ⟨['S'], ['X']⟩⟩, ⟨['b'], 5, ⟨['X'], ['Z', 'X']⟩⟩, ⟨['c'], 7, ⟨['X', 'Z'], ['Z']⟩⟩] := by decide

end relabel

/-! ### C31: undoing an approximation -/

section unapproximate
variable {S₁ I₁ S₂ I₂ A T W : Type _} [DecidableEq A] [DecidableEq I₁] [DecidableEq I₂] [DecidableEq T] [DecidableEq W]

/-- **C31** `unapproximate_transition` gives the transitions that were mapped to the given one. -/
theorem C31_transition (Z : ApproximationStrategy S₁ I₁ S₂ I₂) (L : List (Transition I₁ T W)) (t2 : Transition I₂ T W) (t1 : Transition I₁ T W) :
    t1 ∈ unapproximateTransition (approximateTransitions Z [] L).1 t2 ↔
      t1 ∈ L ∧ t2 = ⟨t1.word, t1.weight, Z.instruction t1.instruction⟩ := by
  rw [unapproximateTransition_new, List.mem_filter]
  simp [ApproximationStrategy.transition, eq_comm]

/-- **C31** `unapproximate_run` gives the sequences of transitions that are mapped to the given run, each as often as its transitions occur in the
automaton. -/
theorem C31_run (Z : ApproximationStrategy S₁ I₁ S₂ I₂) {order : List (Pushdown (Transition I₁ T W)) → List (Pushdown (Transition I₁ T W))}
    (ho : ∀ l, (order l).Perm l) (L : List (Transition I₁ T W)) (run2 : Pushdown (Transition I₂ T W)) (r : Pushdown (Transition I₁ T W)) :
    (r ∈ unapproximateRun order (approximateTransitions Z [] L).1 run2 ↔
      List.Forall₂ (fun t1 t2 => t1 ∈ L ∧ t2 = ⟨t1.word, t1.weight, Z.instruction t1.instruction⟩) r.toVec run2.toVec) ∧
    (r ∈ unapproximateRun order (approximateTransitions Z [] L).1 run2 →
      (unapproximateRun order (approximateTransitions Z [] L).1 run2).count r = (r.toVec.map fun t => L.count t).prod) := by
  have h := mem_unapproximateRun (Z := Z) ho L run2 r
  refine ⟨?_, fun hr => count_unapproximateRun ho L run2 r (h.1 hr)⟩
  rw [h]
  constructor <;> exact fun h => h.imp fun t1 t2 ⟨h1, h2⟩ => ⟨h1, h2.symm⟩

/-- **C31** If no transition occurs twice, nothing is returned twice. -/
theorem C31_nodup (Z : ApproximationStrategy S₁ I₁ S₂ I₂) {order : List (Pushdown (Transition I₁ T W)) → List (Pushdown (Transition I₁ T W))}
    (ho : ∀ l, (order l).Perm l) (L : List (Transition I₁ T W)) (hL : L.Nodup) (run2 : Pushdown (Transition I₂ T W)) :
    (unapproximateRun order (approximateTransitions Z [] L).1 run2).Nodup := by
  rw [List.nodup_iff_count_le_one]
  intro r
  by_cases hr : r ∈ unapproximateRun order (approximateTransitions Z [] L).1 run2
  · rw [(C31_run Z ho L run2 r).2 hr]
    have h := (C31_run Z ho L run2 r).1.1 hr
    have : ∀ t ∈ r.toVec, L.count t = 1 := by
      intro t ht
      obtain ⟨t2, _, h2⟩ := forall₂_exists_right h ht
      exact List.count_eq_one_of_mem hL h2.1
    rw [List.map_congr_left this]
    simp
  · rw [List.count_eq_zero.2 hr]; omega

/-- The full claim **C31**, for the runs of the approximated automaton: the preimages of a run are the sequences of transitions that read the same
words and have the approximated instructions. -/
def C31_claim : Prop :=
  ∀ (L : List (Transition (PdInstr Char) Char Nat)) (initial : PushDown Char) (f : Char → Char) (P : PDA Char Char Nat)
    (m : ReverseMap (PdInstr Char) (PdInstr Char) Char Nat) (L2 : List (Transition (PdInstr Char) Char Nat)),
    approximateAutomaton (relabel f) L initial = some (P, m) → P.listTransitions = some L2 →
    ∀ run2 : Pushdown (Transition (PdInstr Char) Char Nat), (∀ t ∈ run2.toVec, t ∈ L2) → ∀ r : Pushdown (Transition (PdInstr Char) Char Nat),
      (r ∈ unapproximateRun id m run2 ↔ List.Forall₂ (fun t1 t2 => t1 ∈ L ∧ Mirrors (relabel f) t1 t2) r.toVec run2.toVec)

/-- **C31 is violated** if two transitions become equal up to their weights: the automaton has one transition with the sum of the weights, which
has no preimage. -/
theorem C31_violated : ¬ C31_claim := by
  intro h
  have hP : ∃ P m, approximateAutomaton (relabel fun c => if c = 'Y' then 'X' else c) exPd ['S'] = some (P, m) ∧
      P.listTransitions = some [⟨['a'], 5, ⟨['S'], ['X']⟩⟩, ⟨['b'], 5, ⟨['X'], ['Z', 'X']⟩⟩, ⟨['c'], 7, ⟨['X', 'Z'], ['Z']⟩⟩] ∧
      unapproximateRun id m (pushdownOf [⟨['a'], 5, ⟨['S'], ['X']⟩⟩]) = [] := ⟨_, _, rfl, by decide, by decide⟩
  obtain ⟨P, m, h1, h2, h3⟩ := hP
  have h4 := (h exPd ['S'] _ P m _ h1 h2 (pushdownOf [⟨['a'], 5, ⟨['S'], ['X']⟩⟩]) (by decide) (pushdownOf [⟨['a'], 2, ⟨['S'], ['X']⟩⟩])).2
    (.cons ⟨by decide, rfl, rfl⟩ .nil)
  rw [h3] at h4
  simp at h4

/-- **C31** (partial) If no two transitions become equal up to their weights, `unapproximate_run` gives exactly the preimages of the runs of the
approximated automaton, each once. -/
theorem C31_automaton_partial [AddZeroClass W] (Z : ApproximationStrategy S₁ I₁ (PushDown A) (PdInstr A))
    {order : List (Pushdown (Transition I₁ T W)) → List (Pushdown (Transition I₁ T W))} (ho : ∀ l, (order l).Perm l)
    {L : List (Transition I₁ T W)} (hnd : (L.map fun t => (t.word, Z.instruction t.instruction)).Nodup) {initial : S₁}
    {P : PDA A T W} {m : ReverseMap I₁ (PdInstr A) T W} (hP : approximateAutomaton Z L initial = some (P, m))
    {L2 : List (Transition (PdInstr A) T W)} (hL : P.listTransitions = some L2)
    (run2 : Pushdown (Transition (PdInstr A) T W)) (hrun : ∀ t ∈ run2.toVec, t ∈ L2) (r : Pushdown (Transition I₁ T W)) :
    (unapproximateRun order m run2).Nodup ∧
    (r ∈ unapproximateRun order m run2 ↔ List.Forall₂ (fun t1 t2 => t1 ∈ L ∧ Mirrors Z t1 t2) r.toVec run2.toVec) := by
  obtain ⟨L2', h1, h2, rfl⟩ := approximateAutomaton_built hP
  rw [hL, Option.some.injEq] at h1
  subst h1
  refine ⟨C31_nodup Z ho L (.of_map _ hnd) run2, ?_⟩
  rw [(C31_run Z ho L run2 r).1]
  have hnd' : ((L.map Z.transition).map PDA.keyOf).Nodup := by rw [List.map_map]; exact hnd
  have key : ∀ (l1 : List (Transition I₁ T W)) (l2 : List (Transition (PdInstr A) T W)), (∀ t ∈ l2, t ∈ L2) →
      List.Forall₂ (fun t1 t2 => t1 ∈ L ∧ Mirrors Z t1 t2) l1 l2 →
      List.Forall₂ (fun t1 t2 => t1 ∈ L ∧ t2 = ⟨t1.word, t1.weight, Z.instruction t1.instruction⟩) l1 l2 := by
    intro l1 l2 hl2 hl
    induction hl with
    | nil => exact .nil
    | @cons t1 t2 l1 l2 ht _ ih =>
      refine .cons ⟨ht.1, ?_⟩ (ih fun t ht => hl2 t (by simp [ht]))
      obtain ⟨t', g4, rfl⟩ := List.mem_map.1 ((h2.mem_iff hnd' t2).1 (hl2 t2 (by simp)))
      have g5 : t' = t1 := List.inj_on_of_nodup_map hnd g4 ht.1 (Prod.ext ht.2.1 ht.2.2)
      rw [g5]; rfl
  constructor
  · exact fun h => h.imp fun t1 t2 ⟨h1, h2⟩ => ⟨h1, by rw [h2], by rw [h2]⟩
  · exact key _ _ hrun

example : (exPd.map fun t => (t.word, (relabel fun c : Char => if c = 'Z' then 'S' else c).instruction t.instruction)).Nodup ∧
    ((approximateAutomaton (relabel fun c : Char => if c = 'Z' then 'S' else c) exPd ['S']).map fun r =>
      (unapproximateRun id r.2 (pushdownOf [⟨['a'], 3, ⟨['S'], ['Y']⟩⟩, ⟨['b'], 5, ⟨['Y'], ['S', 'Y']⟩⟩])).map Pushdown.toVec) =
      some [[⟨['a'], 3, ⟨['S'], ['Y']⟩⟩, ⟨['b'], 5, ⟨['Y'], ['Z', 'Y']⟩⟩]] := by decide

end unapproximate

/-! ### C32: coarse-to-fine recognition -/

section ctf
variable {S₁ I₁ S₂ I₂ A T W H : Type _} [DecidableEq S₁] [DecidableEq I₁] [DecidableEq I₂] [DecidableEq A] [DecidableEq T] [DecidableEq W]

private theorem drain_short {X : Type _} {G : Agenda H X} {content : H → Multiset X} (hG : G.Lossless content) (n : Nat) (h : H)
    (hn : (CtfState.drain G n h).length < n) : content h = (CtfState.drain G n h : Multiset X) := by
  induction n generalizing h with
  | zero => simp at hn
  | succ n ih =>
    simp only [CtfState.drain] at hn ⊢
    cases hp : G.pop h with
    | none => simp [hG.pop_none h hp]
    | some x =>
      obtain ⟨x, h'⟩ := x
      rw [hp] at hn
      simp only [List.length_cons, Nat.add_lt_add_iff_right] at hn
      rw [hG.pop_some h x h' hp, ih h' hn]
      rfl

/-- **C32** What coarse-to-fine recognition returns: the runs of the fine automaton that are mapped to the first coarse parse and whose
instructions are executable; items come in non-increasing weight. -/
theorem C32_items [Mul W] [One W] [Preorder W] [DecidableRel (α := W) (· < ·)] (Z : ApproximationStrategy S₁ I₁ S₂ I₂) (ap₁ : I₁ → S₁ → List S₁)
    {order : List (Pushdown (Transition I₁ T W)) → List (Pushdown (Transition I₁ T W))} (ho : ∀ l, (order l).Perm l)
    {G : Agenda H (Item S₁ I₁ T W)} {content : H → Multiset (Item S₁ I₁ T W)} (hG : HeapLaws G content (fun i => i.conf.weight))
    {empty : H} (hempty : content empty = 0) (L : List (Transition I₁ T W)) (initial : S₁) (coarse : List (Item S₂ I₂ T W)) (n : Nat)
    {out : List (Item S₁ I₁ T W)} (hout : out = ctfRecognise G empty order ap₁ initial (approximateTransitions Z [] L).1 coarse n) :
    out.Pairwise (fun i j => j.conf.weight ≤ i.conf.weight) ∧
    (∀ i ∈ out, ∃ c ∈ coarse.head?, i.conf.word = [] ∧ i.conf.weight = weightOf i.run.toVec ∧
        i.conf.storage ∈ storages ap₁ (i.run.toVec.map Transition.instruction) initial ∧
        List.Forall₂ (fun t1 t2 => t1 ∈ L ∧ Z.transition t1 = t2) i.run.toVec c.run.toVec) ∧
    (out.length < n → ∀ i, ∀ c ∈ coarse.head?, i.conf.word = [] → i.conf.weight = weightOf i.run.toVec →
        List.Forall₂ (fun t1 t2 => t1 ∈ L ∧ Z.transition t1 = t2) i.run.toVec c.run.toVec →
        out.count i = (i.run.toVec.map fun t => L.count t).prod * (storages ap₁ (i.run.toVec.map Transition.instruction) initial).count i.conf.storage) := by
  have he : G.pop empty = none := by
    cases hp : G.pop empty with
    | none => rfl
    | some x =>
      have := hG.lossless.pop_some empty x.1 x.2 hp
      rw [hempty] at this
      exact absurd this.symm (Multiset.cons_ne_zero)
  unfold ctfRecognise at hout
  rw [CtfState.take_eq _ _ _ _ _ _ _ he] at hout
  subst hout
  have hc : content (G.extend empty (coarse.head?.toList.flatMap (ctfFine order ap₁ initial (approximateTransitions Z [] L).1))) =
      (coarse.head?.toList.flatMap (ctfFine order ap₁ initial (approximateTransitions Z [] L).1) : Multiset (Item S₁ I₁ T W)) := by
    rw [hG.lossless.extend, hempty, zero_add]
  refine ⟨drain_sorted hG _ _, ?_, ?_⟩
  · intro i hi
    obtain ⟨rest, h1, _⟩ := drain_le hG.lossless n (G.extend empty (coarse.head?.toList.flatMap (ctfFine order ap₁ initial (approximateTransitions Z [] L).1)))
    have h2 : i ∈ content (G.extend empty (coarse.head?.toList.flatMap (ctfFine order ap₁ initial (approximateTransitions Z [] L).1))) := by
      rw [h1]; exact Multiset.mem_add.2 (.inl (Multiset.mem_coe.2 hi))
    rw [hc, Multiset.mem_coe] at h2
    obtain ⟨c, hc1, hc2⟩ := List.mem_flatMap.1 h2
    refine ⟨c, by simpa using hc1, ?_⟩
    obtain ⟨r, hr1, hr2⟩ := List.mem_flatMap.1 hc2
    unfold Automaton.checkRun at hr2
    rw [checkRunLoop_eq] at hr2
    simp only [one_mul, List.flatMap_cons, List.flatMap_nil, List.append_nil] at hr2
    obtain ⟨s, hs, rfl⟩ := List.mem_map.1 hr2
    exact ⟨rfl, rfl, hs, (mem_unapproximateRun ho L c.run r).1 hr1⟩
  · intro hn i c hcc hw hu hf
    have h1 := drain_short hG.lossless n _ hn
    rw [hc] at h1
    rw [← Multiset.coe_count, ← h1, Multiset.coe_count]
    have hcl : coarse.head?.toList = [c] := by
      rw [Option.mem_def.1 hcc]; rfl
    rw [hcl, List.flatMap_cons, List.flatMap_nil, List.append_nil, ctfFine, count_flatMap_runs, if_pos ⟨hw, hu⟩, count_unapproximateRun ho L c.run i.run hf]

/-- **C32** Coarse-to-fine recognition is sound, whatever recogniser gives the coarse parses: every returned item carries an accepting run of the fine automaton on the word,
and items come in non-increasing weight. -/
theorem C32_step_sound [Mul W] [One W] [Zero W] [Add W] [Preorder W] [DecidableRel (α := W) (· < ·)] {Z : ApproximationStrategy S₁ I₁ (PushDown A) (PdInstr A)}
    {ap₁ : I₁ → S₁ → List S₁} {acc₁ : S₁ → Bool} (hsim : Simulation Z ap₁ PdInstr.apply acc₁ (fun p => p.length == 1))
    {order : List (Pushdown (Transition I₁ T W)) → List (Pushdown (Transition I₁ T W))} (ho : ∀ l, (order l).Perm l)
    {G : Agenda H (Item S₁ I₁ T W)} {content : H → Multiset (Item S₁ I₁ T W)} (hG : HeapLaws G content (fun i => i.conf.weight))
    {empty : H} (hempty : content empty = 0) {L : List (Transition I₁ T W)} {initial : S₁}
    {P : PDA A T W} {m : ReverseMap I₁ (PdInstr A) T W} (hP : approximateAutomaton Z L initial = some (P, m)) {L2 : List (Transition (PdInstr A) T W)}
    {w : List T} {n : Nat} {coarse : List (Item (PushDown A) (PdInstr A) T W)}
    (hcoarse : ∀ c ∈ coarse, (PDA.device L2 (Z.storage initial)).Accepting w c.run.toVec c.conf.storage c.conf.weight) :
    (ctfRecognise G empty order ap₁ initial m coarse n).Pairwise (fun i j => j.conf.weight ≤ i.conf.weight) ∧
    ∀ i ∈ ctfRecognise G empty order ap₁ initial m coarse n,
      i.conf.word = [] ∧ Device.Accepting ⟨ap₁, L, initial, acc₁⟩ w i.run.toVec i.conf.storage i.conf.weight := by
  obtain ⟨_, _, _, rfl⟩ := approximateAutomaton_built hP
  obtain ⟨h3, h4, _⟩ := C32_items Z ap₁ ho hG hempty L initial coarse n rfl
  refine ⟨h3, fun i hi => ?_⟩
  obtain ⟨c, hc, g1, g2, g3, g4⟩ := h4 i hi
  have hcm : c ∈ coarse := List.mem_of_mem_head? hc
  obtain ⟨⟨h5, h6⟩, h7⟩ := hcoarse c hcm
  have hm : List.Forall₂ (Mirrors Z) i.run.toVec c.run.toVec := g4.imp fun t1 t2 ⟨_, h⟩ => by rw [← h]; exact ⟨rfl, rfl⟩
  obtain ⟨h8, h9⟩ := hsim.accepting hm h5 h7 g3
  refine ⟨g1, ⟨by rw [g2]; exact h8, ?_⟩, h9⟩
  intro t ht
  obtain ⟨_, _, h10⟩ := forall₂_exists_right g4 ht
  exact h10.1

/-- **C32** Coarse-to-fine recognition is sound: every returned item carries an accepting run of the fine automaton on the word, and items come in
non-increasing weight. -/
theorem C32_sound [Mul W] [One W] [Zero W] [Add W] [Preorder W] [DecidableRel (α := W) (· < ·)] {Z : ApproximationStrategy S₁ I₁ (PushDown A) (PdInstr A)}
    {ap₁ : I₁ → S₁ → List S₁} {acc₁ : S₁ → Bool} (hsim : Simulation Z ap₁ PdInstr.apply acc₁ (fun p => p.length == 1))
    {order : List (Pushdown (Transition I₁ T W)) → List (Pushdown (Transition I₁ T W))} (ho : ∀ l, (order l).Perm l)
    {G : Agenda H (Item S₁ I₁ T W)} {content : H → Multiset (Item S₁ I₁ T W)} (hG : HeapLaws G content (fun i => i.conf.weight))
    {empty : H} (hempty : content empty = 0) {L : List (Transition I₁ T W)} {initial : S₁}
    {P : PDA A T W} {m : ReverseMap I₁ (PdInstr A) T W} (hP : approximateAutomaton Z L initial = some (P, m))
    {H₂ : Type _} {G₂ : Agenda H₂ (Item (PushDown Nat) (PdInstr Nat) Nat W)} {content₂ : H₂ → Multiset (Item (PushDown Nat) (PdInstr Nat) Nat W)}
    (hG₂ : G₂.Sound content₂) {empty₂ : H₂} (hempty₂ : content₂ empty₂ = 0) {w : List T} {n₂ n : Nat} {coarse : List (Item (PushDown A) (PdInstr A) T W)} {a : H₂}
    (hcoarse : P.recognise G₂ empty₂ w n₂ = some (coarse, a)) :
    (ctfRecognise G empty order ap₁ initial m coarse n).Pairwise (fun i j => j.conf.weight ≤ i.conf.weight) ∧
    ∀ i ∈ ctfRecognise G empty order ap₁ initial m coarse n,
      i.conf.word = [] ∧ Device.Accepting ⟨ap₁, L, initial, acc₁⟩ w i.run.toVec i.conf.storage i.conf.weight := by
  obtain ⟨L2, h1, h2, _⟩ := approximateAutomaton_built hP
  exact C32_step_sound hsim ho hG hempty hP fun c hc => (h2.represents.sound hG₂ hempty₂ hcoarse c hc).2

/-- The full claim **C32**: coarse-to-fine recognition finds what recognition with the fine automaton finds. -/
def C32_claim : Prop :=
  ∀ (ts : List (Transition (PdInstr Char) Char Nat)) (initial : PushDown Char) (f : Char → Char) (w : List Char)
    (P1 P : PDA Char Char Nat) (L : List (Transition (PdInstr Char) Char Nat)) (m : ReverseMap (PdInstr Char) (PdInstr Char) Char Nat)
    (fine coarse : List (Item (PushDown Char) (PdInstr Char) Char Nat)) (n : Nat),
    PDA.new ts initial = some P1 → P1.listTransitions = some L → approximateAutomaton (relabel f) L initial = some (P, m) →
    P1.recognise (listHeap fun i => i.conf.weight) [] w n = some (fine, []) →
    P.recognise (listHeap fun i => i.conf.weight) [] w n = some (coarse, []) →
    ∀ k > fine.length, ∀ i, i ∈ ctfRecognise (listHeap fun i => i.conf.weight) [] id PdInstr.apply initial m coarse k ↔ i ∈ fine

/-- **C32 is violated** if there are two coarse parses: only the first one is considered. -/
theorem C32_violated : ¬ C32_claim := by
  intro h
  have hw : ∃ P1 P L m fine coarse, PDA.new [⟨['a'], 2, ⟨['S'], ['X']⟩⟩, ⟨['a'], 3, ⟨['S'], ['Y']⟩⟩] ['S'] = some P1 ∧
      P1.listTransitions = some L ∧ approximateAutomaton (relabel fun c : Char => c) L ['S'] = some (P, m) ∧
      P1.recognise (listHeap fun i => i.conf.weight) [] ['a'] 10 = some (fine, []) ∧
      P.recognise (listHeap fun i => i.conf.weight) [] ['a'] 10 = some (coarse, []) ∧
      fine.length = 2 ∧ (⟨⟨[], ['X'], 2⟩, .cons ⟨['a'], 2, ⟨['S'], ['X']⟩⟩ .empty⟩ : Item (PushDown Char) (PdInstr Char) Char Nat) ∈ fine ∧
      (⟨⟨[], ['X'], 2⟩, .cons ⟨['a'], 2, ⟨['S'], ['X']⟩⟩ .empty⟩ : Item (PushDown Char) (PdInstr Char) Char Nat) ∉
        ctfRecognise (listHeap fun i => i.conf.weight) [] id PdInstr.apply ['S'] m coarse 3 :=
    ⟨_, _, _, _, _, _, rfl, rfl, rfl, rfl, rfl, by decide, by decide, by decide⟩
  obtain ⟨P1, P, L, m, fine, coarse, h1, h2, h3, h4, h5, h6, h7, h8⟩ := hw
  exact h8 ((h _ _ _ _ _ _ _ _ _ _ _ h1 h2 h3 h4 h5 3 (by omega) _).2 h7)

/-- **C32** (partial) If no two transitions become equal up to their weights and the coarse recogniser, whatever it is, gives all coarse parses and at most one, coarse-to-fine
recognition returns exactly the accepting runs of the fine automaton, as often as the run's transitions occur and can be executed. -/
theorem C32_step_exact_partial [Mul W] [One W] [AddZeroClass W] [Preorder W] [DecidableRel (α := W) (· < ·)]
    {Z : ApproximationStrategy S₁ I₁ (PushDown A) (PdInstr A)}
    {ap₁ : I₁ → S₁ → List S₁} {acc₁ : S₁ → Bool} (hsim : Simulation Z ap₁ PdInstr.apply acc₁ (fun p => p.length == 1))
    {order : List (Pushdown (Transition I₁ T W)) → List (Pushdown (Transition I₁ T W))} (ho : ∀ l, (order l).Perm l)
    {G : Agenda H (Item S₁ I₁ T W)} {content : H → Multiset (Item S₁ I₁ T W)} (hG : HeapLaws G content (fun i => i.conf.weight))
    {empty : H} (hempty : content empty = 0) {L : List (Transition I₁ T W)}
    (hnd : (L.map fun t => (t.word, Z.instruction t.instruction)).Nodup) {initial : S₁}
    {P : PDA A T W} {m : ReverseMap I₁ (PdInstr A) T W} (hP : approximateAutomaton Z L initial = some (P, m))
    {L2 : List (Transition (PdInstr A) T W)} (hL2 : P.listTransitions = some L2) {w : List T} {n : Nat} {coarse : List (Item (PushDown A) (PdInstr A) T W)}
    (hcoarse : ∀ c, c ∈ coarse ↔ c.conf.word = [] ∧ (PDA.device L2 (Z.storage initial)).Accepting w c.run.toVec c.conf.storage c.conf.weight) (hone : coarse.length ≤ 1)
    (hn : (ctfRecognise G empty order ap₁ initial m coarse n).length < n) (i : Item S₁ I₁ T W) :
    i ∈ ctfRecognise G empty order ap₁ initial m coarse n ↔
      i.conf.word = [] ∧ Device.Accepting ⟨ap₁, L, initial, acc₁⟩ w i.run.toVec i.conf.storage i.conf.weight := by
  refine ⟨(C32_step_sound hsim ho hG hempty hP fun c hc => ((hcoarse c).1 hc).2).2 i, ?_⟩
  rintro ⟨g1, hacc⟩
  obtain ⟨L2', h1, h2, rfl⟩ := approximateAutomaton_built hP
  rw [hL2, Option.some.injEq] at h1
  subst h1
  obtain ⟨_, _, h4⟩ := C32_items Z ap₁ ho hG hempty L initial coarse n rfl
  obtain ⟨⟨e1, e2⟩, e3⟩ := hacc
  obtain ⟨f1, f2, f3⟩ := (exec_iff_from _ _ _ _).1 e1
  have hnd' : ((L.map Z.transition).map PDA.keyOf).Nodup := by rw [List.map_map]; exact hnd
  have hm : List.Forall₂ (Mirrors Z) i.run.toVec (i.run.toVec.map Z.transition) := by
    rw [List.forall₂_map_right_iff]
    exact List.forall₂_same.2 fun _ _ => ⟨rfl, rfl⟩
  have hex := hcoarse
    ⟨⟨[], Z.storage i.conf.storage, weightOf (i.run.toVec.map Z.transition)⟩, pushdownOf (i.run.toVec.map Z.transition)⟩
  have hv : (pushdownOf (i.run.toVec.map Z.transition)).toVec = i.run.toVec.map Z.transition := by
    unfold pushdownOf; rw [Pushdown.toVec_foldl]; simp
  have hin := hex.2 ⟨rfl, by
    simp only [hv]
    refine ⟨⟨hsim.exec hm e1, ?_⟩, ?_⟩
    · intro t ht
      obtain ⟨t1, ht1, rfl⟩ := List.mem_map.1 ht
      exact (h2.mem_iff hnd' _).2 (List.mem_map.2 ⟨t1, e2 t1 ht1, rfl⟩)
    · have := hsim.acc i.conf.storage
      simp only at this e3
      simp only [PDA.device, this, e3]⟩
  have hhead : coarse.head? = some ⟨⟨[], Z.storage i.conf.storage, weightOf (i.run.toVec.map Z.transition)⟩, pushdownOf (i.run.toVec.map Z.transition)⟩ := by
    match coarse, hone, hin with
    | [x], _, hin => rw [List.mem_singleton.1 hin]; rfl
  have hf : List.Forall₂ (fun t1 t2 => t1 ∈ L ∧ Z.transition t1 = t2) i.run.toVec (i.run.toVec.map Z.transition) := by
    rw [List.forall₂_map_right_iff]
    exact List.forall₂_same.2 fun t ht => ⟨e2 t ht, rfl⟩
  have hcount := h4 hn i _ (Option.mem_def.2 hhead) g1 f3 (by simp only [hv]; exact hf)
  rw [← List.count_pos_iff, hcount]
  refine Nat.mul_pos ?_ (List.count_pos_iff.2 f2)
  have : ∀ l : List (Transition I₁ T W), (∀ t ∈ l, t ∈ L) → 0 < (l.map fun t => L.count t).prod := by
    intro l hl
    induction l with
    | nil => simp
    | cons t l ih =>
      rw [List.map_cons, List.prod_cons]
      exact Nat.mul_pos (List.count_pos_iff.2 (hl t (by simp))) (ih fun t ht => hl t (by simp [ht]))
  exact this _ e2

/-- **C32** (partial) If no two transitions become equal up to their weights and the coarse automaton has at most one parse, coarse-to-fine
recognition returns exactly the accepting runs of the fine automaton. -/
theorem C32_exact_partial [Mul W] [One W] [AddZeroClass W] [Preorder W] [DecidableRel (α := W) (· < ·)]
    {Z : ApproximationStrategy S₁ I₁ (PushDown A) (PdInstr A)}
    {ap₁ : I₁ → S₁ → List S₁} {acc₁ : S₁ → Bool} (hsim : Simulation Z ap₁ PdInstr.apply acc₁ (fun p => p.length == 1))
    {order : List (Pushdown (Transition I₁ T W)) → List (Pushdown (Transition I₁ T W))} (ho : ∀ l, (order l).Perm l)
    {G : Agenda H (Item S₁ I₁ T W)} {content : H → Multiset (Item S₁ I₁ T W)} (hG : HeapLaws G content (fun i => i.conf.weight))
    {empty : H} (hempty : content empty = 0) {L : List (Transition I₁ T W)}
    (hnd : (L.map fun t => (t.word, Z.instruction t.instruction)).Nodup) {initial : S₁}
    {P : PDA A T W} {m : ReverseMap I₁ (PdInstr A) T W} (hP : approximateAutomaton Z L initial = some (P, m))
    {H₂ : Type _} {G₂ : Agenda H₂ (Item (PushDown Nat) (PdInstr Nat) Nat W)} {content₂ : H₂ → Multiset (Item (PushDown Nat) (PdInstr Nat) Nat W)}
    (hG₂ : G₂.Lossless content₂) {empty₂ : H₂} (hempty₂ : content₂ empty₂ = 0) {w : List T} {n₂ n : Nat} {coarse : List (Item (PushDown A) (PdInstr A) T W)}
    {a : H₂} (hcoarse : P.recognise G₂ empty₂ w n₂ = some (coarse, a)) (hend : G₂.pop a = none) (hone : coarse.length ≤ 1)
    (hn : (ctfRecognise G empty order ap₁ initial m coarse n).length < n) (i : Item S₁ I₁ T W) :
    i ∈ ctfRecognise G empty order ap₁ initial m coarse n ↔
      i.conf.word = [] ∧ Device.Accepting ⟨ap₁, L, initial, acc₁⟩ w i.run.toVec i.conf.storage i.conf.weight := by
  obtain ⟨L2, h1, h2, _⟩ := approximateAutomaton_built hP
  exact C32_step_exact_partial hsim ho hG hempty hnd hP h1 (h2.represents.exact_runs h2.coherent hG₂ hempty₂ hcoarse hend) hone hn i

/-- **C32** The loop of `next` ends after at most three iterations, whatever the state. -/
theorem C32_terminates {X₁ X₂ : Type _} [LT W] [DecidableRel (α := W) (· < ·)] (G : Agenda H X₁) (weight₁ : X₁ → W) (weight₂ : X₂ → W)
    (fine : X₂ → List X₁) (s : CtfState H X₂) (n : Nat) :
    CtfState.loop G weight₁ weight₂ fine (n + 3) s = CtfState.loop G weight₁ weight₂ fine 3 s ∧ CtfState.loop G weight₁ weight₂ fine 3 s ≠ none :=
  CtfState.loop_terminates G weight₁ weight₂ fine s n

example : (exTs.map fun t => (t.word, tts.instruction t.instruction)).Nodup ∧
    ((approximateAutomaton tts exTs (.new 'i')).bind fun r =>
      (r.1.recognise (vecAgenda _) [] ['a', 'b', 'c', 'd'] 10).map fun q =>
        (q.1.length, q.2.length, (ctfRecognise (listHeap fun i => i.conf.weight) [] id TsInstr.apply (.new 'i') r.2 q.1 5).map fun i => i.conf.weight)) =
      some (1, 0, [210]) := by decide

end ctf

/-! ### C52: equivalence relations -/

section equivalence
variable {A B : Type _} [DecidableEq A] [DecidableEq B]
open EquivalenceRelation

/-- **C52** `new_safe` succeeds iff no class is called like the default class and the classes are disjoint. -/
theorem C52_new_safe (classes : List (B × List A)) (default : B) :
    (∃ r, newSafe classes default = .ok r) ↔ (∀ c ∈ classes, c.1 ≠ default) ∧ (classes.flatMap Prod.snd).Nodup := by
  have h := addClasses_ok default classes ([] : List (A × B))
  constructor
  · rintro ⟨r, hr⟩
    obtain ⟨h1, h2, _⟩ := h.1 ⟨_, (newSafe_ok.1 hr).1⟩
    exact ⟨h1, h2⟩
  · rintro ⟨h1, h2⟩
    obtain ⟨m, hm⟩ := h.2 ⟨h1, h2, fun a _ => rfl⟩
    exact ⟨⟨m, default⟩, newSafe_ok.2 ⟨hm, rfl⟩⟩

/-- **C52** `project` gives the class of an element, which is the default class for elements without class. -/
theorem C52_project {classes : List (B × List A)} {default : B} {r : EquivalenceRelation A B} (h : newSafe classes default = .ok r) (a : A) (b : B) :
    r.project a = b ↔ ClassOf classes default a b := newSafe_project h a b

/-- **C52** A relation made from a vector of classes: it panics iff there is no default class; the last class that contains an element wins. -/
theorem C52_from_classes (cs : List (B × Option (List A))) :
    (fromClasses cs = none ↔ ∀ c ∈ cs, c.2 ≠ none) ∧
    ∀ r, fromClasses cs = some r → ∀ a, some (r.project a) =
      match (cs.filter fun c => c.2.any fun es => a ∈ es).getLast? with
      | some c => some c.1
      | none => (cs.filter fun c => c.2.isNone).getLast?.map Prod.fst := by
  have key : ∀ cs : List (B × Option (List A)),
      let r := cs.foldl fromClassesStep (([] : List (A × B)), none)
      (∀ a, get r.1 a = (cs.filter fun c => c.2.any fun es => a ∈ es).getLast?.map Prod.fst) ∧
      r.2 = (cs.filter fun c => c.2.isNone).getLast?.map Prod.fst := by
    intro cs
    induction cs using List.reverseRecOn with
    | nil => exact ⟨fun a => rfl, rfl⟩
    | append_singleton cs c ih =>
      obtain ⟨ih1, ih2⟩ := ih
      obtain ⟨b, o⟩ := c
      simp only [List.foldl_append, List.foldl_cons, List.foldl_nil, List.filter_append]
      cases o with
      | none => exact ⟨fun a => by simpa [fromClassesStep] using ih1 a, by simp [fromClassesStep]⟩
      | some es =>
        refine ⟨fun a => ?_, by simpa [fromClassesStep] using ih2⟩
        simp only [fromClassesStep, foldl_insert_get, ih1]
        by_cases ha : a ∈ es <;> simp [ha]
  obtain ⟨h1, h2⟩ := key cs
  constructor
  · unfold fromClasses
    simp only [Option.map_eq_none_iff]
    rw [h2]
    simp [Option.isNone_iff_eq_none]
  · intro r hr a
    unfold fromClasses at hr
    obtain ⟨d, hd, rfl⟩ := Option.map_eq_some_iff.1 hr
    unfold project
    simp only
    rw [h1 a, ← h2, hd]
    cases (cs.filter fun c => c.2.any fun es => a ∈ es).getLast? <;> simp

/-- The full claim **C52** for relations read from a string: an element is in the class of the line that lists it. -/
def C52_lines_claim : Prop :=
  ∀ (cs : List (Nat × Option (List Nat))) (r : EquivalenceRelation Nat Nat), fromLines cs = some r →
    ∀ b es a, (b, some es) ∈ cs → a ∈ es → r.project a = b

/-- **C52 is violated** if two lines have the same label: the later one replaces the earlier one. -/
theorem C52_lines_violated : ¬ C52_lines_claim := by
  intro h
  have := h [(1, some [10]), (1, some [11]), (0, none)] ⟨[(11, 1)], 0⟩ rfl 1 [10] 10 (by decide) (by decide)
  revert this
  decide

/-- **C52** (partial) If the labels are distinct and there is one default class, reading gives the relation that is written down. -/
theorem C52_lines_partial (classes : List (B × List A)) (default : B) (hnd : (classes.map Prod.fst).Nodup) (cs : List (B × Option (List A)))
    (hcs : cs.Perm ((default, none) :: classes.map fun c => (c.1, some c.2))) :
    ((fromLines cs).isSome ↔ (∀ c ∈ classes, c.1 ≠ default) ∧ (classes.flatMap Prod.snd).Nodup) ∧
    ∀ r, fromLines cs = some r → ∀ a b, r.project a = b ↔ ClassOf classes default a b := by
  have key : ∀ cs : List (B × Option (List A)), ((cs.filterMap fun c => c.2.map fun es => (c.1, es)).map Prod.fst).Nodup →
      cs.foldl fromLinesStep ([], none) =
      (cs.filterMap fun c => c.2.map fun es => (c.1, es), (cs.filter fun c => c.2.isNone).getLast?.map Prod.fst) := by
    intro cs
    induction cs using List.reverseRecOn with
    | nil => intro _; rfl
    | append_singleton cs c ih =>
      intro hnd
      obtain ⟨b, o⟩ := c
      simp only [List.filterMap_append, List.map_append] at hnd
      have ih' := ih (List.Nodup.of_append_left hnd)
      simp only [List.foldl_append, List.foldl_cons, List.foldl_nil, List.filter_append, List.filterMap_append]
      rw [ih']
      cases o with
      | none => simp [fromLinesStep]
      | some es =>
        simp only [List.filterMap_cons, Option.map_some, List.filterMap_nil, List.map_cons, List.map_nil, fromLinesStep] at hnd ⊢
        rw [upd_new]
        · simp
        · intro hb
          exact (List.nodup_append.1 hnd).2.2 b hb b (by simp) rfl
  have hp := hcs.filterMap fun c => c.2.map fun es => (c.1, es)
  have hp' : (cs.filterMap fun c => c.2.map fun es => (c.1, es)).Perm classes := by
    refine hp.trans (.of_eq ?_)
    simp only [List.filterMap_cons, Option.map_none, List.filterMap_map]
    induction classes with
    | nil => rfl
    | cons c cs _ => simp [Function.comp_def]
  have hk := key cs ((hp'.map Prod.fst).nodup_iff.2 hnd)
  have hd : (cs.filter fun c => c.2.isNone) = [(default, none)] := by
    have := hcs.filter fun c => c.2.isNone
    have h0 : (((default, none) :: classes.map fun c => (c.1, some c.2)).filter fun c : B × Option (List A) => c.2.isNone) = [(default, none)] := by
      simp [List.filter_map, Function.comp_def]
    rw [h0] at this
    exact List.perm_singleton.1 this
  rw [hd] at hk
  have hfl : fromLines cs = (newSafe (cs.filterMap fun c => c.2.map fun es => (c.1, es)) default).toOption := by
    unfold fromLines
    simp only
    rw [hk]
    rfl
  have hcls : ∀ (a : A) (b : B), ClassOf (cs.filterMap fun c => c.2.map fun es => (c.1, es)) default a b ↔ ClassOf classes default a b := by
    intro a b
    simp only [ClassOf, hp'.mem_iff]
  rw [hfl]
  constructor
  · have h := C52_new_safe (cs.filterMap fun c => c.2.map fun es => (c.1, es)) default
    rw [(hp'.flatMap_right Prod.snd).nodup_iff] at h
    simp only [hp'.mem_iff] at h
    rw [← h]
    cases newSafe (cs.filterMap fun c => c.2.map fun es => (c.1, es)) default <;> simp [Except.toOption]
  · intro r hr a b
    rw [← hcls]
    apply newSafe_project
    revert hr
    cases newSafe (cs.filterMap fun c => c.2.map fun es => (c.1, es)) default <;> simp [Except.toOption]

example : (newSafe [('x', [1, 2]), ('y', [3])] 'd').toOption.map (fun r => [1, 2, 3, 4].map r.project) = some ['x', 'x', 'y', 'd'] ∧
    (newSafe [('x', [1, 2]), ('y', [2])] 'd').toOption.isNone ∧ (newSafe [('x', [1, 2]), ('d', [3])] 'd').toOption.isNone ∧
    (fromLines [('x', some [1, 2]), ('d', none), ('y', some [3])]).map (fun r => [1, 2, 3, 4].map r.project) = some ['x', 'x', 'y', 'd'] ∧
    (fromClasses [('x', some [1, 2]), ('d', none), ('y', some [2])]).map (fun r => [1, 2, 3, 4].map r.project) = some ['x', 'y', 'd', 'd'] := by decide

end equivalence

end Rustomata.Props
