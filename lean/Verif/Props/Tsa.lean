import Verif.Proofs.Tsa
import Verif.Proofs.Outer
import Verif.Proofs.Terminate
import Verif.Spec.Integerise
import Verif.Spec.Tsa

/-!
# Properties C15–C18, C27, C51: tree stacks and tree stack automata
-/

set_option linter.unusedSectionVars false

namespace Rustomata.Props
open Spec

/-! ### C27: tree stacks -/

section treestack
variable {A : Type _}

/-- **C27** A new tree stack is one node with the pointer on it. -/
theorem C27_new (a : A) : view (TreeStack.new a) = ⟨fun p => if p = [] then some a else none, []⟩ := by
  refine TreeStack.Marked.ext rfl ?_
  intro p
  simp [view, TreeStack.new, TreeStack.toTree, TreeStack.parentsToTree, TreeStack.insertForest, GornTree.insert, GornTree.get]

/-- **C27** The pointer is always inside of the tree, `current_symbol` is the label there and `is_at_bottom` tests for the root. -/
theorem C27_pointer {t : TreeStack A} (h : Reachable t) :
    (view t).label (view t).pointer = some t.currentSymbol ∧ (t.isAtBottom = true ↔ (view t).pointer = []) := by
  constructor
  · have := TreeStack.view_below (TreeStack.reachable_wf h) []
    rw [List.append_nil] at this
    rw [this]; rfl
  · rw [TreeStack.pointer_eq, TreeStack.isAtBottom, List.isEmpty_iff]
    cases t.parents with
    | nil => simp [TreeStack.parentsToTree]
    | cons f ps => simp [TreeStack.parentsToTree]

private theorem nodeAt_prefix (p : List Nat) : ∀ (v : A) (c : Forest A) (q : List Nat), nodeAt v c (p ++ q) ≠ none → nodeAt v c p ≠ none := by
  induction p with
  | nil => intro v c q _; simp [nodeAt]
  | cons n p ih =>
    intro v c q h
    rw [List.cons_append, nodeAt] at h
    rw [nodeAt]
    cases hs : c.slot n with
    | none => simp [hs] at h
    | some x => rw [hs] at h; exact ih _ _ _ h

private theorem parents_closed {ps : List (Frame A)} (h : ∀ f ∈ ps, f.index < f.children.length ∧ f.children.slot f.index = none) :
    (∀ p q, (TreeStack.parentsToTree ps).1.get (p ++ q) ≠ none → (TreeStack.parentsToTree ps).1.get p ≠ none) ∧
    ∀ p, p <+: (TreeStack.parentsToTree ps).2 → p ≠ (TreeStack.parentsToTree ps).2 → (TreeStack.parentsToTree ps).1.get p ≠ none := by
  induction ps with
  | nil =>
    refine ⟨fun p q h => by simp [TreeStack.parentsToTree, GornTree.get] at h, ?_⟩
    intro p hp hne
    exact absurd (List.prefix_nil.1 hp) hne
  | cons f ps ih =>
    have hps : ∀ f ∈ ps, f.index < f.children.length ∧ f.children.slot f.index = none := fun g hg => h g (by simp [hg])
    obtain ⟨ih1, ih2⟩ := ih hps
    have below := TreeStack.get_frame_below (f := f) hps
    have outside := fun {p} hp => TreeStack.get_frame_outside (f := f) (ps := ps) (p := p) hp
    have above : ∀ p, p <+: (TreeStack.parentsToTree ps).2 → (TreeStack.parentsToTree (f :: ps)).1.get p ≠ none := by
      intro p hp
      by_cases e : p = (TreeStack.parentsToTree ps).2
      · have := below []
        rw [List.append_nil] at this
        rw [e, this]; simp [nodeAt]
      · rw [outside (fun hc => e (hp.eq_of_length (Nat.le_antisymm hp.length_le hc.length_le)))]
        exact ih2 p hp e
    refine ⟨?_, ?_⟩
    · intro p q hpq
      by_cases hp : (TreeStack.parentsToTree ps).2 <+: p
      · obtain ⟨r, rfl⟩ := hp
        rw [List.append_assoc, below] at hpq
        rw [below]
        exact nodeAt_prefix _ _ _ _ hpq
      · by_cases hq : (TreeStack.parentsToTree ps).2 <+: p ++ q
        · rcases List.prefix_or_prefix_of_prefix hq (List.prefix_append p q) with hh | hh
          · exact absurd hh hp
          · exact above p hh
        · rw [outside hq] at hpq
          rw [outside hp]
          exact ih1 p q hpq
    · intro p hp hne
      simp only [TreeStack.parentsToTree] at hp hne
      rcases List.prefix_concat_iff.1 hp with hh | hh
      · exact absurd hh hne
      · exact above p hh

/-- **C27** The addresses of the nodes are closed under prefixes: it is a tree. -/
theorem C27_tree {t : TreeStack A} (h : Reachable t) (p q : List Nat) (hpq : (view t).label (p ++ q) ≠ none) : (view t).label p ≠ none := by
  have hw := TreeStack.reachable_wf h
  -- the tree below the pointer and the tree outside of it
  obtain ⟨h1, h2⟩ := parents_closed (ps := t.parents) hw
  by_cases hp : (view t).pointer <+: p
  · obtain ⟨r, rfl⟩ := hp
    rw [List.append_assoc, TreeStack.view_below hw] at hpq
    rw [TreeStack.view_below hw]
    exact nodeAt_prefix _ _ _ _ hpq
  · rw [TreeStack.view_outside t hp]
    by_cases hq : (view t).pointer <+: p ++ q
    · rcases List.prefix_or_prefix_of_prefix hq (List.prefix_append p q) with hh | hh
      · exact absurd hh hp
      · exact h2 p hh (fun e => hp (by rw [e]; exact List.prefix_refl _))
    · rw [TreeStack.view_outside t hq] at hpq
      exact h1 p q hpq

/-- **C27** `to_tree` lists each address once, sorted. -/
theorem C27_to_tree_sorted (t : TreeStack A) : (t.toTree.1.map Prod.fst).Pairwise (· < ·) := by
  have := TreeStack.sorted_toTree t
  unfold GornTree.Sorted at this
  simpa [List.pairwise_map] using this

/-- **C27** `set` changes the label at the pointer and nothing else. -/
theorem C27_set {t : TreeStack A} (h : Reachable t) (a : A) : view (t.set a) = (view t).write (view t).pointer a :=
  TreeStack.view_set (TreeStack.reachable_wf h) a

/-- **C27** `push` succeeds iff the position is free; it adds a node there and moves the pointer to it. Otherwise it gives back the same tree
stack. -/
theorem C27_push {t : TreeStack A} (h : Reachable t) (n : Nat) (a : A) :
    ((∃ s, t.push n a = .ok s) ↔ (view t).label ((view t).child n) = none) ∧
    (∀ s, t.push n a = .ok s → view s = ((view t).write ((view t).child n) a).move ((view t).child n)) ∧
    (∀ s, t.push n a = .error s → s = t) := by
  have hw := TreeStack.reachable_wf h
  refine ⟨?_, fun s hs => TreeStack.view_push hw hs, fun s hs => (TreeStack.push_err.1 hs).2⟩
  rw [TreeStack.label_child_none hw]
  exact ⟨fun ⟨s, hs⟩ => (TreeStack.push_ok.1 hs).1, fun hs => ⟨_, TreeStack.push_ok.2 ⟨hs, rfl⟩⟩⟩

/-- **C27** `push_next` never panics and pushes to the first free position. -/
theorem C27_push_next {t : TreeStack A} (h : Reachable t) (a : A) :
    ∃ s n, t.pushNext a = some s ∧ (view t).label ((view t).child n) = none ∧ (∀ m < n, (view t).label ((view t).child m) ≠ none) ∧
      view s = ((view t).write ((view t).child n) a).move ((view t).child n) := by
  have hw := TreeStack.reachable_wf h
  obtain ⟨s, h1, h2⟩ := TreeStack.pushNext_some t a
  refine ⟨s, t.children.firstFree, h1, (TreeStack.label_child_none hw _).2 (Forest.slot_firstFree _), ?_, TreeStack.view_push hw h2⟩
  intro m hm hc
  exact Forest.slot_lt_firstFree hm ((TreeStack.label_child_none hw _).1 hc)

/-- **C27** `up` succeeds iff there is a child; it moves the pointer to it. Otherwise it gives back the same tree stack. -/
theorem C27_up {t : TreeStack A} (h : Reachable t) (n : Nat) :
    ((∃ s, t.up n = .ok s) ↔ (view t).label ((view t).child n) ≠ none) ∧
    (∀ s, t.up n = .ok s → view s = (view t).move ((view t).child n)) ∧ (∀ s, t.up n = .error s → s = t) := by
  have hw := TreeStack.reachable_wf h
  refine ⟨?_, fun s hs => TreeStack.view_up hw hs, fun s hs => (TreeStack.up_err.1 hs).2⟩
  rw [ne_eq, TreeStack.label_child_none hw]
  constructor
  · rintro ⟨s, hs⟩ hc
    obtain ⟨v, c, h1, _⟩ := TreeStack.up_ok.1 hs
    simp [hc] at h1
  · intro hs
    obtain ⟨⟨v, c⟩, hx⟩ := Option.ne_none_iff_exists'.1 hs
    exact ⟨_, TreeStack.up_ok.2 ⟨v, c, hx, rfl⟩⟩

/-- **C27** `ups` never panics and moves the pointer to each child, in order. -/
theorem C27_ups {t : TreeStack A} (h : Reachable t) :
    ∃ l ns, t.ups = some l ∧ ns.Pairwise (· < ·) ∧ (∀ n, n ∈ ns ↔ (view t).label ((view t).child n) ≠ none) ∧
      List.Forall₂ (fun n s => view s = (view t).move ((view t).child n)) ns l := by
  have hw := TreeStack.reachable_wf h
  obtain ⟨l, h1, h2⟩ := TreeStack.ups_some t
  refine ⟨l, _, h1, Forest.occupied_sorted _, ?_, h2.imp fun n s hs => TreeStack.view_up hw hs⟩
  intro n
  rw [ne_eq, TreeStack.label_child_none hw, Forest.mem_occupied]

/-- **C27** `down` succeeds iff the pointer is not at the root; it moves the pointer to the parent. Otherwise it gives back the same tree stack.
It never panics. -/
theorem C27_down {t : TreeStack A} (h : Reachable t) :
    ((∃ s, t.down = .ok s) ↔ (view t).pointer ≠ []) ∧
    (∀ s, t.down = .ok s → ∃ p n, (view t).pointer = p ++ [n] ∧ view s = (view t).move p) ∧
    (∀ s, t.down = .error s → s = t) ∧ t.downPanics = false := by
  have hw := TreeStack.reachable_wf h
  refine ⟨?_, fun s hs => TreeStack.view_down hw hs, fun s hs => (TreeStack.down_err.1 hs).2, ?_⟩
  · rw [ne_eq, ← (C27_pointer h).2, TreeStack.isAtBottom, List.isEmpty_iff]
    constructor
    · rintro ⟨s, hs⟩ hc
      obtain ⟨f, ps, h1, _⟩ := TreeStack.down_ok.1 hs
      simp [hc] at h1
    · intro hs
      obtain ⟨f, ps, hx⟩ := List.exists_cons_of_ne_nil hs
      exact ⟨_, TreeStack.down_ok.2 ⟨f, ps, hx, rfl⟩⟩
  · unfold TreeStack.downPanics
    split
    · rename_i f ps hp
      simp [(hw f (by rw [hp]; simp)).1]
    · rfl

/-- **C27** `all` tests the labels of the node at the pointer and of everything below it; at the root, all labels. -/
theorem C27_all {t : TreeStack A} (h : Reachable t) (p : A → Bool) :
    t.all p = true ↔ ∀ q b, (view t).label ((view t).pointer ++ q) = some b → p b = true := by
  simp only [TreeStack.view_below (TreeStack.reachable_wf h)]
  exact TreeStack.all_nodeAt p t.children t.value

/-- **C27** `Up { n, current_val, old_val, new_val }` on trees with pointers. -/
theorem C27_instruction_up [DecidableEq A] {t : TreeStack A} (h : Reachable t) (n : Nat) (c o w : A) :
    ((TsInstr.up n c o w).apply t ≠ [] ↔ (view t).label (view t).pointer = some c ∧ (view t).label ((view t).child n) = some o) ∧
    ∀ s ∈ (TsInstr.up n c o w).apply t, Reachable s ∧ view s = ((view t).move ((view t).child n)).write ((view t).child n) w := by
  obtain ⟨h1, h2, h3⟩ := C27_up h n
  rw [(C27_pointer h).1]
  simp only [Option.some.injEq, TsInstr.apply]
  by_cases hc : t.currentSymbol = c
  · rw [if_pos hc]
    cases hu : t.up n with
    | error x =>
      have : (view t).label ((view t).child n) = none := by
        by_contra hne
        obtain ⟨s, hs⟩ := h1.2 hne
        rw [hs] at hu; cases hu
      simp [this]
    | ok x =>
      have hx := h2 x hu
      have rx : Reachable x := .up h hu
      have lx := (C27_pointer rx).1
      rw [hx] at lx
      have lx' : (view t).label ((view t).child n) = some x.currentSymbol := lx
      simp only [lx', Option.some.injEq]
      by_cases ho : x.currentSymbol = o
      · rw [if_pos ho]
        refine ⟨by simp [hc, ho], ?_⟩
        intro s hs
        rw [List.mem_singleton] at hs
        subst hs
        refine ⟨.set _ rx, ?_⟩
        rw [C27_set rx, hx]; rfl
      · rw [if_neg ho]
        simp [ho]
  · rw [if_neg hc]; simp [hc]

/-- **C27** `Push { n, current_val, new_val }` on trees with pointers. -/
theorem C27_instruction_push [DecidableEq A] {t : TreeStack A} (h : Reachable t) (n : Nat) (c w : A) :
    ((TsInstr.push n c w).apply t ≠ [] ↔ (view t).label (view t).pointer = some c ∧ (view t).label ((view t).child n) = none) ∧
    ∀ s ∈ (TsInstr.push n c w).apply t, Reachable s ∧ view s = ((view t).write ((view t).child n) w).move ((view t).child n) := by
  obtain ⟨h1, h2, h3⟩ := C27_push h n w
  rw [(C27_pointer h).1]
  simp only [Option.some.injEq, TsInstr.apply]
  by_cases hc : t.currentSymbol = c
  · rw [if_pos hc]
    cases hu : t.push n w with
    | error x =>
      have : (view t).label ((view t).child n) ≠ none := by
        intro hne
        obtain ⟨s, hs⟩ := h1.2 hne
        rw [hs] at hu; cases hu
      simp [this]
    | ok x =>
      refine ⟨by simp [hc, h1.1 ⟨x, hu⟩], ?_⟩
      intro s hs
      rw [List.mem_singleton] at hs
      subst hs
      exact ⟨.push h hu, h2 _ hu⟩
  · rw [if_neg hc]; simp [hc]

/-- **C27** `Down { current_val, old_val, new_val }` on trees with pointers. -/
theorem C27_instruction_down [DecidableEq A] {t : TreeStack A} (h : Reachable t) (c o w : A) :
    ((TsInstr.down c o w).apply t ≠ [] ↔ (view t).label (view t).pointer = some c ∧ ∃ p n, (view t).pointer = p ++ [n] ∧ (view t).label p = some o) ∧
    ∀ s ∈ (TsInstr.down c o w).apply t, Reachable s ∧ ∃ p n, (view t).pointer = p ++ [n] ∧ view s = ((view t).move p).write p w := by
  obtain ⟨h1, h2, h3, _⟩ := C27_down h
  rw [(C27_pointer h).1]
  simp only [Option.some.injEq, TsInstr.apply]
  by_cases hc : t.currentSymbol = c
  · rw [if_pos hc]
    cases hu : t.down with
    | error x =>
      have : (view t).pointer = [] := by
        by_contra hne
        obtain ⟨s, hs⟩ := h1.2 hne
        rw [hs] at hu; cases hu
      simp [this]
    | ok x =>
      obtain ⟨p, n, hp, hx⟩ := h2 x hu
      have rx : Reachable x := .down h hu
      have lx := (C27_pointer rx).1
      rw [hx] at lx
      have lx' : (view t).label p = some x.currentSymbol := lx
      by_cases ho : x.currentSymbol = o
      · simp only [if_pos ho]
        refine ⟨?_, ?_⟩
        · simp only [ne_eq, List.cons_ne_self, not_false_eq_true, hc, true_and, reduceCtorEq, true_iff]
          exact ⟨p, n, hp, by rw [lx', ho]⟩
        · intro s hs
          rw [List.mem_singleton] at hs
          subst hs
          refine ⟨.set _ rx, p, n, hp, ?_⟩
          rw [C27_set rx, hx]; rfl
      · simp only [if_neg ho]
        refine ⟨?_, by simp⟩
        simp only [ne_eq, not_true_eq_false, hc, true_and, false_iff]
        rintro ⟨p', n', hp', hl⟩
        rw [hp] at hp'
        obtain ⟨rfl, _⟩ := List.append_inj' hp' rfl
        rw [lx'] at hl
        exact ho (Option.some.inj hl)
  · rw [if_neg hc]; simp [hc]

/-- A tree stack with some structure, used in the examples. -/
private def exStack : TreeStack Char := ⟨[⟨1, 'a', .occ 'b' (.vac (.occ 'c' .nil .nil)) (.vac (.occ 'x' .nil .nil))⟩], 'd', .nil⟩

private theorem ex_reachable : Reachable exStack := by
  have h1 : Reachable (⟨[⟨0, 'a', .vac .nil⟩], 'b', .nil⟩ : TreeStack Char) := .push (t := .new 'a') (n := 0) (a := 'b') (.new 'a') rfl
  have h2 : Reachable (⟨[⟨1, 'b', .vac (.vac .nil)⟩, ⟨0, 'a', .vac .nil⟩], 'c', .nil⟩ : TreeStack Char) := .push h1 (n := 1) (a := 'c') rfl
  have h3 : Reachable (⟨[⟨0, 'a', .vac .nil⟩], 'b', .vac (.occ 'c' .nil .nil)⟩ : TreeStack Char) := .down h2 rfl
  have h4 : Reachable (⟨[], 'a', .occ 'b' (.vac (.occ 'c' .nil .nil)) .nil⟩ : TreeStack Char) := .down h3 rfl
  have h5 : Reachable (⟨[⟨2, 'a', .occ 'b' (.vac (.occ 'c' .nil .nil)) (.vac (.vac .nil))⟩], 'x', .nil⟩ : TreeStack Char) :=
    .push h4 (n := 2) (a := 'x') rfl
  have h6 : Reachable (⟨[], 'a', .occ 'b' (.vac (.occ 'c' .nil .nil)) (.vac (.occ 'x' .nil .nil))⟩ : TreeStack Char) := .down h5 rfl
  exact .push h6 (n := 1) (a := 'd') rfl

example : Reachable exStack ∧ exStack.toTree = ([([], 'a'), ([0], 'b'), ([0, 1], 'c'), ([1], 'd'), ([2], 'x')], [1]) :=
  ⟨ex_reachable, by decide⟩

example : (TsInstr.down 'd' 'a' 'z').apply exStack = [⟨[], 'z', .occ 'b' (.vac (.occ 'c' .nil .nil)) (.occ 'd' .nil (.occ 'x' .nil .nil))⟩] ∧
    (TsInstr.down 'd' 'b' 'z').apply exStack = [] ∧ (exStack.set 'z').down.toOption.map (·.toTree.2) = some [] ∧
    (exStack.push 1 'q').toOption.map (·.toTree) = some ([([], 'a'), ([0], 'b'), ([0, 1], 'c'), ([1], 'd'), ([1, 1], 'q'), ([2], 'x')], [1, 1]) := by
  decide

end treestack

/-! ### C15 for tree stacks -/

section integerise
variable {A T W : Type _} [DecidableEq A] [DecidableEq T]

private theorem later_le {i j : Integeriser A} (h : Later i j) (hi : i.Wf) : j.Wf ∧ i.Le j := by
  induction h with
  | refl => exact ⟨hi, .refl _⟩
  | step a _ ih =>
    obtain ⟨h1, h2, _⟩ := Integeriser.integerise_spec ih.1 a
    exact ⟨h1, ih.2.trans h2⟩

private theorem used_wf {i : Integeriser A} (h : Used i) : i.Wf := (later_le h Integeriser.wf_new).1

/-- **C15** Tree stacks: translation and back is the identity. -/
theorem C15_ts_stack {i j : Integeriser A} (hi : Used i) (x : TreeStack A) (hj : Later (TreeStack.integ.integerise i x).1 j) :
    TreeStack.integ.unInteg j (TreeStack.integ.integerise i x).2 = some x := by
  obtain ⟨h1, h2, h3⟩ := TreeStack.integLaws.integerise (used_wf hi) x
  obtain ⟨h4, h5⟩ := later_le hj h1
  exact TreeStack.integLaws.unInteg.2 (TreeStack.integLaws.mono h5 h3)

/-- **C15** Tree stack instructions: translation and back is the identity. -/
theorem C15_ts_instruction {i j : Integeriser A} (hi : Used i) (x : TsInstr A) (hj : Later (TsInstr.integ.integerise i x).1 j) :
    TsInstr.integ.unInteg j (TsInstr.integ.integerise i x).2 = some x := by
  obtain ⟨h1, h2, h3⟩ := TsInstr.integLaws.integerise (used_wf hi) x
  obtain ⟨h4, h5⟩ := later_le hj h1
  exact TsInstr.integLaws.unInteg.2 (TsInstr.integLaws.mono h5 h3)

/-- **C15** Transitions of tree stack automata: translation and back is the identity. -/
theorem C15_ts_transition {tI tJ : Integeriser T} {aI aJ : Integeriser A} (ht : Used tI) (ha : Used aI) (t : Transition (TsInstr A) T W)
    (hj : Later (Transition.integerise TsInstr.integ tI aI t).1.1 tJ) (hk : Later (Transition.integerise TsInstr.integ tI aI t).1.2 aJ) :
    Transition.unInteg TsInstr.integ tJ aJ (Transition.integerise TsInstr.integ tI aI t).2 = some t := by
  obtain ⟨h1, h2, h3, h4, h5⟩ := Transition.integerise_spec TsInstr.integLaws (used_wf ht) (used_wf ha) t
  exact (Transition.unInteg_iff TsInstr.integLaws).2 (TrRel.mono TsInstr.integLaws (later_le hj h1).2 (later_le hk h2).2 h5)

/-- **C15** Applying a tree stack instruction commutes with the translation. -/
theorem C15_ts_apply {i : Integeriser A} (hi : Used i) {x : TsInstr A} {y : TsInstr Nat} (hx : TsInstr.integ.unInteg i y = some x)
    {p : TreeStack A} {q : TreeStack Nat} (hp : TreeStack.integ.unInteg i q = some p) :
    (y.apply q).mapM (TreeStack.integ.unInteg i) = some (x.apply p) := by
  rw [mapM_eq_some_iff]
  exact (TsInstr.apply_rel (Integeriser.biUnique (used_wf hi)) (TsInstr.integLaws.unInteg.1 hx) (TreeStack.integLaws.unInteg.1 hp)).imp
    fun _ _ => TreeStack.integLaws.unInteg.2

example : (TreeStack.integ.integerise ⟨['b', 'q']⟩ exStack).2 =
    ⟨[⟨1, 3, .occ 0 (.vac (.occ 4 .nil .nil)) (.vac (.occ 5 .nil .nil))⟩], 2, .nil⟩ := by decide

end integerise

/-! ### recognition with tree stack automata -/

section tsa
variable {A T W H : Type _} [DecidableEq A] [DecidableEq T]

private theorem accepting_perm [Mul W] [One W] {L ts : List (Transition (TsInstr A) T W)} (h : L.Perm ts) (initial : TreeStack A) (w : List T)
    (run : List (Transition (TsInstr A) T W)) (s : TreeStack A) (u : W) :
    (TSA.device L initial).Accepting w run s u ↔ (TSA.device ts initial).Accepting w run s u := by
  constructor
  · rintro ⟨⟨h6, h7⟩, h8⟩; exact ⟨⟨h6, fun t ht => h.mem_iff.1 (h7 t ht)⟩, h8⟩
  · rintro ⟨⟨h6, h7⟩, h8⟩; exact ⟨⟨h6, fun t ht => h.mem_iff.2 (h7 t ht)⟩, h8⟩

/-- **C15** A tree stack automaton lists the transitions and the initial tree stack it was built from. -/
theorem C15_tsa_new (ts : List (Transition (TsInstr A) T W)) (initial : TreeStack A) :
    (∃ L, (TSA.new ts initial).listTransitions = some L ∧ L.Perm ts) ∧ (TSA.new ts initial).initialStack = some initial := by
  obtain ⟨L, h1, h2, h3, _⟩ := TSA.new_represents (W := W) ts initial
  exact ⟨⟨L, h1, h2⟩, h3⟩

/-- **C16** Tree stack automata: every returned item has read the whole word and carries an accepting run. -/
theorem C16_tsa_sound [Mul W] [One W] (ts : List (Transition (TsInstr A) T W)) (initial : TreeStack A)
    {G : Agenda H (Item (TreeStack Nat) (TsInstr Nat) Nat W)} {content : H → Multiset (Item (TreeStack Nat) (TsInstr Nat) Nat W)} (hG : G.Sound content)
    {empty : H} (hempty : content empty = 0) {w : List T} {n : Nat} {out : List (Item (TreeStack A) (TsInstr A) T W)} {a : H}
    (hrun : (TSA.new ts initial).recognise G empty w n = some (out, a)) :
    ∀ i ∈ out, i.conf.word = [] ∧ (TSA.device ts initial).Accepting w i.run.toVec i.conf.storage i.conf.weight := by
  obtain ⟨L, h1, h2, h3, h4⟩ := TSA.new_represents (W := W) ts initial
  intro i hi
  obtain ⟨h5, h6⟩ := h4.sound hG hempty hrun i hi
  exact ⟨h5, (accepting_perm h2 _ _ _ _ _).1 h6⟩

/-- **C17** Tree stack automata: when recognition has ended, exactly the accepting runs have been returned, as often as the run's transitions
occur in `ts`. -/
theorem C17_tsa_exact [Mul W] [One W] [DecidableEq W] (ts : List (Transition (TsInstr A) T W)) (initial : TreeStack A)
    {G : Agenda H (Item (TreeStack Nat) (TsInstr Nat) Nat W)} {content : H → Multiset (Item (TreeStack Nat) (TsInstr Nat) Nat W)} (hG : G.Lossless content)
    {empty : H} (hempty : content empty = 0) {w : List T} {n : Nat} {out : List (Item (TreeStack A) (TsInstr A) T W)} {a : H}
    (hrun : (TSA.new ts initial).recognise G empty w n = some (out, a)) (hend : G.pop a = none) (i : Item (TreeStack A) (TsInstr A) T W) :
    (i ∈ out ↔ i.conf.word = [] ∧ (TSA.device ts initial).Accepting w i.run.toVec i.conf.storage i.conf.weight) ∧
    (i ∈ out → out.count i = (i.run.toVec.map fun t => ts.count t).prod) := by
  obtain ⟨L, h1, h2, h3, h4⟩ := TSA.new_represents (W := W) ts initial
  have hco := TSA.new_coherent (W := W) ts initial
  have hex := h4.exact_runs hco hG hempty hrun hend i
  refine ⟨by rw [hex, accepting_perm h2], ?_⟩
  intro hi
  obtain ⟨h5, h6⟩ := hex.1 hi
  rw [h4.exact_count hco hG hempty hrun hend i h5 h6]
  have c1 : ∀ t, (TSA.device L initial).transitions.count t = ts.count t := fun t => h2.count_eq t
  simp only [c1]
  have c2 : ∀ (is : List (TsInstr A)) (s : TreeStack A), (storages TsInstr.apply is s).length ≤ 1 := by
    intro is
    induction is with
    | nil => intro s; simp [storages]
    | cons j js ih =>
      intro s
      simp only [storages]
      have := TSA.apply_length j s
      match hj : j.apply s, this with
      | [], _ => simp
      | [x], _ => simpa using ih x
  have c3 : i.conf.storage ∈ storages TsInstr.apply (i.run.toVec.map Transition.instruction) initial :=
    ((exec_iff_from _ _ _ _).1 h6.1.1).2.1
  have c4 : (storages TsInstr.apply (i.run.toVec.map Transition.instruction) initial).count i.conf.storage = 1 := by
    apply Nat.le_antisymm ((List.count_le_length).trans (c2 _ _))
    exact List.count_pos_iff.2 c3
  show _ * (storages TsInstr.apply (i.run.toVec.map Transition.instruction) initial).count i.conf.storage = _
  rw [c4, Nat.mul_one]

/-- **C18** Tree stack automata: parses come in non-increasing weight, and better parses come first. -/
theorem C18_tsa_best_first [Mul W] [One W] [Preorder W] (ts : List (Transition (TsInstr A) T W)) (initial : TreeStack A)
    (hw : ∀ t ∈ ts, ∀ u : W, u * t.weight ≤ u)
    {G : Agenda H (Item (TreeStack Nat) (TsInstr Nat) Nat W)} {content : H → Multiset (Item (TreeStack Nat) (TsInstr Nat) Nat W)}
    (hG : HeapLaws G content (fun i => i.conf.weight)) {empty : H} (hempty : content empty = 0) {w : List T} {n : Nat}
    {out : List (Item (TreeStack A) (TsInstr A) T W)} {a : H} (hrun : (TSA.new ts initial).recognise G empty w n = some (out, a)) :
    out.Pairwise (fun i j => j.conf.weight ≤ i.conf.weight) ∧
    ∀ ys x, out = ys ++ [x] → ∀ z : Item (TreeStack A) (TsInstr A) T W, z.conf.word = [] →
      (TSA.device ts initial).Accepting w z.run.toVec z.conf.storage z.conf.weight → x.conf.weight < z.conf.weight → z ∈ ys := by
  obtain ⟨L, h1, h2, h3, h4⟩ := TSA.new_represents (W := W) ts initial
  have hw' : ∀ t ∈ (TSA.device L initial).transitions, ∀ u : W, u * t.weight ≤ u := fun t ht => hw t (h2.mem_iff.1 ht)
  refine ⟨h4.sorted hG hw' hrun, ?_⟩
  rintro ys x rfl z hz hacc hlt
  exact h4.best_first (TSA.new_coherent ts initial) hG hempty hw' hrun z hz ((accepting_perm h2 _ _ _ _ _).2 hacc) hlt

/-- **C51** Recognition with a tree stack automaton never panics if its initial tree stack was built with the operations of tree stacks: keys
exist, the translation back exists, and no `down` on the way writes outside of a vector. -/
theorem C51_tsa_no_panic [Mul W] [One W] (ts : List (Transition (TsInstr A) T W)) (initial : TreeStack A) (hi : Reachable initial)
    {G : Agenda H (Item (TreeStack Nat) (TsInstr Nat) Nat W)} {content : H → Multiset (Item (TreeStack Nat) (TsInstr Nat) Nat W)} (hG : G.Sound content)
    {empty : H} (hempty : content empty = 0) (w : List T) (n : Nat) :
    (∃ r, (TSA.new ts initial).recognise G empty w n = some r) ∧
    ∀ w' ts' c, IsRun TsInstr.apply (TSA.new ts initial).automaton.transitions (TSA.new ts initial).automaton.initial w' ts' c →
      c.storage.downPanics = false := by
  obtain ⟨L, h1, h2, h3, h4⟩ := TSA.new_represents (W := W) ts initial
  constructor
  · obtain ⟨out, a, h5⟩ := Automaton.recognise_no_panic hG hempty (TSA.new ts initial).automaton
      (w.mapM (TSA.new ts initial).tInt.findKey) (fun _ _ c _ _ => ⟨c.storage.currentSymbol, rfl⟩) n
    obtain ⟨out', h6⟩ := h4.recogniseOuter_no_panic hG hempty h5
    exact ⟨_, h6⟩
  · intro w' ts' c hr
    have h0 : (TSA.new ts initial).initial.Wf := by
      have hR := h4.initial
      have hw := TreeStack.reachable_wf hi
      intro f hf
      obtain ⟨g, hg, hfg⟩ := TSA.forall₂_mem_left hR.parents hf
      obtain ⟨g1, g2⟩ := hw g hg
      refine ⟨by rw [hfg.index, hfg.children.length]; exact g1, ?_⟩
      rcases hfg.children.slot g.index with ⟨e1, _⟩ | ⟨_, _, _, _, _, e2, _⟩
      · rw [hfg.index]; exact e1
      · rw [g2] at e2; cases e2
    have hc : c.storage.Wf := TSA.wf_run hr.1 h0
    unfold TreeStack.downPanics
    split
    · rename_i f ps hp
      simp [(hc f (by rw [hp]; simp)).1]
    · rfl

private def exTs : List (Transition (TsInstr Char) Char Nat) :=
  [⟨['a'], 2, .push 0 'i' 'p'⟩, ⟨['b'], 3, .down 'p' 'i' 'j'⟩, ⟨['c'], 5, .up 0 'j' 'p' 'q'⟩, ⟨['d'], 7, .down 'q' 'j' 'k'⟩]

example : ((TSA.new exTs (.new 'i')).recognise (vecAgenda _) [] ['a', 'b', 'c', 'd'] 10).map
    (fun r => r.1.map fun i => (i.conf.weight, i.conf.storage.toTree.1)) = some [(210, [([], 'k'), ([0], 'q')]) ] := by decide

end tsa
end Rustomata.Props
