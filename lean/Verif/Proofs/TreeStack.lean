import Verif.Spec.Tsa
import Mathlib.Data.List.Lex
import Mathlib.Data.List.Basic

/-!
# Helper lemmas: tree stacks
-/

set_option linter.unusedSectionVars false
set_option linter.unusedSimpArgs false

namespace Rustomata
open Spec
variable {A B : Type _}

namespace GornTree

theorem get_insert {V : Type _} (m : GornTree V) (k : List Nat) (v : V) (k' : List Nat) :
    (m.insert k v).get k' = if k' = k then some v else m.get k' := by
  induction m with
  | nil => simp [insert, get]
  | cons p m ih =>
    obtain ⟨k0, v0⟩ := p
    unfold insert
    split
    · rename_i h; subst h
      simp only [get]
      split <;> rfl
    · split
      · simp only [get]
      · rename_i h1 h2
        simp only [get, ih]
        by_cases h3 : k' = k0
        · subst h3
          simp [Ne.symm h1]
        · simp [h3]

/-- The keys are strictly increasing. -/
def Sorted {V : Type _} (m : GornTree V) : Prop := (m.map Prod.fst).Pairwise (· < ·)

theorem mem_insert_keys {V : Type _} {m : GornTree V} {k : List Nat} {v : V} {x : List Nat} (h : x ∈ (m.insert k v).map Prod.fst) :
    x = k ∨ x ∈ m.map Prod.fst := by
  induction m with
  | nil => simpa [insert] using h
  | cons p m ih =>
    obtain ⟨k0, v0⟩ := p
    unfold insert at h
    split at h
    · rename_i h1; subst h1
      simp only [List.map_cons, List.mem_cons] at h ⊢
      rcases h with h | h <;> simp [h]
    · split at h
      · simpa using h
      · simp only [List.map_cons, List.mem_cons] at h ⊢
        rcases h with h | h
        · simp [h]
        · rcases ih h with h | h <;> simp [h]

theorem sorted_insert {V : Type _} {m : GornTree V} (h : m.Sorted) (k : List Nat) (v : V) : (m.insert k v).Sorted := by
  induction m with
  | nil => simp [insert, Sorted]
  | cons p m ih =>
    obtain ⟨k0, v0⟩ := p
    unfold Sorted at *
    rw [List.map_cons, List.pairwise_cons] at h
    unfold insert
    split
    · rename_i h1; subst h1
      rw [List.map_cons, List.pairwise_cons]; exact h
    · split
      · rename_i h1 h2
        rw [List.map_cons, List.map_cons, List.pairwise_cons, List.pairwise_cons]
        refine ⟨?_, h⟩
        intro x hx
        rcases List.mem_cons.1 hx with rfl | hx
        · exact h2
        · exact lt_trans h2 (h.1 x hx)
      · rename_i h1 h2
        rw [List.map_cons, List.pairwise_cons]
        refine ⟨?_, ih h.2⟩
        intro x hx
        rcases mem_insert_keys hx with rfl | hx
        · exact lt_of_le_of_ne (not_lt.1 h2) (Ne.symm h1)
        · exact h.1 x hx

end GornTree

namespace Forest

theorem length_write (f : Forest A) (n : Nat) (o : Option (A × Forest A)) : (f.write n o).length = f.length := by
  induction f generalizing n with
  | nil => rfl
  | vac f ih => cases n <;> cases o <;> simp [write, length, ih]
  | occ v c f _ ih => cases n <;> cases o <;> simp [write, length, ih]

theorem slot_write (f : Forest A) (n : Nat) (o : Option (A × Forest A)) (k : Nat) :
    (f.write n o).slot k = if k = n ∧ n < f.length then o else f.slot k := by
  induction f generalizing n k with
  | nil => simp [write, slot, length]
  | vac f ih =>
    cases n with
    | zero => cases o <;> cases k <;> simp [write, slot, length]
    | succ n =>
      cases k with
      | zero => simp [write, slot]
      | succ k => simp [write, slot, length, ih]
  | occ v c f _ ih =>
    cases n with
    | zero => cases o <;> cases k <;> simp [write, slot, length]
    | succ n =>
      cases k with
      | zero => simp [write, slot]
      | succ k => simp [write, slot, length, ih]

theorem slot_pad (f : Forest A) (n k : Nat) : (f.pad n).slot k = f.slot k := by
  have hnil : ∀ n k, (pad (nil : Forest A) n).slot k = none := by
    intro n
    induction n with
    | zero => intro k; cases k <;> rfl
    | succ n ih => intro k; cases k <;> simp [pad, slot, ih]
  induction f generalizing n k with
  | nil => rw [hnil]; rfl
  | vac f ih => cases n <;> cases k <;> simp [pad, slot, ih]
  | occ v c f _ ih => cases n <;> cases k <;> simp [pad, slot, ih]

theorem lt_length_pad (f : Forest A) (n : Nat) : n < (f.pad n).length := by
  induction n generalizing f with
  | zero => cases f <;> simp [pad, length]
  | succ n ih => cases f <;> simp [pad, length, ih]

theorem slot_lt {f : Forest A} {n : Nat} {x : A × Forest A} (h : f.slot n = some x) : n < f.length := by
  induction f generalizing n with
  | nil => simp [slot] at h
  | vac f ih => cases n <;> simp [slot, length] at h ⊢; exact ih h
  | occ v c f _ ih => cases n <;> simp [slot, length] at h ⊢; exact ih h

theorem write_none_of_slot {f : Forest A} {n : Nat} (h : f.slot n = none) : f.write n none = f := by
  induction f generalizing n with
  | nil => rfl
  | vac f ih => cases n <;> simp [slot, write] at h ⊢; exact ih h
  | occ v c f _ ih => cases n <;> simp [slot, write] at h ⊢; exact ih h

theorem slot_firstFree (f : Forest A) : f.slot f.firstFree = none := by
  induction f with
  | nil => rfl
  | vac f _ => rfl
  | occ v c f _ ih => exact ih

theorem slot_lt_firstFree {f : Forest A} {n : Nat} (h : n < f.firstFree) : f.slot n ≠ none := by
  induction f generalizing n with
  | nil => simp [firstFree] at h
  | vac f _ => simp [firstFree] at h
  | occ v c f _ ih =>
    cases n with
    | zero => simp [slot]
    | succ n => exact ih (by simpa [firstFree] using h)

theorem mem_occupied {f : Forest A} {n : Nat} : n ∈ f.occupied ↔ f.slot n ≠ none := by
  induction f generalizing n with
  | nil => simp [occupied, slot]
  | vac f ih => cases n <;> simp [occupied, slot, ih]
  | occ v c f _ ih => cases n <;> simp [occupied, slot, ih]

theorem occupied_sorted (f : Forest A) : f.occupied.Pairwise (· < ·) := by
  induction f with
  | nil => simp [occupied]
  | vac f ih =>
    rw [occupied, List.pairwise_map]
    exact ih.imp (by omega)
  | occ v c f _ ih =>
    rw [occupied, List.pairwise_cons, List.pairwise_map]
    refine ⟨by simp, ih.imp (by omega)⟩

end Forest

/-- The label at an address below a node. -/
def nodeAt (v : A) (c : Forest A) : List Nat → Option A
  | [] => some v
  | n :: p => match c.slot n with
    | none => none
    | some (v', c') => nodeAt v' c' p

/-- The label at an address below a vector of subtrees. -/
def forestAt (c : Forest A) : List Nat → Option A
  | [] => none
  | n :: p => match c.slot n with
    | none => none
    | some (v', c') => nodeAt v' c' p

theorem nodeAt_cons (v : A) (c : Forest A) (n : Nat) (p : List Nat) : nodeAt v c (n :: p) = forestAt c (n :: p) := rfl

theorem nodeAt_congr (v : A) {c c' : Forest A} (h : ∀ n, c.slot n = c'.slot n) (p : List Nat) : nodeAt v c p = nodeAt v c' p := by
  cases p with
  | nil => rfl
  | cons n p => simp [nodeAt, h]

namespace TreeStack

theorem get_insertForest (f : Forest A) : ∀ (path : List Nat) (n : Nat) (m : GornTree A),
    (∀ k q, (insertForest path n f m).get (path ++ (n + k) :: q) = (forestAt f (k :: q)).or (m.get (path ++ (n + k) :: q))) ∧
    (∀ p, (∀ k q, p ≠ path ++ (n + k) :: q) → (insertForest path n f m).get p = m.get p) := by
  induction f with
  | nil =>
    intro path n m
    exact ⟨fun k q => by simp [insertForest, forestAt, Forest.slot], fun p _ => rfl⟩
  | vac f ih =>
    intro path n m
    obtain ⟨h1, h2⟩ := ih path (n + 1) m
    constructor
    · intro k q
      cases k with
      | zero =>
        simp only [insertForest, forestAt, Forest.slot, Option.none_or]
        apply h2
        intro k q' h
        have := List.append_cancel_left h
        simp at this
        omega
      | succ k =>
        have := h1 k q
        rw [show n + 1 + k = n + (k + 1) by omega] at this
        simp only [insertForest, this, forestAt, Forest.slot]
    · intro p hp
      simp only [insertForest]
      apply h2
      intro k q h
      exact hp (k + 1) q (by rw [h, show n + 1 + k = n + (k + 1) by omega])
  | occ v c f ihc ihf =>
    intro path n m
    obtain ⟨h1, h2⟩ := ihc (path ++ [n]) 0 (m.insert (path ++ [n]) v)
    obtain ⟨h3, h4⟩ := ihf path (n + 1) (insertForest (path ++ [n]) 0 c (m.insert (path ++ [n]) v))
    constructor
    · intro k q
      cases k with
      | zero =>
        simp only [insertForest, Nat.add_zero]
        rw [h4 _ (by
          intro k q' h
          have := List.append_cancel_left h
          simp at this
          omega)]
        cases q with
        | nil =>
          rw [h2 _ (by
            intro k q h
            have := congrArg List.length h
            simp at this)]
          rw [GornTree.get_insert]
          simp [forestAt, Forest.slot, nodeAt]
        | cons k q =>
          have := h1 k q
          simp only [Nat.zero_add, List.append_assoc, List.cons_append, List.nil_append] at this
          rw [this, GornTree.get_insert]
          have hne : ¬ (path ++ n :: k :: q = path ++ [n]) := by
            intro h
            have := congrArg List.length h
            simp at this
          simp only [hne, if_false]
          rfl
      | succ k =>
        simp only [insertForest]
        have := h3 k q
        rw [show n + 1 + k = n + (k + 1) by omega] at this
        rw [this]
        rw [h2 _ (by
          intro k' q' h
          simp only [List.append_assoc, List.cons_append, List.nil_append] at h
          have := List.append_cancel_left h
          simp at this)]
        rw [GornTree.get_insert]
        have hne : ¬ (path ++ (n + (k + 1)) :: q = path ++ [n]) := by
          intro h
          have := List.append_cancel_left h
          simp at this
        simp only [hne, if_false]
        rfl
    · intro p hp
      simp only [insertForest]
      rw [h4 _ (by
        intro k q h
        exact hp (k + 1) q (by rw [h, show n + 1 + k = n + (k + 1) by omega]))]
      rw [h2 _ (by
        intro k q h
        exact hp 0 (k :: q) (by rw [h]; simp))]
      rw [GornTree.get_insert]
      have hne : ¬ (p = path ++ [n]) := by
        intro h
        exact hp 0 [] (by rw [h]; simp)
      simp [hne]

/-- Inserting a node and everything below it. -/
theorem get_node (path : List Nat) (v : A) (c : Forest A) (m : GornTree A) :
    (∀ q, (insertForest path 0 c (m.insert path v)).get (path ++ q) = (nodeAt v c q).or (m.get (path ++ q))) ∧
    (∀ p, ¬ path <+: p → (insertForest path 0 c (m.insert path v)).get p = m.get p) := by
  obtain ⟨h1, h2⟩ := get_insertForest c path 0 (m.insert path v)
  constructor
  · intro q
    cases q with
    | nil =>
      rw [h2 _ (by
        intro k q h
        have := congrArg List.length h
        simp at this), GornTree.get_insert]
      simp [nodeAt]
    | cons k q =>
      have := h1 k q
      rw [Nat.zero_add] at this
      rw [this, GornTree.get_insert]
      have hne : ¬ (path ++ k :: q = path) := by
        intro h
        have := congrArg List.length h
        simp at this
      simp only [hne, if_false]
      rfl
  · intro p hp
    rw [h2 _ (by rintro k q rfl; exact hp ⟨_, rfl⟩), GornTree.get_insert]
    have hne : ¬ p = path := by rintro rfl; exact hp (List.prefix_refl _)
    simp [hne]

theorem sorted_insertForest (f : Forest A) : ∀ (path : List Nat) (n : Nat) (m : GornTree A), m.Sorted → (insertForest path n f m).Sorted := by
  induction f with
  | nil => intro path n m h; exact h
  | vac f ih => intro path n m h; exact ih _ _ _ h
  | occ v c f ihc ihf => intro path n m h; exact ihf _ _ _ (ihc _ _ _ (GornTree.sorted_insert h _ _))

theorem sorted_parents (ps : List (Frame A)) : (parentsToTree ps).1.Sorted := by
  induction ps with
  | nil => exact List.Pairwise.nil
  | cons f ps ih => exact sorted_insertForest _ _ _ _ (GornTree.sorted_insert ih _ _)

theorem sorted_toTree (t : TreeStack A) : t.toTree.1.Sorted := sorted_insertForest _ _ _ _ (GornTree.sorted_insert (sorted_parents _) _ _)

/-- Where the pointer went up, the position is free and inside of the vector. -/
def Wf (t : TreeStack A) : Prop := ∀ f ∈ t.parents, f.index < f.children.length ∧ f.children.slot f.index = none

theorem get_parents_below {ps : List (Frame A)} (h : ∀ f ∈ ps, f.index < f.children.length ∧ f.children.slot f.index = none) (q : List Nat) :
    (parentsToTree ps).1.get ((parentsToTree ps).2 ++ q) = none := by
  induction ps generalizing q with
  | nil => rfl
  | cons f ps ih =>
    simp only [parentsToTree, List.append_assoc, List.cons_append, List.nil_append]
    rw [(get_node _ _ _ _).1, ih (fun f hf => h f (by simp [hf])), nodeAt, (h f (by simp)).2]
    rfl

/-- The labels of a tree stack. -/
theorem view_below {t : TreeStack A} (h : t.Wf) (q : List Nat) : (view t).label ((view t).pointer ++ q) = nodeAt t.value t.children q := by
  show t.toTree.1.get (t.toTree.2 ++ q) = _
  simp only [toTree]
  rw [(get_node _ _ _ _).1, get_parents_below h, Option.or_none]

theorem view_outside (t : TreeStack A) {p : List Nat} (hp : ¬ (view t).pointer <+: p) : (view t).label p = (parentsToTree t.parents).1.get p := by
  show t.toTree.1.get p = _
  simp only [toTree]
  exact (get_node _ _ _ _).2 p hp

theorem pointer_eq (t : TreeStack A) : (view t).pointer = (parentsToTree t.parents).2 := rfl

theorem get_frame_below {f : Frame A} {ps : List (Frame A)} (h : ∀ f ∈ ps, f.index < f.children.length ∧ f.children.slot f.index = none) (q : List Nat) :
    (parentsToTree (f :: ps)).1.get ((parentsToTree ps).2 ++ q) = nodeAt f.value f.children q := by
  simp only [parentsToTree]
  rw [(get_node _ _ _ _).1, get_parents_below h, Option.or_none]

theorem get_frame_outside {f : Frame A} {ps : List (Frame A)} {p : List Nat} (hp : ¬ (parentsToTree ps).2 <+: p) :
    (parentsToTree (f :: ps)).1.get p = (parentsToTree ps).1.get p := by
  simp only [parentsToTree]
  exact (get_node _ _ _ _).2 p hp

theorem Marked.ext {m m' : Marked A} (h1 : m.pointer = m'.pointer) (h2 : ∀ p, m.label p = m'.label p) : m = m' := by
  obtain ⟨a, b⟩ := m
  obtain ⟨c, d⟩ := m'
  simp only at h1 h2
  subst h1
  rw [funext h2]

/-! ### the operations -/

theorem wf_new (a : A) : (new a).Wf := by intro f hf; simp [new] at hf

theorem wf_set {t : TreeStack A} (h : t.Wf) (a : A) : (t.set a).Wf := h

theorem view_set {t : TreeStack A} (h : t.Wf) (a : A) : view (t.set a) = (view t).write (view t).pointer a := by
  refine Marked.ext rfl ?_
  intro p
  simp only [Marked.write]
  by_cases hp : (view t).pointer <+: p
  · obtain ⟨q, rfl⟩ := hp
    have h1 := view_below (wf_set h a) q
    rw [show (view (t.set a)).pointer = (view t).pointer from rfl] at h1
    rw [h1, view_below h]
    cases q with
    | nil => simp [nodeAt, set]
    | cons n q =>
      have hne : ¬ ((view t).pointer ++ n :: q = (view t).pointer) := by
        intro h; have := congrArg List.length h; simp at this
      simp only [hne, if_false]; rfl
  · have hne : ¬ p = (view t).pointer := by rintro rfl; exact hp (List.prefix_refl _)
    simp only [hne, if_false]
    rw [view_outside t hp, view_outside (t.set a) hp]; rfl

/-- The children vector that `push` uses. -/
theorem push_children_slot (t : TreeStack A) (n k : Nat) :
    (if n ≥ t.children.length then t.children.pad n else t.children).slot k = t.children.slot k := by
  split
  · exact Forest.slot_pad _ _ _
  · rfl

theorem push_children_length (t : TreeStack A) (n : Nat) :
    n < (if n ≥ t.children.length then t.children.pad n else t.children).length := by
  split
  · exact Forest.lt_length_pad _ _
  · omega

theorem push_ok {t s : TreeStack A} {n : Nat} {a : A} : t.push n a = .ok s ↔ t.children.slot n = none ∧
    s = ⟨⟨n, t.value, if n ≥ t.children.length then t.children.pad n else t.children⟩ :: t.parents, a, .nil⟩ := by
  unfold push
  simp only [push_children_slot]
  cases t.children.slot n <;> simp [eq_comm]

theorem push_err {t s : TreeStack A} {n : Nat} {a : A} : t.push n a = .error s ↔ t.children.slot n ≠ none ∧ s = t := by
  unfold push
  simp only [push_children_slot]
  cases hs : t.children.slot n with
  | none => simp
  | some x =>
    have := Forest.slot_lt hs
    have : ¬ n ≥ t.children.length := by omega
    simp only [this, if_false, ne_eq, reduceCtorEq, not_false_eq_true, true_and, Except.error.injEq]
    exact eq_comm

theorem view_frame {t s : TreeStack A} (h : t.Wf) {n : Nat} {c : Forest A} {a : A} {d : Forest A}
    (hs : s = ⟨⟨n, t.value, c⟩ :: t.parents, a, d⟩) (hc : ∀ k, k ≠ n → c.slot k = t.children.slot k) (hw : s.Wf) :
    (view s).pointer = (view t).child n ∧ (∀ q, (view s).label ((view t).child n ++ q) = nodeAt a d q) ∧
      (∀ p, ¬ (view t).child n <+: p → (view s).label p = (view t).label p) := by
  subst hs
  refine ⟨rfl, fun q => view_below hw q, ?_⟩
  intro p hp
  rw [view_outside (⟨⟨n, t.value, c⟩ :: t.parents, a, d⟩ : TreeStack A) (p := p) hp]
  by_cases hp' : (view t).pointer <+: p
  · obtain ⟨q, rfl⟩ := hp'
    rw [view_below h]
    rw [pointer_eq, get_frame_below h]
    cases q with
    | nil => rfl
    | cons k q =>
      have hk : k ≠ n := by
        rintro rfl
        exact hp ⟨q, by simp [Marked.child]⟩
      simp only [nodeAt, hc k hk]
  · rw [view_outside t hp', get_frame_outside hp']

theorem wf_push {t s : TreeStack A} (h : t.Wf) {n : Nat} {a : A} (hs : t.push n a = .ok s) : s.Wf := by
  obtain ⟨h1, rfl⟩ := push_ok.1 hs
  intro f hf
  rcases List.mem_cons.1 hf with rfl | hf
  · exact ⟨push_children_length t n, by rw [push_children_slot]; exact h1⟩
  · exact h f hf

theorem label_child {t : TreeStack A} (h : t.Wf) (n : Nat) (q : List Nat) : (view t).label ((view t).child n ++ q) = forestAt t.children (n :: q) := by
  have := view_below h (n :: q)
  simp only [Marked.child, List.append_assoc, List.cons_append, List.nil_append]
  rw [this]; rfl

theorem label_child_none {t : TreeStack A} (h : t.Wf) (n : Nat) : (view t).label ((view t).child n) = none ↔ t.children.slot n = none := by
  have := label_child h n []
  rw [List.append_nil] at this
  rw [this, forestAt]
  cases t.children.slot n <;> simp [nodeAt]

theorem view_push {t s : TreeStack A} (h : t.Wf) {n : Nat} {a : A} (hs : t.push n a = .ok s) :
    view s = ((view t).write ((view t).child n) a).move ((view t).child n) := by
  have hw := wf_push h hs
  obtain ⟨h1, h2⟩ := push_ok.1 hs
  obtain ⟨h3, h4, h5⟩ := view_frame h h2 (fun k _ => push_children_slot t n k) hw
  refine Marked.ext h3 ?_
  intro p
  simp only [Marked.move, Marked.write]
  by_cases hp : (view t).child n <+: p
  · obtain ⟨q, rfl⟩ := hp
    rw [h4, label_child h]
    cases q with
    | nil => simp [nodeAt]
    | cons k q =>
      have hne : ¬ ((view t).child n ++ k :: q = (view t).child n) := by
        intro h; have := congrArg List.length h; simp at this
      simp only [hne, if_false, forestAt, h1, nodeAt, Forest.slot]
  · have hne : ¬ p = (view t).child n := by rintro rfl; exact hp (List.prefix_refl _)
    simp only [hne, if_false]
    exact h5 p hp

theorem up_ok {t s : TreeStack A} {n : Nat} : t.up n = .ok s ↔ ∃ v c, t.children.slot n = some (v, c) ∧
    s = ⟨⟨n, t.value, t.children.write n none⟩ :: t.parents, v, c⟩ := by
  unfold up
  cases hs : t.children.slot n with
  | none =>
    simp only [reduceCtorEq, false_and, exists_false, iff_false]
    split <;> simp
  | some x =>
    obtain ⟨v, c⟩ := x
    have := Forest.slot_lt hs
    simp only [gt_iff_lt, this, if_true, Except.ok.injEq, Option.some.injEq, Prod.mk.injEq]
    constructor
    · rintro rfl; exact ⟨v, c, ⟨rfl, rfl⟩, rfl⟩
    · rintro ⟨_, _, ⟨rfl, rfl⟩, rfl⟩; rfl

theorem up_err {t s : TreeStack A} {n : Nat} : t.up n = .error s ↔ t.children.slot n = none ∧ s = t := by
  unfold up
  cases hs : t.children.slot n with
  | none =>
    rw [Forest.write_none_of_slot hs]
    split <;> simp only [Except.error.injEq, true_and] <;> exact eq_comm
  | some x =>
    obtain ⟨v, c⟩ := x
    have := Forest.slot_lt hs
    simp [this]

theorem wf_up {t s : TreeStack A} (h : t.Wf) {n : Nat} (hs : t.up n = .ok s) : s.Wf := by
  obtain ⟨v, c, h1, rfl⟩ := up_ok.1 hs
  intro f hf
  rcases List.mem_cons.1 hf with rfl | hf
  · have := Forest.slot_lt h1
    exact ⟨by simpa [Forest.length_write] using this, by simp [Forest.slot_write, this]⟩
  · exact h f hf

theorem view_up {t s : TreeStack A} (h : t.Wf) {n : Nat} (hs : t.up n = .ok s) : view s = (view t).move ((view t).child n) := by
  have hw := wf_up h hs
  obtain ⟨v, c, h1, h2⟩ := up_ok.1 hs
  obtain ⟨h3, h4, h5⟩ := view_frame h h2 (fun k hk => by rw [Forest.slot_write]; simp [hk]) hw
  refine Marked.ext h3 ?_
  intro p
  simp only [Marked.move]
  by_cases hp : (view t).child n <+: p
  · obtain ⟨q, rfl⟩ := hp
    rw [h4, label_child h, forestAt, h1]
  · exact h5 p hp

theorem down_ok {t s : TreeStack A} : t.down = .ok s ↔ ∃ f ps, t.parents = f :: ps ∧
    s = ⟨ps, f.value, f.children.write f.index (some (t.value, t.children))⟩ := by
  unfold down
  cases t.parents with
  | nil => simp
  | cons f ps =>
    simp only [Except.ok.injEq, List.cons.injEq]
    constructor
    · rintro rfl; exact ⟨f, ps, ⟨rfl, rfl⟩, rfl⟩
    · rintro ⟨_, _, ⟨rfl, rfl⟩, rfl⟩; rfl

theorem down_err {t s : TreeStack A} : t.down = .error s ↔ t.parents = [] ∧ s = t := by
  unfold down
  cases t.parents <;> simp [eq_comm]

theorem wf_down {t s : TreeStack A} (h : t.Wf) (hs : t.down = .ok s) : s.Wf := by
  obtain ⟨f, ps, h1, rfl⟩ := down_ok.1 hs
  intro g hg
  exact h g (by rw [h1]; simp [show g ∈ ps from hg])

theorem view_down {t s : TreeStack A} (h : t.Wf) (hs : t.down = .ok s) :
    ∃ p n, (view t).pointer = p ++ [n] ∧ view s = (view t).move p := by
  have hw := wf_down h hs
  obtain ⟨f, ps, h1, h2⟩ := down_ok.1 hs
  have hf := h f (by rw [h1]; simp)
  have hptr : (view t).pointer = (view s).pointer ++ [f.index] := by
    rw [pointer_eq, pointer_eq, h1, h2]; rfl
  refine ⟨(view s).pointer, f.index, hptr, Marked.ext rfl ?_⟩
  intro p
  simp only [Marked.move]
  have hwps : ∀ f ∈ ps, f.index < f.children.length ∧ f.children.slot f.index = none := fun g hg => h g (by rw [h1]; simp [hg])
  by_cases hp : (view s).pointer <+: p
  · obtain ⟨q, rfl⟩ := hp
    rw [view_below hw]
    have hs2 : s.children = f.children.write f.index (some (t.value, t.children)) := by rw [h2]
    by_cases hq : [f.index] <+: q
    · obtain ⟨q', rfl⟩ := hq
      rw [← List.append_assoc, ← hptr, view_below h]
      simp only [List.cons_append, List.nil_append, nodeAt, hs2, Forest.slot_write, hf.1, and_self, if_true]
    · have hne : ¬ (view t).pointer <+: (view s).pointer ++ q := by
        rw [hptr]
        intro hx
        exact hq ((List.prefix_append_right_inj _).1 hx)
      rw [view_outside t hne, h1, pointer_eq]
      rw [show s.parents = ps by rw [h2], get_frame_below hwps]
      cases q with
      | nil => rw [show s.value = f.value by rw [h2]]; rfl
      | cons k q =>
        have hk : k ≠ f.index := by rintro rfl; exact hq ⟨q, rfl⟩
        simp [nodeAt, hs2, Forest.slot_write, hk]
  · have hp' : ¬ (view t).pointer <+: p := by
      intro hx
      apply hp
      rw [hptr] at hx
      exact (List.prefix_append _ _).trans hx
    rw [view_outside _ hp, view_outside _ hp', h1, show s.parents = ps by rw [h2], get_frame_outside]
    rw [pointer_eq, show s.parents = ps by rw [h2]] at hp
    exact hp

theorem pushNext_some (t : TreeStack A) (a : A) : ∃ s, t.pushNext a = some s ∧ t.push t.children.firstFree a = .ok s := by
  unfold pushNext
  cases h : t.push t.children.firstFree a with
  | ok s => exact ⟨s, rfl, rfl⟩
  | error s =>
    have := (push_err.1 h).1
    exact absurd (Forest.slot_firstFree _) this

theorem mapM_some_of_forall {X Y : Type _} {f : X → Option Y} {l : List X} (h : ∀ x ∈ l, ∃ y, f x = some y) : ∃ ys, l.mapM f = some ys ∧ List.Forall₂ (fun x y => f x = some y) l ys := by
  induction l with
  | nil => exact ⟨[], rfl, .nil⟩
  | cons x l ih =>
    obtain ⟨y, hy⟩ := h x (by simp)
    obtain ⟨ys, h1, h2⟩ := ih (fun x hx => h x (by simp [hx]))
    exact ⟨y :: ys, by simp [List.mapM_cons, hy, h1], .cons hy h2⟩

theorem ups_some (t : TreeStack A) : ∃ l, t.ups = some l ∧ List.Forall₂ (fun n s => t.up n = .ok s) t.children.occupied l := by
  unfold ups
  obtain ⟨ys, h1, h2⟩ := mapM_some_of_forall (f := fun i => match t.up i with | .ok s => some s | .error _ => none) (l := t.children.occupied) (by
    intro i hi
    have := Forest.mem_occupied.1 hi
    cases hu : t.up i with
    | ok s => exact ⟨s, rfl⟩
    | error s => exact absurd (up_err.1 hu).1 this)
  refine ⟨ys, h1, h2.imp ?_⟩
  intro n s h
  cases hu : t.up n with
  | ok s' => rw [hu] at h; simpa using h
  | error s' => rw [hu] at h; simp at h

theorem reachable_wf {t : TreeStack A} (h : Reachable t) : t.Wf := by
  induction h with
  | new a => exact wf_new a
  | set a _ ih => exact wf_set ih a
  | push _ hs ih => exact wf_push ih hs
  | push_err _ hs ih => rw [(push_err.1 hs).2]; exact ih
  | @pushNext t a s _ hs ih =>
    obtain ⟨s', h1, h2⟩ := pushNext_some t a
    rw [h1] at hs
    cases hs
    exact wf_push ih h2
  | up _ hs ih => exact wf_up ih hs
  | up_err _ hs ih => rw [(up_err.1 hs).2]; exact ih
  | @ups t l s _ hl hm ih =>
    obtain ⟨l', h1, h2⟩ := ups_some t
    rw [h1] at hl
    cases hl
    have : ∀ {ns : List Nat} {l : List (TreeStack A)}, List.Forall₂ (fun n s => t.up n = .ok s) ns l → s ∈ l → ∃ n, t.up n = .ok s := by
      intro ns l h hm
      induction h with
      | nil => simp at hm
      | cons h1 _ ih =>
        rcases List.mem_cons.1 hm with rfl | hm
        · exact ⟨_, h1⟩
        · exact ih hm
    obtain ⟨n, hn⟩ := this h2 hm
    exact wf_up ih hn
  | down _ hs ih => exact wf_down ih hs
  | down_err _ hs ih => rw [(down_err.1 hs).2]; exact ih

theorem forest_all_slot (p : A → Bool) (f : Forest A) :
    f.all p = true ↔ ∀ n v c, f.slot n = some (v, c) → p v = true ∧ c.all p = true := by
  induction f with
  | nil => simp [Forest.all, Forest.slot]
  | vac f ih =>
    rw [Forest.all, ih]
    constructor
    · intro h n v c hs
      cases n with
      | zero => simp [Forest.slot] at hs
      | succ n => exact h n v c hs
    · intro h n v c hs
      exact h (n + 1) v c hs
  | occ w d f _ ih =>
    rw [Forest.all, Bool.and_eq_true, Bool.and_eq_true, ih]
    constructor
    · rintro ⟨h1, h2⟩ n v c hs
      cases n with
      | zero =>
        simp only [Forest.slot, Option.some.injEq, Prod.mk.injEq] at hs
        rw [← hs.1, ← hs.2]; exact h1
      | succ n => exact h2 n v c hs
    · intro h
      exact ⟨h 0 w d rfl, fun n v c hs => h (n + 1) v c hs⟩

theorem forest_size (f : Forest A) : ∀ n v c, f.slot n = some (v, c) → sizeOf c < sizeOf f := by
  induction f with
  | nil => intro n v c h; simp [Forest.slot] at h
  | vac f ih =>
    intro n v c h
    cases n with
    | zero => simp [Forest.slot] at h
    | succ n => have := ih n v c h; simp; omega
  | occ w d f _ ih =>
    intro n v c h
    cases n with
    | zero =>
      simp only [Forest.slot, Option.some.injEq, Prod.mk.injEq] at h
      rw [← h.2]; simp; omega
    | succ n => have := ih n v c h; simp; omega

theorem all_nodeAt (p : A → Bool) (f : Forest A) (v : A) :
    (p v && f.all p) = true ↔ ∀ q b, nodeAt v f q = some b → p b = true := by
  rw [Bool.and_eq_true, forest_all_slot]
  constructor
  · rintro ⟨h1, h2⟩ q b hq
    cases q with
    | nil => simp only [nodeAt, Option.some.injEq] at hq; rw [← hq]; exact h1
    | cons n q =>
      rw [nodeAt] at hq
      cases hs : f.slot n with
      | none => simp [hs] at hq
      | some x =>
        obtain ⟨w, c⟩ := x
        rw [hs] at hq
        have hlt := forest_size f n w c hs
        exact (all_nodeAt p c w).1 (by rw [Bool.and_eq_true]; exact h2 n w c hs) q b hq
  · intro h
    refine ⟨h [] v rfl, ?_⟩
    intro n w c hs
    have hlt := forest_size f n w c hs
    rw [← Bool.and_eq_true]
    refine (all_nodeAt p c w).2 ?_
    intro q b hq
    exact h (n :: q) b (by rw [nodeAt, hs]; exact hq)
termination_by sizeOf f

end TreeStack
end Rustomata
