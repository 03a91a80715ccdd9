import Verif.Proofs.CsGroup
import Verif.Model.CsParse

/-!
# Cow derivations of bracket words
-/

namespace Rustomata
open Spec

/-- The successors of the cow derivation of parts. -/
def cowSuccs : Parts → List ((Nat × Nat) × CowNode)
  | .nil => []
  | .term P => cowSuccs P
  | .part i j rid P₁ P₂ => ((i, j), .node rid (cowSuccs P₁)) :: cowSuccs P₂

/-- The cow derivation of a component. -/
def cowOf (rid : Nat) (P : Parts) : CowNode := .node rid (cowSuccs P)

theorem cowSuccs_tops (P : Parts) : cowSuccs P = (Parts.tops P).map fun x => (x.1, cowOf x.2.1 x.2.2) := by
  induction P with
  | nil => rfl
  | term P ih => exact ih
  | part i j rid P₁ P₂ _ ih => rw [cowSuccs, ih]; rfl

namespace CowNode

theorem modifyLast_comp (f g : CowNode → CowNode) : ∀ (k : Nat) (t : CowNode), modifyLast g k (modifyLast f k t) = modifyLast (fun t => g (f t)) k t
  | 0, t => rfl
  | k + 1, .node c s => by
    rw [modifyLast, modifyLast]
    cases h : s.getLast? with
    | none => simp only; rw [modifyLast, h]
    | some x =>
      simp only
      rw [modifyLast, List.getLast?_concat, List.dropLast_concat]
      simp only
      rw [modifyLast_comp f g k]

theorem modifyLast_push (g : CowNode → CowNode) (l : Nat × Nat) (t₀ : CowNode) : ∀ (k : Nat) (t : CowNode),
    modifyLast g (k + 1) (modifyLast (fun t => .node t.content (t.successors ++ [(l, t₀)])) k t) =
      modifyLast (fun t => .node t.content (t.successors ++ [(l, g t₀)])) k t
  | 0, t => by
    simp only [modifyLast, List.getLast?_concat, List.dropLast_concat]
  | k + 1, .node c s => by
    rw [modifyLast.eq_2 _ k, modifyLast.eq_2 _ k]
    cases h : s.getLast? with
    | none => simp only; rw [modifyLast, h]
    | some x =>
      simp only
      rw [modifyLast, List.getLast?_concat, List.dropLast_concat]
      simp only
      rw [modifyLast_push g l t₀ k]

theorem newLoop_word (P : Parts) : ∀ (rid k : Nat) (v : List (Bracket BracketContent)) (root : CowNode), newLoop (P.word rid ++ v) root (k + 1) =
    newLoop v (root.modifyLast (fun t => .node t.content (t.successors ++ cowSuccs P)) k) (k + 1) := by
  have hid : ∀ (k : Nat) (t : CowNode), modifyLast (fun t => .node t.content (t.successors ++ [])) k t = t := by
    intro k
    induction k with
    | zero =>
      intro t
      cases t with
      | node c s => simp [modifyLast, content, successors]
    | succ k ih =>
      intro t
      cases t with
      | node c s =>
        rw [modifyLast]
        cases h : s.getLast? with
        | none => rfl
        | some x =>
          simp only [ih]
          rw [List.getLast?_eq_some_iff] at h
          obtain ⟨s', rfl⟩ := h
          simp
  induction P with
  | nil => intro rid k v root; simp only [Spec.Parts.word, List.nil_append, cowSuccs, hid]
  | term P ih => intro rid k v root; simp only [Spec.Parts.word, List.cons_append, newLoop, cowSuccs]; exact ih rid k v root
  | part i j r P₁ P₂ ih₁ ih₂ =>
    intro rid k v root
    simp only [Spec.Parts.word, List.cons_append, List.append_assoc, newLoop]
    rw [modifyLast_push, ih₁, modifyLast_push]
    simp only [newLoop, Nat.add_sub_cancel]
    rw [ih₂, modifyLast_comp]
    simp only [content, successors, List.append_assoc, List.cons_append, List.nil_append, cowSuccs]

/-- `CowDerivation::new` returns the cow derivation of a bracket word of a component. -/
theorem new_compWord (rid c : Nat) (P : Parts) : CowNode.new (compWord rid c P) = some (cowOf rid P) := by
  unfold CowNode.new compWord
  rw [List.cons_append, newLoop, newLoop_word]
  simp only [newLoop, modifyLast, successors, content, List.nil_append]
  rfl

end CowNode

/-! ### Renumbering -/

section
variable {N : Type _}

/-- One step of the renumbering. -/
def mergeStep (s : AMap (Nat × Nat) Nat × List N) (x : (Nat × Nat) × N) : AMap (Nat × Nat) Nat × List N :=
  match s.1.get x.1 with
  | some _ => s
  | none => (s.1.set x.1 s.2.length, s.2 ++ [x.2])

/-- The renumbering maps the keys `L` to the positions of `s.2`. -/
structure Renumbered (s : AMap (Nat × Nat) Nat × List N) (L : List ((Nat × Nat) × N)) : Prop where
  get : ∀ k i, s.1.get k = some i → ∃ n, (k, n) ∈ L ∧ s.2[i]? = some n
  inj : ∀ k k' i, s.1.get k = some i → s.1.get k' = some i → k = k'
  surj : ∀ i < s.2.length, ∃ k, s.1.get k = some i
  total : ∀ x ∈ L, ∃ i, s.1.get x.1 = some i

theorem renumbered_step {s : AMap (Nat × Nat) Nat × List N} {L : List ((Nat × Nat) × N)} (h : Renumbered s L) (x : (Nat × Nat) × N) :
    Renumbered (mergeStep s x) (L ++ [x]) := by
  unfold mergeStep
  split
  · rename_i i hi
    exact ⟨fun k i hk => by
      obtain ⟨n, h1, h2⟩ := h.get k i hk
      exact ⟨n, List.mem_append_left _ h1, h2⟩, h.inj, h.surj, fun y hy => by
      rcases List.mem_append.1 hy with hy | hy
      · exact h.total y hy
      · rw [List.mem_singleton] at hy
        subst hy
        exact ⟨i, hi⟩⟩
  · rename_i hn
    have hlt : ∀ k i, s.1.get k = some i → i < s.2.length := fun k i hk => by
      obtain ⟨n, _, h2⟩ := h.get k i hk
      exact (List.getElem?_eq_some_iff.1 h2).1
    refine ⟨fun k i hk => ?_, fun k k' i hk hk' => ?_, fun i hi => ?_, fun y hy => ?_⟩
    · simp only at hk ⊢
      rw [AMap.get_set] at hk
      split at hk
      · rename_i e
        cases hk
        subst e
        exact ⟨x.2, by simp, by simp⟩
      · obtain ⟨n, h1, h2⟩ := h.get k i hk
        exact ⟨n, List.mem_append_left _ h1, by rw [List.getElem?_append_left (hlt k i hk)]; exact h2⟩
    · simp only at hk hk'
      rw [AMap.get_set] at hk hk'
      split at hk <;> split at hk'
      · rename_i e e'
        exact e.symm.trans e'
      · cases hk
        have := hlt _ _ hk'
        omega
      · cases hk'
        have := hlt _ _ hk
        omega
      · exact h.inj k k' i hk hk'
    · simp only [List.length_append, List.length_singleton] at hi ⊢
      by_cases e : i = s.2.length
      · subst e
        exact ⟨x.1, by rw [AMap.get_set_self]⟩
      · obtain ⟨k, hk⟩ := h.surj i (by omega)
        refine ⟨k, ?_⟩
        rw [AMap.get_set, if_neg ?_]
        · exact hk
        · rintro rfl
          rw [hn] at hk
          cases hk
    · simp only
      rw [AMap.get_set]
      split
      · exact ⟨_, rfl⟩
      · rename_i e
        rcases List.mem_append.1 hy with hy | hy
        · exact h.total y hy
        · rw [List.mem_singleton] at hy
          subst hy
          exact absurd rfl e

theorem renumbered_foldl (L : List ((Nat × Nat) × N)) : ∀ (s : AMap (Nat × Nat) Nat × List N) (L₀ : List ((Nat × Nat) × N)), Renumbered s L₀ →
    Renumbered (L.foldl mergeStep s) (L₀ ++ L) := by
  induction L with
  | nil => intro s L₀ h; simpa using h
  | cons x L ih =>
    intro s L₀ h
    have := ih _ _ (renumbered_step h x)
    rwa [List.append_assoc] at this

theorem renumbered_nil : Renumbered (([], []) : AMap (Nat × Nat) Nat × List N) [] :=
  ⟨fun k i h => (by cases h), fun k k' i h => (by cases h), fun i h => (by cases h), fun x h => (by cases h)⟩

end

/-! ### Groups -/

theorem VecMultiMap.padTo_getD {X : Type _} (m : List (List X)) (i n : Nat) : ((VecMultiMap.padTo m i)[n]?).getD [] = (m[n]?).getD [] := by
  unfold VecMultiMap.padTo
  split
  · rename_i h
    unfold VecMultiMap.resize
    rw [List.take_of_length_le (by omega), List.getElem?_append]
    split
    · rfl
    · rename_i hn
      rw [List.getElem?_eq_none (l := m) (by omega), List.getElem?_replicate]
      split <;> rfl
  · rfl

theorem VecMultiMap.padTo_length_max {X : Type _} (m : List (List X)) (i : Nat) : (VecMultiMap.padTo m i).length = max m.length (i + 1) := by
  unfold VecMultiMap.padTo
  split
  · unfold VecMultiMap.resize
    rw [List.length_append, List.length_replicate, List.length_take]
    omega
  · omega

theorem VecMultiMap.pushTo_getD {X : Type _} (m : List (List X)) (i : Nat) (x : X) (n : Nat) :
    ((VecMultiMap.pushTo m i x)[n]?).getD [] = (m[n]?).getD [] ++ (if i = n then [x] else []) := by
  unfold VecMultiMap.pushTo
  rw [List.getElem?_modify]
  by_cases hin : i = n
  · subst hin
    have hlt : i < (VecMultiMap.padTo m i).length := by rw [VecMultiMap.padTo_length_max]; omega
    rw [← VecMultiMap.padTo_getD m i i, List.getElem?_eq_getElem hlt]
    simp
  · simp [hin, VecMultiMap.padTo_getD]

theorem VecMultiMap.pushTo_length {X : Type _} (m : List (List X)) (i : Nat) (x : X) : (VecMultiMap.pushTo m i x).length = max m.length (i + 1) := by
  unfold VecMultiMap.pushTo
  rw [List.length_modify, VecMultiMap.padTo_length_max]

theorem pushAll_getD {X : Type _} (L : List (Nat × X)) : ∀ (m : List (List X)) (n : Nat),
    ((L.foldl (fun m x => VecMultiMap.pushTo m x.1 x.2) m)[n]?).getD [] = (m[n]?).getD [] ++ (L.filter fun x => x.1 = n).map Prod.snd := by
  induction L with
  | nil => intro m n; simp
  | cons x L ih =>
    intro m n
    rw [List.foldl_cons, ih, VecMultiMap.pushTo_getD, List.filter_cons]
    split <;> rename_i h
    · simp [h]
    · simp [h]

theorem pushAll_length {X : Type _} (L : List (Nat × X)) : ∀ (m : List (List X)) (n : Nat), m.length ≤ n → (∀ x ∈ L, x.1 < n) → (m.length < n → ∃ x ∈ L, x.1 + 1 = n) →
    (L.foldl (fun m x => VecMultiMap.pushTo m x.1 x.2) m).length = n := by
  induction L with
  | nil =>
    intro m n h1 _ h3
    by_contra hne
    obtain ⟨x, hx, _⟩ := h3 (by simp only [List.foldl_nil] at hne; omega)
    cases hx
  | cons x L ih =>
    intro m n h1 h2 h3
    have hx := h2 x (List.mem_cons_self ..)
    refine ih _ n (by rw [VecMultiMap.pushTo_length]; omega) (fun y hy => h2 y (List.mem_cons_of_mem _ hy)) fun hlt => ?_
    rw [VecMultiMap.pushTo_length] at hlt
    obtain ⟨y, hy, e⟩ := h3 (by omega)
    rcases List.mem_cons.1 hy with rfl | hy
    · omega
    · exact ⟨y, hy, e⟩

/-! ### Merged compositions -/

section
variable {N T W : Type _}

theorem modifyAll {X : Type _} (L : List (Nat × List X)) : ∀ (C : List (List X)), (L.map Prod.fst).Nodup →
    ∀ n : Nat, (L.foldl (fun C x => C.modify x.1 (· ++ x.2)) C)[n]? =
      match L.find? fun x => x.1 = n with
      | none => C[n]?
      | some x => (C[n]?).map (· ++ x.2) := by
  induction L with
  | nil => intro C _ n; rfl
  | cons x L ih =>
    intro C h n
    rw [List.map_cons, List.nodup_cons] at h
    rw [List.foldl_cons, ih _ h.2, List.find?_cons]
    by_cases e : x.1 = n
    · have : L.find? (fun x => decide (x.1 = n)) = none := by
        rw [List.find?_eq_none]
        intro y hy hyn
        simp only [decide_eq_true_eq] at hyn
        exact h.1 (List.mem_map.2 ⟨y, hy, by omega⟩)
      simp only [this, e, decide_true]
      rw [List.getElem?_modify, ]
      simp
    · simp only [e, decide_false, List.getElem?_modify, if_false]
      cases List.find? (fun x => decide (x.1 = n)) L <;> simp

end

end Rustomata
