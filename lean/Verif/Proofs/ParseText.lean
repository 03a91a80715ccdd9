import Verif.Spec.ParseText
import Verif.Proofs.TreeStack
import Verif.Proofs.FromStr

/-!
# Helper lemmas: the drawing of a tree
-/

set_option linter.unusedSectionVars false
set_option linter.unusedSimpArgs false

namespace Rustomata
open Spec
variable {A : Type _}

/-! ### Texts that are separated -/

theorem split_at_sep {s : Nat} {a b x y : List Nat} (ha : s ∉ a) (hb : s ∉ b) (h : a ++ s :: x = b ++ s :: y) : a = b ∧ x = y := by
  induction a generalizing b with
  | nil =>
    cases b with
    | nil => simpa using h
    | cons c b => simp only [List.nil_append, List.cons_append, List.cons.injEq] at h; simp [h.1] at hb
  | cons c a ih =>
    cases b with
    | nil => simp only [List.nil_append, List.cons_append, List.cons.injEq] at h; simp [h.1] at ha
    | cons d b =>
      simp only [List.cons_append, List.cons.injEq] at h
      simp only [List.mem_cons, not_or] at ha hb
      obtain ⟨h1, h2⟩ := ih ha.2 hb.2 h.2
      exact ⟨by rw [h.1, h1], h2⟩

theorem ended_inj {s : Nat} {L L' : List (List Nat)} (h : ∀ l ∈ L, s ∉ l) (h' : ∀ l ∈ L', s ∉ l) (he : (L.flatMap fun l => l ++ [s]) = L'.flatMap fun l => l ++ [s]) :
    L = L' := by
  induction L generalizing L' with
  | nil =>
    cases L' with
    | nil => rfl
    | cons l L' => simp at he
  | cons l L ih =>
    cases L' with
    | nil => simp at he
    | cons l' L' =>
      simp only [List.flatMap_cons, List.append_assoc, List.cons_append, List.nil_append] at he
      obtain ⟨h1, h2⟩ := split_at_sep (h l (by simp)) (h' l' (by simp)) he
      rw [h1, ih (fun l hl => h l (by simp [hl])) (fun l hl => h' l (by simp [hl])) h2]

theorem natText_inj {m n : Nat} (h : natText m = natText n) : m = n := by
  rw [← digitsValue_natText m, h, digitsValue_natText]

theorem natText_not {b n : Nat} (hb : b < 48 ∨ 57 < b) : b ∉ natText n := by
  intro h
  have := natText_digit n b h
  simp at this
  omega

theorem positionText_inj {a a' : List Nat} {i j i' j' : Nat}
    (h : [40] ++ a ++ [44, 32] ++ natText i ++ [44, 32] ++ natText j ++ [41] = [40] ++ a' ++ [44, 32] ++ natText i' ++ [44, 32] ++ natText j' ++ [41]) :
    a = a' ∧ i = i' ∧ j = j' := by
  simp only [List.append_assoc, List.cons_append, List.nil_append, List.cons.injEq, true_and] at h
  have h1 := congrArg List.reverse h
  simp only [List.reverse_append, List.reverse_cons, List.append_assoc, List.cons_append, List.nil_append, List.cons.injEq, true_and, List.reverse_nil] at h1
  have hnn : ∀ n : Nat, 32 ∉ (natText n).reverse := fun n hm => natText_not (n := n) (b := 32) (by omega) (List.mem_reverse.1 hm)
  obtain ⟨h2, h3⟩ := split_at_sep (hnn j) (hnn j') h1
  simp only [List.cons.injEq, true_and] at h3
  obtain ⟨h4, h5⟩ := split_at_sep (hnn i) (hnn i') h3
  simp only [List.cons.injEq, true_and] at h5
  exact ⟨List.reverse_inj.1 h5, natText_inj (List.reverse_inj.1 h4), natText_inj (List.reverse_inj.1 h2)⟩

/-! ### Addresses -/

theorem prefix_of_between {a p : List Nat} {n : Nat} (h : a ≤ p) (h' : p < a ++ [n]) : a <+: p := by
  induction a generalizing p with
  | nil => exact List.nil_prefix
  | cons x a ih =>
    cases p with
    | nil =>
      exact absurd h (not_le.2 (List.nil_lt_cons x a))
    | cons y p =>
      rw [List.cons_append, List.cons_lt_cons_iff] at h'
      rw [← not_lt, List.cons_lt_cons_iff, not_or] at h
      have hxy : y = x := (h'.resolve_left h.1).1
      subst hxy
      exact (List.prefix_cons_inj y).2 (ih (not_lt.1 fun hlt => h.2 ⟨rfl, hlt⟩) (h'.resolve_left h.1).2)

theorem lt_append_singleton (a : List Nat) (n : Nat) : a < a ++ [n] := by
  induction a with
  | nil => exact List.nil_lt_cons _ _
  | cons x a ih => exact List.cons_lt_cons_iff.2 (.inr ⟨rfl, ih⟩)

/-- In a sorted list that contains with each address the one above, the address above the last one is above the one before the last one. -/
theorem dropLast_prefix {L : List (List Nat)} {p q : List Nat} (hs : (L ++ [p] ++ [q]).Pairwise (· < ·))
    (hc : ∀ a i, a ++ [i] ∈ L ++ [p] ++ [q] → a ∈ L ++ [p] ++ [q]) (hq : q ≠ []) : q.dropLast <+: p := by
  obtain ⟨a, i, rfl⟩ : ∃ a i, q = a ++ [i] := ⟨_, _, (List.dropLast_append_getLast hq).symm⟩
  rw [List.dropLast_concat]
  have hm := hc a i (by simp)
  rw [List.pairwise_append] at hs
  obtain ⟨hs, _, h2⟩ := hs
  have hlt : p < a ++ [i] := h2 p (by simp) _ (by simp)
  refine prefix_of_between ?_ hlt
  simp only [List.mem_append, List.mem_singleton] at hm
  rcases hm with (hm | rfl) | hm
  · rw [List.pairwise_append] at hs
    exact le_of_lt (hs.2.2 a hm p (by simp))
  · exact le_refl _
  · have := congrArg List.length hm
    simp at this

/-- The addresses are determined by their lengths and their last elements. -/
theorem addresses_inj {L : List (List Nat)} : ∀ {L' : List (List Nat)}, L.Pairwise (· < ·) → L'.Pairwise (· < ·) → (∀ a i, a ++ [i] ∈ L → a ∈ L) →
    (∀ a i, a ++ [i] ∈ L' → a ∈ L') → (L.map fun p => (p.length, p.getLast?)) = L'.map (fun p => (p.length, p.getLast?)) → L = L' := by
  induction L using List.reverseRecOn with
  | nil =>
    intro L' _ _ _ _ he
    cases L' with
    | nil => rfl
    | cons p L' => simp at he
  | append_singleton L q ih =>
    intro L' hs hs' hc hc' he
    rcases List.eq_nil_or_concat L' with rfl | ⟨L', q', rfl⟩
    · simp at he
    rw [List.concat_eq_append] at *
    simp only [List.map_append, List.map_cons, List.map_nil] at he
    obtain ⟨he1, he2⟩ := List.append_inj_right he
        (by have := congrArg List.length he; simp at this; simp [this]) |> fun h => (⟨List.append_inj_left he (by have := congrArg List.length he; simp at this; simp [this]), h⟩ :
          _ ∧ _)
    have hcl : ∀ {L : List (List Nat)} {q : List Nat}, (L ++ [q]).Pairwise (· < ·) → (∀ a i, a ++ [i] ∈ L ++ [q] → a ∈ L ++ [q]) → ∀ a i, a ++ [i] ∈ L → a ∈ L := by
      intro L q hs hc a i hm
      have := hc a i (by simp [hm])
      simp only [List.mem_append, List.mem_singleton] at this
      rcases this with h | rfl
      · exact h
      · rw [List.pairwise_append] at hs
        exact absurd (lt_trans (hs.2.2 _ hm _ (by simp)) (lt_append_singleton a i)) (lt_irrefl _)
    have hL := ih ((List.pairwise_append.1 hs).1) ((List.pairwise_append.1 hs').1) (hcl hs hc) (hcl hs' hc') he1
    subst hL
    simp only [List.cons.injEq, Prod.mk.injEq, and_true] at he2
    obtain ⟨hlen, hlast⟩ := he2
    congr 1
    by_cases hq : q = []
    · subst hq
      rw [List.eq_nil_of_length_eq_zero hlen.symm]
    have hq' : q' ≠ [] := by rintro rfl; exact hq (List.eq_nil_of_length_eq_zero hlen)
    have hd : q.dropLast = q'.dropLast := by
      rcases List.eq_nil_or_concat L with rfl | ⟨L, p, rfl⟩
      · have h1 := hc q.dropLast (q.getLast hq) (by simp [List.dropLast_append_getLast hq])
        simp only [List.nil_append, List.mem_singleton] at h1
        have := congrArg List.length h1
        have := List.length_pos_iff.2 hq
        simp at *
        omega
      · rw [List.concat_eq_append] at *
        have h1 := dropLast_prefix hs hc hq
        have h2 := dropLast_prefix hs' hc' hq'
        rcases List.prefix_or_prefix_of_prefix h1 h2 with h | h
        · exact h.eq_of_length (by simp [hlen])
        · exact (h.eq_of_length (by simp [hlen])).symm
    rw [← List.dropLast_append_getLast hq, ← List.dropLast_append_getLast hq', hd]
    rw [List.getLast?_eq_some_getLast hq, List.getLast?_eq_some_getLast hq'] at hlast
    rw [Option.some.inj hlast]

/-! ### The lines of a node -/

theorem bars_length (p : List Nat) : ((p.map fun _ => [124, 32]).flatten : List Nat).length = 2 * p.length := by
  induction p with
  | nil => rfl
  | cons x p ih => simp only [List.map_cons, List.flatten_cons, List.length_append, ih, List.length_cons, List.length_nil]; omega

theorem bars_eq {p q : List Nat} (h : p.length = q.length) : ((p.map fun _ => [124, 32]).flatten : List Nat) = (q.map fun _ => [124, 32]).flatten := by
  induction p generalizing q with
  | nil => rw [List.eq_nil_of_length_eq_zero h.symm]
  | cons x p ih =>
    cases q with
    | nil => simp at h
    | cons y q => simp only [List.map_cons, List.flatten_cons]; rw [ih (by simpa using h)]

theorem bars_mem {p : List Nat} {b : Nat} (h : b ∈ ((p.map fun _ => [124, 32]).flatten : List Nat)) : b = 124 ∨ b = 32 := by
  simp only [List.mem_flatten, List.mem_map] at h
  obtain ⟨l, ⟨_, _, rfl⟩, hb⟩ := h
  simpa using hb

theorem mark_inj {m m' : Bool} (h : (if m = true then 42 else 32) = (if m' = true then 42 else 32 : Nat)) : m = m' := by
  cases m <;> cases m' <;> simp at h ⊢

theorem nodeLines_inj {m m' : Bool} {v v' p p' : List Nat} (h : nodeLines m v p = nodeLines m' v' p') :
    m = m' ∧ v = v' ∧ p.length = p'.length ∧ p.getLast? = p'.getLast? := by
  have hlen : p.length = p'.length := by
    cases p <;> cases p' <;> simp only [nodeLines, List.cons.injEq] at h
    · rfl
    · have := congrArg List.length h.1
      simp at this
    · have := congrArg List.length h.1
      simp at this
    · have := congrArg List.length h.1
      simp only [List.length_append, List.length_cons, List.length_nil, bars_length] at this ⊢
      omega
  cases p with
  | nil =>
    cases p' with
    | cons x' p' => simp at hlen
    | nil =>
      simp only [nodeLines, List.cons.injEq, and_true, true_and] at h
      exact ⟨mark_inj h.1, h.2, rfl, rfl⟩
  | cons x p =>
    cases p' with
    | nil => simp at hlen
    | cons x' p' =>
      simp only [nodeLines, List.cons.injEq, and_true, List.append_assoc, List.cons_append] at h
      obtain ⟨_, h1, h2⟩ := h
      rw [bars_eq (by simpa using hlen)] at h2
      have h3 := List.append_cancel_left h2
      simp only [List.nil_append, List.cons.injEq, true_and] at h3
      obtain ⟨h4, h5⟩ := split_at_sep (natText_not (by omega)) (natText_not (by omega)) h3
      refine ⟨mark_inj h1, by simpa using h5, hlen, ?_⟩
      have h6 := natText_inj h4
      rw [List.getLastD_eq_getLast?, List.getLastD_eq_getLast?] at h6
      rw [List.getLast?_eq_some_getLast (by simp : x :: p ≠ []), List.getLast?_eq_some_getLast (by simp : x' :: p' ≠ [])] at h6 ⊢
      simpa using h6

theorem nodeLines_newline {m : Bool} {v p : List Nat} (hv : 10 ∉ v) : ∀ l ∈ nodeLines m v p, 10 ∉ l := by
  cases p with
  | nil =>
    intro l hl
    simp only [nodeLines, List.mem_cons, List.not_mem_nil, or_false] at hl
    rcases hl with rfl | rfl
    · simp
    · cases m <;> simp [hv]
  | cons x p =>
    have hb : 10 ∉ ((p.map fun _ => [124, 32]).flatten : List Nat) := fun h => by have := bars_mem h; omega
    intro l hl
    simp only [nodeLines, List.mem_cons, List.not_mem_nil, or_false] at hl
    rcases hl with rfl | rfl
    · simp only [List.mem_append, List.mem_cons, List.not_mem_nil]
      simp [hb]
    · simp only [List.mem_append, List.mem_cons, List.not_mem_nil]
      cases m <;> simp [hb, hv] <;> exact natText_not (by omega)

theorem pairs_inj {D E : Type _} {f : D → List E} {L : List D} {f' : D → List E} {L' : List D} (hf : ∀ d ∈ L, (f d).length = 2) (hf' : ∀ d ∈ L', (f' d).length = 2)
    (h : L.flatMap f = L'.flatMap f') : L.map f = L'.map f' := by
  induction L generalizing L' with
  | nil =>
    cases L' with
    | nil => rfl
    | cons d L' =>
      have h1 := congrArg List.length h
      have h2 := hf' d (by simp)
      rw [List.flatMap_cons, List.length_append, h2] at h1
      simp only [List.flatMap_nil, List.length_nil] at h1
      omega
  | cons d L ih =>
    cases L' with
    | nil =>
      have h1 := congrArg List.length h
      have h2 := hf d (by simp)
      rw [List.flatMap_cons, List.length_append, h2] at h1
      simp only [List.flatMap_nil, List.length_nil] at h1
      omega
    | cons d' L' =>
      simp only [List.flatMap_cons] at h
      have h1 : (f d).length = (f' d').length := by rw [hf d (by simp), hf' d' (by simp)]
      rw [List.map_cons, List.map_cons, List.append_inj_left h h1, ih (fun d hd => hf d (by simp [hd])) (fun d hd => hf' d (by simp [hd])) (List.append_inj_right h h1)]

theorem nodeLines_length (m : Bool) (v p : List Nat) : (nodeLines m v p).length = 2 := by cases p <;> rfl

/-- The drawing determines the tree and the marked node. -/
theorem drawing_inj {label label' : List Nat → Option (List Nat)} {q q' text : List Nat} (h : Drawing label q text) (h' : Drawing label' q' text)
    (ht : TreeLike label) (ht' : TreeLike label') (hn : ∀ p v, label p = some v → 10 ∉ v) (hn' : ∀ p v, label' p = some v → 10 ∉ v) :
    label = label' ∧ (label q ≠ none → q = q') := by
  obtain ⟨ps, s1, m1, rfl⟩ := h
  obtain ⟨ps', s2, m2, he⟩ := h'
  have hnl : ∀ {label : List Nat → Option (List Nat)} {q : List Nat} {ps : List (List Nat)}, (∀ p v, label p = some v → 10 ∉ v) →
      ∀ l ∈ ps.flatMap fun p => nodeLines (p = q) ((label p).getD []) p, 10 ∉ l := by
    intro label q ps hn l hl
    obtain ⟨p, _, hp⟩ := List.mem_flatMap.1 hl
    refine nodeLines_newline ?_ l hp
    cases hv : label p with
    | none => simp
    | some v => exact hn p v hv
  have h1 := ended_inj (hnl hn) (hnl hn') he
  have h2 := pairs_inj (fun _ _ => nodeLines_length _ _ _) (fun _ _ => nodeLines_length _ _ _) h1
  have hps : ps = ps' := by
    refine addresses_inj s1 s2 (fun a i h => (m1 a).2 (ht.2 a i ((m1 _).1 h))) (fun a i h => (m2 a).2 (ht'.2 a i ((m2 _).1 h))) ?_
    refine List.ext_getElem (by simpa using congrArg List.length h2) fun i hi hi' => ?_
    have := congrArg (·[i]?) h2
    rw [List.length_map] at hi hi'
    simp only [List.getElem?_map, List.getElem?_eq_getElem hi, List.getElem?_eq_getElem hi', Option.map_some, Option.some.injEq] at this
    have := nodeLines_inj this
    simp [this.2.2.1, this.2.2.2]
  subst hps
  have h3 := List.map_inj_left.1 h2
  refine ⟨funext fun p => ?_, fun hq => ?_⟩
  · by_cases hp : p ∈ ps
    · have h4 := nodeLines_inj (h3 p hp)
      obtain ⟨v, hv⟩ := Option.ne_none_iff_exists'.1 ((m1 p).1 hp)
      obtain ⟨v', hv'⟩ := Option.ne_none_iff_exists'.1 ((m2 p).1 hp)
      rw [hv, hv'] at h4 ⊢
      rw [show v = v' from h4.2.1]
    · have h5 := mt (m1 p).2 hp
      have h6 := mt (m2 p).2 hp
      rw [not_not] at h5 h6
      rw [h5, h6]
  · have := (nodeLines_inj (h3 q ((m1 q).2 hq))).1
    simpa using this.symm

/-! ### Tree stacks -/

def GornTree.Closed {V : Type _} (m : GornTree V) : Prop := ∀ p i, m.get (p ++ [i]) ≠ none → m.get p ≠ none

theorem GornTree.closed_insert {V : Type _} {m : GornTree V} (h : m.Closed) {k : List Nat} (v : V) (hk : ∀ p i, k = p ++ [i] → m.get p ≠ none) : (m.insert k v).Closed := by
  intro p i hp
  rw [GornTree.get_insert] at hp ⊢
  split
  · simp
  · split at hp
    · rename_i hk'
      exact hk p i hk'.symm
    · exact h p i hp

theorem GornTree.mono_insert {V : Type _} {m : GornTree V} {p : List Nat} (h : m.get p ≠ none) (k : List Nat) (v : V) : (m.insert k v).get p ≠ none := by
  rw [GornTree.get_insert]
  split
  · simp
  · exact h

theorem mono_insertForest (f : Forest A) : ∀ (path : List Nat) (n : Nat) (m : GornTree A) (p : List Nat), m.get p ≠ none → (TreeStack.insertForest path n f m).get p ≠ none := by
  induction f with
  | nil => intro path n m p h; exact h
  | vac f ih => intro path n m p h; exact ih _ _ _ _ h
  | occ v c f ihc ihf => intro path n m p h; exact ihf _ _ _ _ (ihc _ _ _ _ (GornTree.mono_insert h _ _))

theorem closed_insertForest (f : Forest A) : ∀ (path : List Nat) (n : Nat) (m : GornTree A), m.Closed → m.get path ≠ none → (TreeStack.insertForest path n f m).Closed := by
  induction f with
  | nil => intro path n m h _; exact h
  | vac f ih => intro path n m h h'; exact ih _ _ _ h h'
  | occ v c f ihc ihf =>
    intro path n m h h'
    have hk : ∀ p i, path ++ [n] = p ++ [i] → m.get p ≠ none := by
      intro p i he
      rw [← (List.append_inj' he rfl).1]
      exact h'
    refine ihf _ _ _ (ihc _ _ _ (GornTree.closed_insert h v hk) ?_) ?_
    · rw [GornTree.get_insert, if_pos rfl]; simp
    · exact mono_insertForest _ _ _ _ _ (GornTree.mono_insert h' _ _)

theorem closed_parents (ps : List (Frame A)) : (TreeStack.parentsToTree ps).1.Closed ∧ (∀ p i, (TreeStack.parentsToTree ps).2 = p ++ [i] → (TreeStack.parentsToTree ps).1.get p ≠ none) ∧
    (ps ≠ [] → (TreeStack.parentsToTree ps).1.get [] ≠ none) := by
  induction ps with
  | nil =>
    refine ⟨fun p i h => absurd rfl h, fun p i h => ?_, fun h => absurd rfl h⟩
    have := congrArg List.length h
    simp [TreeStack.parentsToTree] at this
  | cons f ps ih =>
    obtain ⟨h1, h2, h3⟩ := ih
    simp only [TreeStack.parentsToTree]
    have hg : ((TreeStack.parentsToTree ps).1.insert (TreeStack.parentsToTree ps).2 f.value).get (TreeStack.parentsToTree ps).2 ≠ none := by
      rw [GornTree.get_insert, if_pos rfl]; simp
    refine ⟨closed_insertForest _ _ _ _ (GornTree.closed_insert h1 _ h2) hg, fun p i he => ?_, fun _ => ?_⟩
    · rw [← (List.append_inj' he rfl).1]
      exact mono_insertForest _ _ _ _ _ hg
    · refine mono_insertForest _ _ _ _ _ ?_
      by_cases hps : ps = []
      · subst hps; exact hg
      · exact GornTree.mono_insert (h3 hps) _ _

/-- The labels of a tree stack are a tree, and the pointer is one of its nodes. -/
theorem view_treeLike (t : TreeStack A) : TreeLike (view t).label ∧ (view t).label (view t).pointer ≠ none := by
  obtain ⟨h1, h2, h3⟩ := closed_parents t.parents
  have hg : ((TreeStack.parentsToTree t.parents).1.insert (TreeStack.parentsToTree t.parents).2 t.value).get (TreeStack.parentsToTree t.parents).2 ≠ none := by
    rw [GornTree.get_insert, if_pos rfl]; simp
  refine ⟨⟨?_, closed_insertForest _ _ _ _ (GornTree.closed_insert h1 _ h2) hg⟩, mono_insertForest _ _ _ _ _ hg⟩
  refine mono_insertForest _ _ _ _ _ ?_
  by_cases hps : t.parents = []
  · rw [hps] at hg ⊢; exact hg
  · exact GornTree.mono_insert (h3 hps) _ _

theorem gorn_get_iff {V : Type _} {m : GornTree V} (h : m.Sorted) : ∀ {p : List Nat} {v : V}, (p, v) ∈ m ↔ m.get p = some v := by
  induction m with
  | nil => intro p v; simp [GornTree.get]
  | cons x m ih =>
    obtain ⟨k, u⟩ := x
    intro p v
    unfold GornTree.Sorted at h
    rw [List.map_cons, List.pairwise_cons] at h
    simp only [List.mem_cons, Prod.mk.injEq, GornTree.get]
    split
    · rename_i hk
      subst hk
      constructor
      · rintro (⟨_, rfl⟩ | hm)
        · rfl
        · exact absurd (h.1 p (List.mem_map_of_mem hm)) (lt_irrefl _)
      · intro he; exact .inl ⟨rfl, (Option.some.inj he).symm⟩
    · rename_i hk
      rw [← ih h.2]
      simp [hk]

theorem nodeText_eq (a : A → List Nat) (q p : List Nat) (v : A) : TreeStack.nodeText a q (p, v) = (nodeLines (p = q) (a v) p).flatMap fun l => l ++ [10] := by
  cases p with
  | nil =>
    simp only [TreeStack.nodeText, nodeLines, List.getLast?_nil, decide_eq_true_eq]
    split <;> simp
  | cons x p =>
    have hb : (List.replicate ((x :: p).length - 1) [124, 32]).flatten = ((p.map fun _ => [124, 32]).flatten : List Nat) := by
      congr 1
      simp [List.map_const']
    simp only [TreeStack.nodeText, nodeLines, List.getLast?_eq_some_getLast (by simp : x :: p ≠ []), hb, List.getLastD_eq_getLast?, Option.getD_some, decide_eq_true_eq]
    split <;> simp

/-- What is printed for a tree stack is the drawing of its labels. -/
theorem treeStack_drawing (a : A → List Nat) (t : TreeStack A) : Drawing (fun p => ((view t).label p).map a) (view t).pointer (t.text a) := by
  have hs := TreeStack.sorted_toTree t
  refine ⟨t.toTree.1.map Prod.fst, hs, fun p => ?_, ?_⟩
  · rw [List.mem_map]
    show _ ↔ Option.map a (t.toTree.1.get p) ≠ none
    constructor
    · rintro ⟨⟨p', v⟩, hm, rfl⟩
      rw [(gorn_get_iff hs).1 hm]; simp
    · intro h
      obtain ⟨v, hv⟩ := Option.ne_none_iff_exists'.1 (mt (fun h' => by rw [h']; rfl) h : t.toTree.1.get p ≠ none)
      exact ⟨_, (gorn_get_iff hs).2 hv, rfl⟩
  · unfold TreeStack.text
    rw [List.flatMap_map, List.flatMap_assoc]
    refine List.flatMap_congr fun x hx => ?_
    obtain ⟨p, v⟩ := x
    have : (view t).label p = some v := (gorn_get_iff hs).1 hx
    simp only [this, nodeText_eq]
    rfl

end Rustomata
