import Verif.Model.Util
import Verif.Spec.Util
import Mathlib.Data.List.Basic
import Mathlib.Data.List.Nodup
import Mathlib.Data.List.Pairwise
import Mathlib.Data.List.Perm.Basic

/-!
# Helper lemmas for the utility data structures
-/

set_option linter.unusedSectionVars false
set_option linter.unusedSimpArgs false

namespace Rustomata
open Spec

/-! ### VecMultiMap -/

namespace VecMultiMap
variable {T : Type _}

/-- The abstract map of a `VecMultiMap`. -/
def abs (m : VecMultiMap T) (i : Nat) : List T := match m[i]? with
  | some l => l
  | none => []

theorem abs_new : abs (new : VecMultiMap T) = fun _ => [] := by
  funext i; simp [abs, new]

theorem resize_get (m : VecMultiMap T) (n i : Nat) :
    (resize m n)[i]? = if i < n then some (abs m i) else none := by
  unfold resize abs
  rw [List.getElem?_append, List.length_take]
  by_cases h : i < n
  · by_cases h2 : i < m.length
    · simp [h, h2, List.getElem?_take]
    · have : ¬ i < min n m.length := by omega
      simp only [this, if_false, h, if_true]
      rw [List.getElem?_replicate, if_pos (by omega)]
      simp [List.getElem?_eq_none (by omega : m.length ≤ i)]
  · have : ¬ i < min n m.length := by omega
    simp only [this, if_false, h]
    rw [List.getElem?_replicate, if_neg (by omega)]

theorem resize_length (m : VecMultiMap T) (n : Nat) : (resize m n).length = n := by
  simp [resize]; omega

theorem padTo_length (m : VecMultiMap T) (i : Nat) : i < (padTo m i).length := by
  unfold padTo; split
  · rw [resize_length]; omega
  · omega

theorem abs_padTo (m : VecMultiMap T) (i : Nat) : abs (padTo m i) = abs m := by
  unfold padTo
  split
  · rename_i h
    funext j
    conv_lhs => unfold abs
    rw [resize_get]
    by_cases hj : j < i + 1
    · simp [hj]
    · simp only [hj, if_false]
      simp [abs, List.getElem?_eq_none (by omega : m.length ≤ j)]
  · rfl

theorem getElem?_padTo (m : VecMultiMap T) (i : Nat) : (padTo m i)[i]? = some (abs m i) := by
  rw [← abs_padTo m i]
  unfold abs
  rw [List.getElem?_eq_getElem (padTo_length m i)]

theorem abs_modify (m : VecMultiMap T) (i : Nat) (f : List T → List T) :
    abs ((padTo m i).modify i f) = Function.update (abs m) i (f (abs m i)) := by
  funext j
  conv_lhs => unfold abs
  rw [List.getElem?_modify]
  by_cases h : i = j
  · subst h
    rw [getElem?_padTo]
    simp
  · rw [Function.update_of_ne (Ne.symm h), ← abs_padTo m i]
    unfold abs
    cases (padTo m i)[j]? <;> simp [h]

/-- One operation on the model. -/
def step (m : VecMultiMap T) : VOp T → VecMultiMap T × Option (List T)
  | .push i x => (pushTo m i x, none)
  | .get i => ((get m i).2, (get m i).1)
  | .update i f => (getMut m i f, none)

theorem step_refines (m : VecMultiMap T) (o : VOp T) :
    abs (step m o).1 = (VOp.step (abs m) o).1 ∧ (step m o).2 = (VOp.step (abs m) o).2 := by
  cases o with
  | push i x => exact ⟨abs_modify m i _, rfl⟩
  | get i => exact ⟨abs_padTo m i, getElem?_padTo m i⟩
  | update i f => exact ⟨abs_modify m i _, rfl⟩

theorem runOps_refines (m : VecMultiMap T) (os : List (VOp T)) :
    abs (runOps step m os).1 = (runOps VOp.step (abs m) os).1 ∧
      (runOps step m os).2 = (runOps VOp.step (abs m) os).2 := by
  induction os generalizing m with
  | nil => exact ⟨rfl, rfl⟩
  | cons o os ih =>
    simp only [runOps]
    rw [← (step_refines m o).1, ← (step_refines m o).2]
    exact ⟨(ih _).1, by rw [(ih _).2]⟩

theorem find_last_spec (m : VecMultiMap T) :
    match m.zipIdx.reverse.find? (fun p => p.1.length > 0) with
    | some (l, i) => m[i]? = some l ∧ l ≠ [] ∧ ∀ j, i < j → abs m j = []
    | none => ∀ j, abs m j = [] := by
  cases h : m.zipIdx.reverse.find? (fun p => p.1.length > 0) with
  | none =>
    intro j
    unfold abs
    cases hj : m[j]? with
    | none => rfl
    | some l =>
      have := List.find?_eq_none.1 h (l, j) (by
        rw [List.mem_reverse]
        exact List.mk_mem_zipIdx_iff_getElem?.2 hj)
      simpa using this
  | some p =>
    obtain ⟨l, i⟩ := p
    obtain ⟨hp, as, bs, hab, hno⟩ := List.find?_eq_some_iff_append.1 h
    have hmem : (l, i) ∈ m.zipIdx := by
      rw [← List.mem_reverse, hab]; simp
    have hget := List.mk_mem_zipIdx_iff_getElem?.1 hmem
    refine ⟨hget, by simpa [List.length_pos_iff] using hp, ?_⟩
    intro j hj
    unfold abs
    cases hjm : m[j]? with
    | none => rfl
    | some l' =>
      have hz : m.zipIdx = bs.reverse ++ (l, i) :: as.reverse := by
        have := congrArg List.reverse hab
        simpa using this
      have hi : bs.reverse.length = i := by
        have h1 : (m.zipIdx)[bs.reverse.length]? = some (l, i) := by
          rw [hz]; simp
        rw [List.getElem?_zipIdx] at h1
        cases hm : m[bs.reverse.length]? with
        | none => rw [hm] at h1; simp at h1
        | some v => rw [hm] at h1; simp at h1; simpa using h1.2
      have h2 : (m.zipIdx)[j]? = some (l', j) := by
        rw [List.getElem?_zipIdx, hjm]; simp
      rw [hz, List.getElem?_append_right (by omega)] at h2
      have : (l', j) ∈ as := by
        have h3 : ((l, i) :: as.reverse)[j - bs.reverse.length]? = (as.reverse)[j - bs.reverse.length - 1]? := by
          rw [List.getElem?_cons, if_neg (by omega)]
        rw [h3] at h2
        exact List.mem_reverse.1 (List.mem_of_getElem? h2)
      simpa using hno _ this

end VecMultiMap

/-! ### BMap -/

namespace BMap
variable {K V : Type _} [LinearOrder K]

/-- The keys are strictly ascending. -/
def Sorted (m : BMap K V) : Prop := (m.map Prod.fst).Pairwise (· < ·)

theorem sorted_nil : Sorted ([] : BMap K V) := by simp [Sorted]

theorem get_nil (k : K) : get ([] : BMap K V) k = none := rfl

theorem get_cons (a : K) (v : V) (m : BMap K V) (k : K) :
    get ((a, v) :: m) k = if a = k then some v else get m k := by
  unfold get
  by_cases h : a = k <;> simp [h]

theorem get_eq_none {m : BMap K V} {k : K} : get m k = none ↔ ∀ v, (k, v) ∉ m := by
  unfold get
  rw [Option.map_eq_none_iff, List.find?_eq_none]
  constructor
  · intro h v hv; exact (h _ hv) (by simp)
  · intro h p hp hk
    simp only [decide_eq_true_eq] at hk
    subst hk
    exact h p.2 hp

theorem get_none_of_lt {m : BMap K V} {k : K} (h : ∀ p ∈ m, k < p.1) : get m k = none :=
  get_eq_none.2 fun _ hv => lt_irrefl _ (h _ hv)

theorem mem_insert_fst {m : BMap K V} {k : K} {v : V} {p : K × V} (hp : p ∈ (insert m k v).2) :
    p = (k, v) ∨ p ∈ m := by
  induction m with
  | nil => simp [insert] at hp; exact Or.inl hp
  | cons q m ih =>
    obtain ⟨k', v'⟩ := q
    unfold insert at hp
    split at hp
    · simp only [List.mem_cons] at hp ⊢; exact hp
    · split at hp
      · simp only [List.mem_cons] at hp ⊢
        rcases hp with h | h
        · exact Or.inl h
        · exact Or.inr (Or.inr h)
      · simp only [List.mem_cons] at hp ⊢
        rcases hp with h | h
        · exact Or.inr (Or.inl h)
        · rcases ih h with h | h
          · exact Or.inl h
          · exact Or.inr (Or.inr h)

theorem sorted_cons {a : K} {v : V} {m : BMap K V} :
    Sorted ((a, v) :: m) ↔ (∀ p ∈ m, a < p.1) ∧ Sorted m := by
  unfold Sorted
  simp only [List.map_cons, List.pairwise_cons, List.mem_map, forall_exists_index, and_imp]
  constructor
  · rintro ⟨h1, h2⟩; exact ⟨fun p hp => h1 _ p hp rfl, h2⟩
  · rintro ⟨h1, h2⟩; exact ⟨fun b p hp e => e ▸ h1 p hp, h2⟩

theorem insert_sorted {m : BMap K V} (h : Sorted m) (k : K) (v : V) : Sorted (insert m k v).2 := by
  induction m with
  | nil => simp [insert, Sorted]
  | cons q m ih =>
    obtain ⟨k', v'⟩ := q
    have h' := sorted_cons.1 h
    unfold insert
    split
    · rename_i hlt
      refine sorted_cons.2 ⟨?_, h⟩
      intro p hp
      rcases List.mem_cons.1 hp with rfl | hp
      · exact hlt
      · exact lt_trans hlt (h'.1 p hp)
    · split
      · rename_i _ heq
        subst heq
        exact sorted_cons.2 ⟨h'.1, h'.2⟩
      · rename_i h1 h2
        refine sorted_cons.2 ⟨?_, ih h'.2⟩
        intro p hp
        rcases mem_insert_fst hp with rfl | hp
        · exact lt_of_le_of_ne (not_lt.1 h1) (Ne.symm h2)
        · exact h'.1 p hp

theorem get_insert {m : BMap K V} (h : Sorted m) (k : K) (v : V) (j : K) :
    get (insert m k v).2 j = if k = j then some v else get m j := by
  induction m with
  | nil => simp [insert, get_cons, get_nil]
  | cons q m ih =>
    obtain ⟨k', v'⟩ := q
    have h' := sorted_cons.1 h
    unfold insert
    split
    · simp [get_cons]
    · split
      · rename_i _ heq
        subst heq
        simp only [get_cons]
        split <;> rfl
      · rename_i h1 h2
        simp only [get_cons, ih h'.2]
        by_cases hk : k' = j
        · subst hk
          simp [h2]
        · simp [hk]

theorem insert_fst {m : BMap K V} (h : Sorted m) (k : K) (v : V) : (insert m k v).1 = get m k := by
  induction m with
  | nil => rfl
  | cons q m ih =>
    obtain ⟨k', v'⟩ := q
    have h' := sorted_cons.1 h
    unfold insert
    split
    · rename_i hlt
      refine (get_none_of_lt ?_).symm
      intro p hp
      rcases List.mem_cons.1 hp with rfl | hp
      · exact hlt
      · exact lt_trans hlt (h'.1 p hp)
    · split
      · rename_i _ heq
        subst heq
        simp [get_cons]
      · rename_i h1 h2
        rw [get_cons, if_neg (Ne.symm h2)]
        exact ih h'.2

theorem get_eq_some {m : BMap K V} (h : Sorted m) {k : K} {v : V} : get m k = some v ↔ (k, v) ∈ m := by
  induction m with
  | nil => simp [get_nil]
  | cons q m ih =>
    obtain ⟨k', v'⟩ := q
    have h' := sorted_cons.1 h
    rw [get_cons]
    split
    · rename_i he
      subst he
      simp only [Option.some.injEq, List.mem_cons, Prod.mk.injEq, true_and]
      constructor
      · exact fun e => Or.inl e.symm
      · rintro (e | hm)
        · exact e.symm
        · exact absurd (h'.1 _ hm) (lt_irrefl _)
    · rename_i hne
      rw [ih h'.2]
      simp only [List.mem_cons, Prod.mk.injEq]
      constructor
      · exact Or.inr
      · rintro (⟨e, _⟩ | hm)
        · exact absurd e.symm hne
        · exact hm

theorem mem_keys {m : BMap K V} {k : K} : k ∈ keys m ↔ ∃ v, (k, v) ∈ m := by
  simp [keys]

end BMap

/-! ### Partition -/

namespace Partition
variable {T : Type _} [LinearOrder T]

theorem insertCell_spec (cell ss : List T) (p : Partition T) (hp : BMap.Sorted p) (hnd : ss.Nodup) :
    match insertCell cell ss p with
    | none => ∃ s ∈ ss, BMap.get p s ≠ none
    | some q => BMap.Sorted q ∧ (∀ s ∈ ss, BMap.get p s = none) ∧
        ∀ x, BMap.get q x = if x ∈ ss then some cell else BMap.get p x := by
  induction ss generalizing p with
  | nil => simp [insertCell, hp]
  | cons s ss ih =>
    unfold insertCell
    have hfst := BMap.insert_fst hp s cell
    have hs := BMap.insert_sorted hp s cell
    have hg := BMap.get_insert hp s cell
    have hnd' := List.nodup_cons.1 hnd
    generalize BMap.insert p s cell = r at hfst hs hg
    obtain ⟨_ | v, q⟩ := r
    swap
    · exact ⟨s, by simp, by rw [← hfst]; simp⟩
    · simp only at hfst hs hg ⊢
      have := ih q hs hnd'.2
      split at this
      · rename_i h1
        obtain ⟨t, ht, h2⟩ := this
        refine ⟨t, List.mem_cons_of_mem _ ht, ?_⟩
        rw [hg, if_neg (fun e : s = t => hnd'.1 (e ▸ ht))] at h2
        exact h2
      · rename_i q' h1
        refine ⟨this.1, ?_, ?_⟩
        · intro t ht
          rcases List.mem_cons.1 ht with rfl | ht
          · exact hfst.symm
          · have h2 := this.2.1 t ht
            rw [hg, if_neg (fun e : s = t => hnd'.1 (e ▸ ht))] at h2
            exact h2
        · intro x
          rw [this.2.2 x, hg]
          by_cases hx : x ∈ ss
          · simp [hx]
          · by_cases hsx : s = x
            · subst hsx; simp [hx]
            · simp [hx, hsx, Ne.symm hsx]

/-- Invariant of the outer loop of `new`. -/
structure Good (cells : List (List T)) (p : Partition T) : Prop where
  sorted : BMap.Sorted p
  get : ∀ x c, BMap.get p x = some c ↔ c ∈ cells ∧ x ∈ c

theorem foldlM_spec (done cells : List (List T)) (p : Partition T)
    (hs : ∀ c ∈ cells, c.Nodup) (hp : Good done p) :
    match cells.foldlM (fun p cell => insertCell cell cell p) p with
    | none => ¬ (cells.Pairwise List.Disjoint ∧ ∀ c ∈ cells, ∀ d ∈ done, List.Disjoint d c)
    | some q => (cells.Pairwise List.Disjoint ∧ ∀ c ∈ cells, ∀ d ∈ done, List.Disjoint d c) ∧
        Good (done ++ cells) q := by
  induction cells generalizing done p with
  | nil => simpa using hp
  | cons c cells ih =>
    rw [List.foldlM_cons]
    have h1 := insertCell_spec c c p hp.sorted (hs c (by simp))
    cases h2 : insertCell c c p with
    | none =>
      rw [h2] at h1
      simp only at h1
      obtain ⟨s, hsc, hg⟩ := h1
      obtain ⟨d, hd⟩ := Option.ne_none_iff_exists'.1 hg
      have := (hp.get s d).1 hd
      simp only [Option.bind_eq_bind, Option.bind_none]
      intro h
      exact h.2 c (by simp) d this.1 this.2 hsc
    | some q =>
      rw [h2] at h1
      simp only at h1
      have hdc : ∀ d ∈ done, List.Disjoint d c := by
        intro d hd x hx hxc
        have := (hp.get x d).2 ⟨hd, hx⟩
        rw [h1.2.1 x hxc] at this
        simp at this
      have hq : Good (done ++ [c]) q := by
        refine ⟨h1.1, ?_⟩
        intro x d
        rw [h1.2.2 x]
        simp only [List.mem_append, List.mem_singleton]
        by_cases hx : x ∈ c
        · simp only [hx, if_true, Option.some.injEq]
          constructor
          · rintro rfl; exact ⟨Or.inr rfl, hx⟩
          · rintro ⟨h | h, hxd⟩
            · exact absurd hx (fun hx => hdc d h hxd hx)
            · exact h.symm
        · simp only [hx, if_false, hp.get]
          constructor
          · rintro ⟨h, h'⟩; exact ⟨Or.inl h, h'⟩
          · rintro ⟨h | h, h'⟩
            · exact ⟨h, h'⟩
            · subst h; exact absurd h' hx
      have := ih (done ++ [c]) q (fun c' hc' => hs c' (by simp [hc'])) hq
      simp only [Option.bind_eq_bind, Option.bind_some]
      split at this
      · rename_i h3
        rintro ⟨h4, h5⟩
        apply this
        rw [List.pairwise_cons] at h4
        refine ⟨h4.2, ?_⟩
        intro c' hc' d hd
        rcases List.mem_append.1 hd with hd | hd
        · exact h5 c' (by simp [hc']) d hd
        · rw [List.mem_singleton] at hd; subst hd; exact h4.1 c' hc'
      · rename_i q' h3
        refine ⟨⟨?_, ?_⟩, by simpa using this.2⟩
        · rw [List.pairwise_cons]
          exact ⟨fun c' hc' => this.1.2 c' hc' c (by simp), this.1.1⟩
        · intro c' hc' d hd
          rcases List.mem_cons.1 hc' with rfl | hc'
          · exact hdc d hd
          · exact this.1.2 c' hc' d (by simp [hd])

theorem good_nil : Good ([] : List (List T)) [] :=
  ⟨BMap.sorted_nil, by simp [BMap.get_nil]⟩

theorem new_spec (cells : List (List T)) (hs : ∀ c ∈ cells, c.Nodup) :
    match new cells with
    | none => ¬ cells.Pairwise List.Disjoint
    | some p => cells.Pairwise List.Disjoint ∧ Good cells p := by
  have := foldlM_spec [] cells [] hs good_nil
  unfold new
  split at this
  · simpa using this
  · simpa using this

/-- Every cell is listed once: the collapsed cells are those not yet covered. -/
theorem collapseLoop_spec (cells : List (List T)) (hdis : cells.Pairwise List.Disjoint)
    (p : Partition T) (alpha : List T)
    (hp : ∀ x c, (x, c) ∈ p → c ∈ cells ∧ x ∈ c)
    (ha : ∀ c ∈ cells, ∀ x ∈ c, x ∈ alpha → ∀ y ∈ c, y ∈ alpha) :
    (collapseLoop p alpha).Nodup ∧
    ∀ c, c ∈ collapseLoop p alpha ↔ ∃ x, (x, c) ∈ p ∧ x ∉ alpha := by
  have huniq : ∀ c ∈ cells, ∀ d ∈ cells, ∀ x, x ∈ c → x ∈ d → c = d := by
    intro c hc d hd x hx hxd
    by_contra hne
    have : Std.Symm (α := List T) List.Disjoint := ⟨fun _ _ h _ h1 h2 => h h2 h1⟩
    exact hdis.forall hc hd hne hx hxd
  induction p generalizing alpha with
  | nil => simp [collapseLoop]
  | cons q p ih =>
    obtain ⟨s, cell⟩ := q
    have hq := hp s cell (by simp)
    have hp' : ∀ x c, (x, c) ∈ p → c ∈ cells ∧ x ∈ c := fun x c h => hp x c (by simp [h])
    unfold collapseLoop
    split
    · rename_i hs
      have := ih alpha hp' ha
      refine ⟨this.1, fun c => ?_⟩
      rw [this.2 c]
      constructor
      · rintro ⟨x, h1, h2⟩; exact ⟨x, by simp [h1], h2⟩
      · rintro ⟨x, h1, h2⟩
        rcases List.mem_cons.1 h1 with h1 | h1
        · simp only [Prod.mk.injEq] at h1
          exact absurd hs (h1.1 ▸ h2)
        · exact ⟨x, h1, h2⟩
    · rename_i hs
      have ha' : ∀ c ∈ cells, ∀ x ∈ c, x ∈ cell ++ alpha → ∀ y ∈ c, y ∈ cell ++ alpha := by
        intro c hc x hx hxa y hy
        rcases List.mem_append.1 hxa with h | h
        · have := huniq c hc cell hq.1 x hx h
          subst this
          exact List.mem_append_left _ hy
        · exact List.mem_append_right _ (ha c hc x hx h y hy)
      have := ih (cell ++ alpha) hp' ha'
      refine ⟨List.nodup_cons.2 ⟨?_, this.1⟩, fun c => ?_⟩
      · rw [this.2]
        rintro ⟨x, h1, h2⟩
        exact h2 (List.mem_append_left _ (hp' x cell h1).2)
      · rw [List.mem_cons, this.2]
        constructor
        · rintro (rfl | ⟨x, h1, h2⟩)
          · exact ⟨s, by simp, hs⟩
          · exact ⟨x, by simp [h1], fun h => h2 (List.mem_append_right _ h)⟩
        · rintro ⟨x, h1, h2⟩
          rcases List.mem_cons.1 h1 with h1 | h1
          · simp only [Prod.mk.injEq] at h1
            exact Or.inl h1.2
          · by_cases hx : x ∈ cell
            · left
              exact huniq c (hp' x c h1).1 cell hq.1 x (hp' x c h1).2 hx
            · right
              exact ⟨x, h1, fun h => (List.mem_append.1 h).elim hx h2⟩

end Partition

/-! ### Pushdown -/

namespace Pushdown
variable {A B : Type _}

theorem toVecLoop_eq (p : Pushdown A) (res : List A) :
    toVecLoop p res = res ++ toVecLoop p [] := by
  induction p generalizing res with
  | empty => simp [toVecLoop]
  | cons a b ih => simp only [toVecLoop]; rw [ih, ih ([] ++ [a])]; simp

@[simp] theorem toVec_empty : toVec (.empty : Pushdown A) = [] := rfl

@[simp] theorem toVec_cons (a : A) (b : Pushdown A) : toVec (.cons a b) = toVec b ++ [a] := by
  unfold toVec
  simp only [toVecLoop]
  rw [toVecLoop_eq]
  simp

theorem toVec_foldl (l : List A) (p : Pushdown A) : toVec (l.foldl push p) = toVec p ++ l := by
  induction l generalizing p with
  | nil => simp
  | cons a l ih => rw [List.foldl_cons, ih]; simp [push]

theorem toVec_injective {p q : Pushdown A} (h : toVec p = toVec q) : p = q := by
  induction p generalizing q with
  | empty => cases q with
    | empty => rfl
    | cons a b => simp at h
  | cons a b ih => cases q with
    | empty => simp at h
    | cons a' b' =>
      simp only [toVec_cons] at h
      have := List.append_inj' h rfl
      rw [ih this.1, List.singleton_inj.1 this.2]

theorem toVec_map (f : A → B) (p : Pushdown A) : toVec (map f p) = (toVec p).map f := by
  induction p with
  | empty => rfl
  | cons a b ih => simp [map, ih]

/-- One operation on the model. -/
def step (p : Pushdown A) : StackOp A → Pushdown A × StackOut A
  | .push a => (push p a, .unit)
  | .set a => match set p a with
    | .ok q => (q, .unit)
    | .error q => (q, .fail)
  | .pop => match pop p with
    | .ok (q, a) => (q, .sym a)
    | .error q => (q, .fail)
  | .peek => match peek p with
    | some a => (p, .sym a)
    | none => (p, .fail)
  | .isEmpty => (p, .bool p.isEmpty)
  | .map f => (map f p, .unit)

theorem step_refines (p : Pushdown A) (o : StackOp A) :
    toVec (step p o).1 = (StackOp.step (toVec p) o).1 ∧ (step p o).2 = (StackOp.step (toVec p) o).2 := by
  cases o <;> cases p <;>
    simp [step, StackOp.step, push, set, pop, peek, isEmpty, map, toVec_map]

theorem runOps_refines (p : Pushdown A) (os : List (StackOp A)) :
    toVec (runOps step p os).1 = (runOps StackOp.step (toVec p) os).1 ∧
      (runOps step p os).2 = (runOps StackOp.step (toVec p) os).2 := by
  induction os generalizing p with
  | nil => exact ⟨rfl, rfl⟩
  | cons o os ih =>
    simp only [runOps]
    rw [← (step_refines p o).1, ← (step_refines p o).2]
    exact ⟨(ih _).1, by rw [(ih _).2]⟩

end Pushdown

end Rustomata
