import Verif.Model.CsKBest
import Verif.Proofs.CsFill

/-!
# The order of backtraces

The order and the equality of backtraces are those of a key in a linear order.
-/

namespace Rustomata

namespace Backtrace
variable {W : Type _}

/-- The order of backtraces as a linear order of keys. -/
def key : Backtrace W → ℕ ×ₗ (ℕᵒᵈ ×ₗ (ℕᵒᵈ ×ₗ (ℕ ×ₗ ℕ)))
  | nullary r _ => toLex (2, toLex (OrderDual.toDual 0, toLex (OrderDual.toDual 0, toLex (r, 0))))
  | unary r _ _ i => toLex (1, toLex (OrderDual.toDual i, toLex (OrderDual.toDual 0, toLex (r, 0))))
  | binary r _ m _ _ i₁ i₂ => toLex (0, toLex (OrderDual.toDual i₁, toLex (OrderDual.toDual i₂, toLex (r, m))))

theorem same_iff (a b : Backtrace W) : a.same b = true ↔ a.key = b.key := by
  cases a <;> cases b <;> simp [same, key] <;> tauto

theorem cmp_lt_iff (a b : Backtrace W) : a.cmp b = .lt ↔ a.key < b.key := by
  cases a <;> cases b <;>
    simp [cmp, key, Prod.Lex.toLex_lt_toLex, Ordering.then_eq_lt, Nat.compare_eq_lt] <;> omega

theorem cmp_eq_iff (a b : Backtrace W) : a.cmp b = .eq ↔ a.key = b.key := by
  cases a <;> cases b <;> simp [cmp, key, Ordering.then_eq_eq] <;> omega

end Backtrace

section heap
variable {W : Type _} [LinearOrder W]

/-- The order of the pairs in the heap. -/
def btKey (a : W × Backtrace W) : W ×ₗ (ℕ ×ₗ (ℕᵒᵈ ×ₗ (ℕᵒᵈ ×ₗ (ℕ ×ₗ ℕ)))) := toLex (a.1, a.2.key)

theorem btLt_iff (a b : W × Backtrace W) : btLt a b = true ↔ btKey a < btKey b := by
  unfold btLt btKey
  rw [Prod.Lex.toLex_lt_toLex]
  simp [Backtrace.cmp_lt_iff]

theorem btPop_eq (h : List (W × Backtrace W)) : btPop h = removeMax btKey h := by
  induction h with
  | nil => rfl
  | cons x xs ih =>
    rw [btPop, removeMax, ih]
    cases removeMax btKey xs with
    | none => rfl
    | some p =>
      obtain ⟨y, ys⟩ := p
      simp only [btLt_iff]

theorem btPop_none {h : List (W × Backtrace W)} : btPop h = none ↔ h = [] := by
  rw [btPop_eq]
  exact removeMax_none _

theorem btPop_some {h r : List (W × Backtrace W)} {x : W × Backtrace W} (hp : btPop h = some (x, r)) : h.Perm (x :: r) ∧ ∀ y ∈ r, btKey y ≤ btKey x := by
  rw [btPop_eq] at hp
  exact removeMax_some _ hp

end heap

section
variable {W : Type _}

theorem mem_btPush {h : List (W × Backtrace W)} {b : Backtrace W} {w : W} {x : W × Backtrace W} :
    x ∈ btPush h b w ↔ x ∈ h ∨ (x = (w, b) ∧ ∀ y ∈ h, y.2.key ≠ b.key) := by
  unfold btPush
  split
  · rename_i hh
    rw [List.any_eq_true] at hh
    obtain ⟨y, hy, hs⟩ := hh
    rw [Backtrace.same_iff] at hs
    constructor
    · exact .inl
    · rintro (h | ⟨_, h⟩)
      · exact h
      · exact absurd hs (h y hy)
  · rename_i hh
    rw [List.any_eq_true] at hh
    push Not at hh
    rw [List.mem_append, List.mem_singleton]
    constructor
    · rintro (h | h)
      · exact .inl h
      · exact .inr ⟨h, fun y hy he => hh y hy ((Backtrace.same_iff _ _).2 he)⟩
    · rintro (h | ⟨h, _⟩)
      · exact .inl h
      · exact .inr h

/-- Elements of a heap have different keys. -/
def BtDistinct (h : List (W × Backtrace W)) : Prop := h.Pairwise fun x y => x.2.key ≠ y.2.key

theorem BtDistinct.push {h : List (W × Backtrace W)} (hh : BtDistinct h) (b : Backtrace W) (w : W) : BtDistinct (btPush h b w) := by
  unfold btPush
  split
  · exact hh
  · rename_i hn
    rw [List.any_eq_true] at hn
    push Not at hn
    unfold BtDistinct
    rw [List.pairwise_append]
    refine ⟨hh, List.pairwise_singleton _ _, fun x hx y hy => ?_⟩
    rw [List.mem_singleton] at hy
    subst hy
    exact fun he => hn x hx ((Backtrace.same_iff _ _).2 he)

/-- Pushing a sequence whose elements (together with those of the heap) are determined by their keys. -/
theorem mem_btPush_foldl (l : List (W × Backtrace W)) : ∀ (h : List (W × Backtrace W)), BtDistinct h →
    (∀ x y, (x ∈ h ∨ x ∈ l) → (y ∈ h ∨ y ∈ l) → x.2.key = y.2.key → x = y) →
    BtDistinct (l.foldl (fun h c => btPush h c.2 c.1) h) ∧ ∀ x, x ∈ l.foldl (fun h c => btPush h c.2 c.1) h ↔ x ∈ h ∨ x ∈ l := by
  induction l with
  | nil => intro h hh _; exact ⟨hh, by simp⟩
  | cons c l ih =>
    intro h hh hinj
    have hm : ∀ x, x ∈ btPush h c.2 c.1 ↔ x ∈ h ∨ x = c := by
      intro x
      rw [mem_btPush]
      constructor
      · rintro (h | ⟨h, _⟩)
        · exact .inl h
        · exact .inr h
      · rintro (h' | rfl)
        · exact .inl h'
        · by_cases he : ∃ y ∈ h, y.2.key = x.2.key
          · obtain ⟨y, hy, he⟩ := he
            rw [hinj x y (.inr (by simp)) (.inl hy) he.symm]
            exact .inl hy
          · push Not at he
            exact .inr ⟨rfl, he⟩
    have := ih (btPush h c.2 c.1) (hh.push _ _) fun x y hx hy he => by
      refine hinj x y ?_ ?_ he
      · rw [hm] at hx
        rcases hx with (h | rfl) | h
        · exact .inl h
        · exact .inr (by simp)
        · exact .inr (by simp [h])
      · rw [hm] at hy
        rcases hy with (h | rfl) | h
        · exact .inl h
        · exact .inr (by simp)
        · exact .inr (by simp [h])
    refine ⟨this.1, fun x => ?_⟩
    rw [List.foldl_cons, this.2, hm, List.mem_cons, or_assoc]

end

/-! ### Sorting by a key -/

section
variable {X K : Type _} [LinearOrder K]

theorem exists_sorted (key : X → K) (U : List X) (hinj : ∀ x ∈ U, ∀ y ∈ U, key x = key y → x = y) :
    ∃ l : List X, l.Pairwise (fun a b => key b < key a) ∧ ∀ x, x ∈ l ↔ x ∈ U := by
  induction U with
  | nil => exact ⟨[], by simp, by simp⟩
  | cons u U ih =>
    obtain ⟨l, h1, h2⟩ := ih fun x hx y hy => hinj x (by simp [hx]) y (by simp [hy])
    by_cases hu : u ∈ l
    · exact ⟨l, h1, fun x => by rw [h2, List.mem_cons]; exact ⟨.inr, fun h => h.elim (fun h => h ▸ (h2 u).1 hu) id⟩⟩
    · refine ⟨l.filter (fun y => key u < key y) ++ u :: l.filter (fun y => key y < key u), ?_, fun x => ?_⟩
      · rw [List.pairwise_append, List.pairwise_cons]
        refine ⟨h1.filter _, ⟨fun y hy => by simpa using (List.mem_filter.1 hy).2, h1.filter _⟩, fun x hx y hy => ?_⟩
        have hx := (List.mem_filter.1 hx).2
        rw [decide_eq_true_eq] at hx
        rcases List.mem_cons.1 hy with rfl | hy
        · exact hx
        · have hy := (List.mem_filter.1 hy).2
          rw [decide_eq_true_eq] at hy
          exact hy.trans hx
      · rw [List.mem_append, List.mem_cons, List.mem_filter, List.mem_filter, List.mem_cons, ← h2]
        constructor
        · rintro (h | h | h)
          · exact .inr h.1
          · exact .inl h
          · exact .inr h.1
        · rintro (h | h)
          · exact .inr (.inl h)
          · rcases lt_trichotomy (key x) (key u) with hk | hk | hk
            · exact .inr (.inr ⟨h, by simpa using hk⟩)
            · exact absurd (hinj x (by simp [(h2 x).1 h]) u (by simp) hk ▸ h) hu
            · exact .inl ⟨h, by simpa using hk⟩

open Classical in
/-- The elements of a list in descending order of their keys. -/
noncomputable def sortDesc (key : X → K) (U : List X) : List X :=
  if h : ∀ x ∈ U, ∀ y ∈ U, key x = key y → x = y then (exists_sorted key U h).choose else []

theorem sortDesc_spec {key : X → K} {U : List X} (h : ∀ x ∈ U, ∀ y ∈ U, key x = key y → x = y) :
    (sortDesc key U).Pairwise (fun a b => key b < key a) ∧ ∀ x, x ∈ sortDesc key U ↔ x ∈ U := by
  unfold sortDesc
  rw [dif_pos h]
  exact (exists_sorted key U h).choose_spec

end

end Rustomata
