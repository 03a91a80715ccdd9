import Verif.Proofs.CsKBestAnyKth

/-!
# Streams of backtraces for charts with arbitrary weights and cycles of chain rules

If chain rules have cycles, there are infinitely many backtraces for an item. The process that removes the greatest candidate and adds its successors then gives a stream.
The elements of the stream for an item depend on elements of the streams for other items and for the item itself, but only on elements with smaller positions, or with the
same position if they belong to the first candidate of the item. So all elements are defined if the relation given by the first candidates has no cycles.
-/

namespace Rustomata
open Spec KForest

section
variable {W : Type _} [RoundedWeight W]

/-- The items and indices that a backtrace refers to. -/
def Backtrace.args (i j : Nat) : Backtrace W → List (Nat × Nat × Nat × Nat)
  | nullary _ _ => []
  | unary _ q _ k => [(i, j, q, k)]
  | binary _ q₁ m q₂ _ k₁ k₂ => [(i, m, q₁, k₁), (m, j, q₂, k₂)]

omit [RoundedWeight W] in
theorem Backtrace.args_kids {i j : Nat} {b : Backtrace W} {a : Nat × Nat × Nat × Nat} (h : a ∈ b.args i j) : (a.1, a.2.1, a.2.2.1) ∈ b.kids i j ∧ a.2.2.2 ≤ b.depth := by
  cases b with
  | nullary => cases h
  | unary =>
    simp only [args, List.mem_singleton] at h
    subst h
    simp [kids, depth]
  | binary =>
    simp only [args, List.mem_cons, List.not_mem_nil, or_false] at h
    rcases h with rfl | rfl <;> simp [kids, depth]

theorem btW_congr_args {g g' : Nat → Nat → Nat → Nat → Option W} {i j : Nat} {b : Backtrace W}
    (h : ∀ a ∈ b.args i j, g a.1 a.2.1 a.2.2.1 a.2.2.2 = g' a.1 a.2.1 a.2.2.1 a.2.2.2) : btW g i j b = btW g' i j b := by
  cases b with
  | nullary => rfl
  | unary r q w k => simp only [btW, h (i, j, q, k) (by simp [Backtrace.args])]
  | binary r q₁ m q₂ w k₁ k₂ => simp only [btW, h (i, m, q₁, k₁) (by simp [Backtrace.args]), h (m, j, q₂, k₂) (by simp [Backtrace.args])]

/-- One step of the process: the successors of the last backtrace are added and the greatest candidate is removed. -/
def pstep (val : Backtrace W → Option W) (s : Option (Backtrace W) × List (W × Backtrace W)) : Option ((Backtrace W × W) × List (W × Backtrace W)) :=
  (btPop (pushAll s.2 (weighted val (succsOf s.1)))).map fun p => ((p.1.2, p.1.1), p.2)

/-- The state of the process after some steps. -/
def pstate (val : Backtrace W → Option W) (h : List (W × Backtrace W)) : Nat → Option (Option (Backtrace W) × List (W × Backtrace W))
  | 0 => some (none, h)
  | n + 1 => (pstate val h n).bind fun s => (pstep val s).map fun p => (some p.1.1, p.2)

/-- The elements of the stream. -/
def pelem (val : Backtrace W → Option W) (h : List (W × Backtrace W)) (n : Nat) : Option (Backtrace W × W) :=
  (pstate val h n).bind fun s => (pstep val s).map Prod.fst

theorem pstep_some {val : Backtrace W → Option W} {s : Option (Backtrace W) × List (W × Backtrace W)} {p : (Backtrace W × W) × List (W × Backtrace W)} :
    pstep val s = some p ↔ btPop (pushAll s.2 (weighted val (succsOf s.1))) = some ((p.1.2, p.1.1), p.2) := by
  unfold pstep
  rw [Option.map_eq_some_iff]
  constructor
  · rintro ⟨⟨⟨w, b⟩, rest⟩, h, rfl⟩
    exact h
  · intro h
    exact ⟨_, h, rfl⟩

theorem pstate_succ {val : Backtrace W → Option W} {h : List (W × Backtrace W)} {n : Nat} {s' : Option (Backtrace W) × List (W × Backtrace W)} :
    pstate val h (n + 1) = some s' ↔ ∃ s b w, pstate val h n = some s ∧ pstep val s = some ((b, w), s'.2) ∧ s'.1 = some b := by
  rw [pstate, Option.bind_eq_some_iff]
  constructor
  · rintro ⟨s, h1, h2⟩
    rw [Option.map_eq_some_iff] at h2
    obtain ⟨⟨⟨b, w⟩, r⟩, h2, rfl⟩ := h2
    exact ⟨s, b, w, h1, h2, rfl⟩
  · rintro ⟨s, b, w, h1, h2, h3⟩
    exact ⟨s, h1, by rw [h2, Option.map_some, ← h3]⟩

/-- If there is an element, then there is a next state. -/
theorem pelem_some {val : Backtrace W → Option W} {h : List (W × Backtrace W)} {n : Nat} {b : Backtrace W} {w : W} :
    pelem val h n = some (b, w) ↔ ∃ s r, pstate val h n = some s ∧ pstep val s = some ((b, w), r) ∧ pstate val h (n + 1) = some (some b, r) := by
  unfold pelem
  rw [Option.bind_eq_some_iff]
  constructor
  · rintro ⟨s, h1, h2⟩
    rw [Option.map_eq_some_iff] at h2
    obtain ⟨⟨p, r⟩, h2, rfl⟩ := h2
    exact ⟨s, r, h1, h2, pstate_succ.2 ⟨s, b, w, h1, h2, rfl⟩⟩
  · rintro ⟨s, r, h1, h2, _⟩
    exact ⟨s, h1, by rw [h2]; rfl⟩

theorem pstate_le {val : Backtrace W → Option W} {h : List (W × Backtrace W)} {n m : Nat} (hm : m ≤ n) {s : Option (Backtrace W) × List (W × Backtrace W)}
    (hs : pstate val h n = some s) : ∃ s', pstate val h m = some s' := by
  induction n generalizing s with
  | zero => rw [Nat.le_zero.1 hm]; exact ⟨_, hs⟩
  | succ n ih =>
    by_cases he : m = n + 1
    · rw [he]; exact ⟨_, hs⟩
    · obtain ⟨s', _, _, h1, _⟩ := pstate_succ.1 hs
      exact ih (by omega) h1

theorem pelem_of_state {val : Backtrace W → Option W} {h : List (W × Backtrace W)} {n m : Nat} (hm : m < n) {s : Option (Backtrace W) × List (W × Backtrace W)}
    (hs : pstate val h n = some s) : ∃ p, pelem val h m = some p := by
  obtain ⟨s', h1⟩ := pstate_le (Nat.succ_le_of_lt hm) hs
  obtain ⟨s₀, b, w, h2, h3, h4⟩ := pstate_succ.1 h1
  exact ⟨(b, w), pelem_some.2 ⟨s₀, _, h2, h3, by rw [h1, ← h4]⟩⟩

theorem pelem_none_le {val : Backtrace W → Option W} {h : List (W × Backtrace W)} {n m : Nat} (hm : m ≤ n) (hn : pelem val h m = none) : pelem val h n = none := by
  by_contra hc
  rw [← ne_eq, Option.ne_none_iff_exists'] at hc
  obtain ⟨⟨b, w⟩, hc⟩ := hc
  obtain ⟨_, _, _, _, h3⟩ := pelem_some.1 hc
  obtain ⟨p, hp⟩ := pelem_of_state (Nat.lt_succ_of_le hm) h3
  rw [hn] at hp
  cases hp

/-! ### The forest -/

/-- Forests with initial candidates `h0`; each item in the chart has a candidate, and the items of the first candidate have smaller ranks. -/
structure StreamForest (F : KForest W) (h0 : Nat → Nat → Nat → List (W × Backtrace W)) (M : Nat) : Prop where
  map : ∀ {i j q}, (h0 i j q).map Prod.snd = F.I i j q
  base : ∀ {i j q b}, b ∈ F.I i j q → b.base = b
  inj : ∀ {i j q b b'}, F.ok i j q → b ∈ F.I i j q → b' ∈ F.I i j q → b.key = b'.key → b = b'
  kids : ∀ {i j q b}, F.ok i j q → b ∈ F.I i j q → ∀ c ∈ b.kids i j, F.ok c.1 c.2.1 c.2.2 ∧ ∃ w, F.cw c.1 c.2.1 c.2.2 = some w
  nonempty : ∀ {i j q w}, F.ok i j q → F.cw i j q = some w → F.I i j q ≠ []
  first : ∀ {i j q w b r}, F.ok i j q → btPop (h0 i j q) = some ((w, b), r) → ∀ c ∈ b.kids i j, F.rank c.1 c.2.1 c.2.2 < F.rank i j q
  bound : ∀ {i j q}, F.ok i j q → F.rank i j q < M

variable {F : KForest W} {h0 : Nat → Nat → Nat → List (W × Backtrace W)} {M : Nat}

theorem StreamForest.h0_base (hH : StreamForest F h0 M) {i j q : Nat} : ∀ x ∈ h0 i j q, x.2.base ∈ F.I i j q := by
  intro x hx
  have : x.2 ∈ F.I i j q := by rw [← hH.map]; exact List.mem_map_of_mem hx
  rw [hH.base this]
  exact this

theorem StreamForest.h0_depth (hH : StreamForest F h0 M) {i j q : Nat} : ∀ x ∈ h0 i j q, x.2.depth = 0 := by
  intro x hx
  have : x.2 ∈ F.I i j q := by rw [← hH.map]; exact List.mem_map_of_mem hx
  have := hH.base this
  cases hb : x.2 with
  | nullary => rfl
  | unary => rw [hb] at this; simp only [Backtrace.base, Backtrace.unary.injEq, true_and] at this; rw [← this]; rfl
  | binary => rw [hb] at this; simp only [Backtrace.base, Backtrace.binary.injEq, true_and] at this; obtain ⟨rfl, rfl⟩ := this; rfl

theorem StreamForest.h0_mem (hH : StreamForest F h0 M) {i j q : Nat} {b : Backtrace W} (hb : b ∈ F.I i j q) : ∃ w, (w, b) ∈ h0 i j q := by
  rw [← hH.map, List.mem_map] at hb
  obtain ⟨x, hx, rfl⟩ := hb
  exact ⟨x.1, hx⟩

/-- The backtraces that can be found after `n` steps. -/
def Near (F : KForest W) (h0 : Nat → Nat → Nat → List (W × Backtrace W)) (i j q n : Nat) (b : Backtrace W) : Prop :=
  b.base ∈ F.I i j q ∧ (b.depth < n ∨ (b.depth = n ∧ ∃ w b₀ r, btPop (h0 i j q) = some ((w, b₀), r) ∧ b.base = b₀.base))

theorem Near.mono {i j q n m : Nat} {b : Backtrace W} (h : Near F h0 i j q n b) (hn : n ≤ m) : Near F h0 i j q m b := by
  refine ⟨h.1, ?_⟩
  rcases h.2 with h | h
  · exact .inl (by omega)
  · by_cases he : n = m
    · subst he; exact .inr h
    · exact .inl (by omega)

theorem Near.succ {i j q n : Nat} {b b' : Backtrace W} (h : Near F h0 i j q n b) (hb : b' ∈ b.succs) : Near F h0 i j q (n + 1) b' := by
  have h1 := Backtrace.base_succs hb
  have h2 := Backtrace.depth_succs hb
  refine ⟨h1 ▸ h.1, ?_⟩
  rcases h.2 with h | ⟨h, g⟩
  · exact .inl (by omega)
  · exact .inr ⟨by omega, h1 ▸ g⟩

/-- The measure of an element of a stream. -/
def smeasure (F : KForest W) (M i j q k : Nat) : Nat := k * M + F.rank i j q

theorem smeasure_le (i j q : Nat) {k k' : Nat} (h : k ≤ k') : smeasure F M i j q k ≤ smeasure F M i j q k' :=
  Nat.add_le_add_right (Nat.mul_le_mul_right _ h) _

theorem smeasure_lt_of_lt {i j q i' j' q' k k' : Nat} (hM : F.rank i j q < M) (h : k < k') : smeasure F M i j q k < smeasure F M i' j' q' k' := by
  unfold smeasure
  have : (k + 1) * M ≤ k' * M := Nat.mul_le_mul_right _ h
  rw [Nat.succ_mul] at this
  omega

theorem lt_of_smeasure {i j q k k' : Nat} (h : smeasure F M i j q k < smeasure F M i j q k') : k < k' := by
  by_contra hc
  have := smeasure_le (F := F) (M := M) i j q (Nat.le_of_not_lt hc)
  omega

theorem Near.args (hH : StreamForest F h0 M) {i j q n : Nat} (hok : F.ok i j q) {b : Backtrace W} (h : Near F h0 i j q n b) {a : Nat × Nat × Nat × Nat}
    (ha : a ∈ b.args i j) : F.ok a.1 a.2.1 a.2.2.1 ∧ smeasure F M a.1 a.2.1 a.2.2.1 a.2.2.2 < smeasure F M i j q n := by
  obtain ⟨h1, h2⟩ := Backtrace.args_kids ha
  have h3 := hH.kids hok h.1 _ (by rw [Backtrace.kids_base]; exact h1)
  refine ⟨h3.1, ?_⟩
  rcases h.2 with h4 | ⟨h4, w, b₀, r, h5, h6⟩
  · exact smeasure_lt_of_lt (hH.bound h3.1) (by omega)
  · have h7 := hH.first hok h5 _ (by rw [← Backtrace.kids_base, ← h6, Backtrace.kids_base]; exact h1)
    simp only at h7
    have := smeasure_le (F := F) (M := M) a.1 a.2.1 a.2.2.1 (h2.trans (le_of_eq h4))
    unfold smeasure at this ⊢
    omega

/-- The states of the process contain backtraces that are near. -/
theorem StreamForest.near (hH : StreamForest F h0 M) {val : Backtrace W → Option W} {i j q : Nat} (n : Nat) :
    ∀ {s}, pstate val (h0 i j q) (n + 1) = some s → (∃ b, s.1 = some b ∧ Near F h0 i j q n b) ∧ ∀ y ∈ s.2, Near F h0 i j q (n + 1) y.2 := by
  induction n with
  | zero =>
    intro s hs
    obtain ⟨s₀, b, w, h1, h2, h3⟩ := pstate_succ.1 hs
    obtain rfl := Option.some.inj h1
    rw [pstep_some] at h2
    simp only [succsOf, weighted, List.filterMap_nil, pushAll, List.foldl_nil] at h2
    obtain ⟨hperm, _⟩ := btPop_some h2
    have hb := hperm.mem_iff.2 (List.mem_cons_self ..)
    refine ⟨⟨b, h3, hH.h0_base _ hb, .inr ⟨hH.h0_depth _ hb, _, _, _, h2, rfl⟩⟩, fun y hy => ?_⟩
    have hy := hperm.mem_iff.2 (List.mem_cons_of_mem _ hy)
    exact ⟨hH.h0_base _ hy, .inl (by rw [hH.h0_depth _ hy]; omega)⟩
  | succ n ih =>
    intro s hs
    obtain ⟨s₀, b, w, h1, h2, h3⟩ := pstate_succ.1 hs
    obtain ⟨⟨b₀, g1, g2⟩, g3⟩ := ih h1
    rw [pstep_some] at h2
    obtain ⟨hperm, _⟩ := btPop_some h2
    have hall : ∀ y ∈ pushAll s₀.2 (weighted val (succsOf s₀.1)), Near F h0 i j q (n + 1) y.2 := by
      intro y hy
      rcases pushAll_mem _ hy with hy | hy
      · exact g3 y hy
      · rw [g1] at hy
        exact g2.succ (mem_weighted.1 hy).1
    refine ⟨⟨b, h3, hall _ (hperm.mem_iff.2 (List.mem_cons_self ..))⟩, fun y hy => ?_⟩
    exact (hall y (hperm.mem_iff.2 (List.mem_cons_of_mem _ hy))).mono (Nat.le_succ _)

/-- The first elements depend only on the weights of backtraces that are near. -/
theorem StreamForest.pstate_congr (hH : StreamForest F h0 M) {val val' : Backtrace W → Option W} {i j q n : Nat} (h : ∀ b, Near F h0 i j q n b → val b = val' b) :
    ∀ m ≤ n + 1, pstate val (h0 i j q) m = pstate val' (h0 i j q) m := by
  have hstep : ∀ m ≤ n, ∀ s, pstate val (h0 i j q) m = some s → pstep val s = pstep val' s := by
    intro m hm s hs
    unfold pstep
    have : weighted val (succsOf s.1) = weighted val' (succsOf s.1) := by
      unfold weighted
      refine List.filterMap_congr fun b hb => ?_
      cases m with
      | zero =>
        obtain rfl := Option.some.inj hs
        cases hb
      | succ m =>
        obtain ⟨⟨b₀, g1, g2⟩, _⟩ := hH.near m hs
        rw [g1] at hb
        rw [h b ((g2.succ hb).mono (by omega))]
    rw [this]
  intro m
  induction m with
  | zero => intro _; rfl
  | succ m ih =>
    intro hm
    rw [pstate, pstate, ← ih (by omega)]
    cases hs : pstate val (h0 i j q) m with
    | none => rfl
    | some s => simp only [Option.bind_some, hstep m (by omega) s hs]

theorem StreamForest.pelem_congr (hH : StreamForest F h0 M) {val val' : Backtrace W → Option W} {i j q n : Nat} (h : ∀ b, Near F h0 i j q n b → val b = val' b) :
    pelem val (h0 i j q) n = pelem val' (h0 i j q) n := by
  cases hp : pelem val (h0 i j q) n with
  | some p =>
    obtain ⟨b, w⟩ := p
    obtain ⟨s, r, h1, h2, h3⟩ := pelem_some.1 hp
    rw [hH.pstate_congr h _ (Nat.le_succ _)] at h1
    have h4 := h3
    rw [hH.pstate_congr h _ (le_refl _)] at h3
    obtain ⟨s', b', w', e1, e2, e3⟩ := pstate_succ.1 h3
    rw [h1] at e1
    cases e1
    simp only [Option.some.injEq] at e3
    subst e3
    rw [pstep_some] at h2 e2
    have : weighted val (succsOf s.1) = weighted val' (succsOf s.1) := by
      unfold weighted
      refine List.filterMap_congr fun b hb => ?_
      cases n with
      | zero =>
        obtain rfl := Option.some.inj h1
        cases hb
      | succ m =>
        obtain ⟨⟨b₀, g1, g2⟩, _⟩ := hH.near m h1
        rw [g1] at hb
        rw [h b (g2.succ hb)]
    rw [this] at h2
    exact (pelem_some.2 ⟨s, r, h1, pstep_some.2 h2, h3⟩).symm
  | none =>
    cases hp' : pelem val' (h0 i j q) n with
    | none => rfl
    | some p =>
      obtain ⟨b, w⟩ := p
      obtain ⟨s, r, h1, h2, h3⟩ := pelem_some.1 hp'
      rw [← hH.pstate_congr h _ (le_refl _)] at h3
      obtain ⟨p', hp''⟩ := pelem_of_state (Nat.lt_succ_self n) h3
      rw [hp] at hp''
      cases hp''

/-- The elements up to a depth. -/
def elemF (h0 : Nat → Nat → Nat → List (W × Backtrace W)) : Nat → Nat → Nat → Nat → Nat → Option (Backtrace W × W)
  | 0, _, _, _, _ => none
  | f + 1, i, j, q, k => pelem (btW (fun i j q k => (elemF h0 f i j q k).map Prod.snd) i j) (h0 i j q) k

/-- The elements of the stream for an item. -/
def elem (F : KForest W) (h0 : Nat → Nat → Nat → List (W × Backtrace W)) (M i j q k : Nat) : Option (Backtrace W × W) :=
  elemF h0 (smeasure F M i j q k + 1) i j q k

/-- The weights of the elements. -/
def elemWt (F : KForest W) (h0 : Nat → Nat → Nat → List (W × Backtrace W)) (M i j q k : Nat) : Option W := (elem F h0 M i j q k).map Prod.snd

theorem StreamForest.elemF_stable (hH : StreamForest F h0 M) (r : Nat) : ∀ {i j q k f f'}, F.ok i j q → smeasure F M i j q k = r → r < f → r < f' →
    elemF h0 f i j q k = elemF h0 f' i j q k := by
  induction r using Nat.strong_induction_on with
  | _ r ih =>
    intro i j q k f f' hok hr hf hf'
    cases f with
    | zero => omega
    | succ f =>
      cases f' with
      | zero => omega
      | succ f' =>
        refine hH.pelem_congr fun b hb => btW_congr_args fun a ha => ?_
        obtain ⟨h1, h2⟩ := hb.args hH hok ha
        show Option.map _ _ = Option.map _ _
        rw [ih _ (hr ▸ h2) h1 rfl (by omega : _ < f) (by omega : _ < f')]

/-- The elements are given by the process. -/
theorem StreamForest.elem_eq (hH : StreamForest F h0 M) {i j q : Nat} (hok : F.ok i j q) (k : Nat) :
    elem F h0 M i j q k = pelem (btW (elemWt F h0 M) i j) (h0 i j q) k := by
  refine hH.pelem_congr fun b hb => btW_congr_args fun a ha => ?_
  obtain ⟨h1, h2⟩ := hb.args hH hok ha
  simp only [elemWt, elem, hH.elemF_stable _ h1 rfl h2 (Nat.lt_succ_self _)]

end

end Rustomata
