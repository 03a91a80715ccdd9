import Verif.Proofs.CsKBestOrder

/-!
# Enumerations of derivations in a forest

A forest gives for each item (span and state) the backtraces with zero indices and the weight in the chart. If the items are ranked, the backtraces of each item
can be listed in descending order.
-/

namespace Rustomata

namespace Backtrace
variable {W : Type _}

/-- The backtrace with zero indices. -/
def base : Backtrace W → Backtrace W
  | nullary r w => nullary r w
  | unary r q w _ => unary r q w 0
  | binary r q₁ m q₂ w _ _ => binary r q₁ m q₂ w 0 0

/-- The items that the backtrace refers to. -/
def kids (i j : Nat) : Backtrace W → List (Nat × Nat × Nat)
  | nullary _ _ => []
  | unary _ q _ _ => [(i, j, q)]
  | binary _ q₁ m q₂ _ _ _ => [(i, m, q₁), (m, j, q₂)]

theorem base_base (b : Backtrace W) : b.base.base = b.base := by cases b <;> rfl

theorem kids_base (i j : Nat) (b : Backtrace W) : b.base.kids i j = b.kids i j := by cases b <;> rfl

theorem base_succs {b b' : Backtrace W} (h : b' ∈ b.succs) : b'.base = b.base := by
  cases b with
  | nullary => simp [succs] at h
  | unary =>
    simp only [succs, List.mem_singleton] at h
    subst h; rfl
  | binary =>
    simp only [succs, List.mem_cons, List.not_mem_nil, or_false] at h
    rcases h with rfl | rfl <;> rfl

theorem key_succs {b b' : Backtrace W} (h : b' ∈ b.succs) : b'.key < b.key := by
  rw [← cmp_lt_iff]
  cases b with
  | nullary => simp [succs] at h
  | unary =>
    simp only [succs, List.mem_singleton] at h
    subst h
    simp [cmp, Nat.compare_eq_lt]
  | binary =>
    simp only [succs, List.mem_cons, List.not_mem_nil, or_false] at h
    rcases h with rfl | rfl <;> simp [cmp, Nat.compare_eq_lt]

/-- Backtraces with the same kind and rule whose keys agree have the same indices. -/
theorem eq_of_base_key {b b' : Backtrace W} (h : b.base = b'.base) (hk : b.key = b'.key) : b = b' := by
  cases b <;> cases b' <;> simp_all [base, key]

theorem base_key {b b' : Backtrace W} (hk : b.key = b'.key) : b.base.key = b'.base.key := by
  cases b <;> cases b' <;> simp_all [base, key]

end Backtrace

/-- The weight of a backtrace, given the weights of the items. -/
def btW {W : Type _} [Mul W] (g : Nat → Nat → Nat → Nat → Option W) (i j : Nat) : Backtrace W → Option W
  | .nullary _ w => some w
  | .unary _ q w k => (g i j q k).map (w * ·)
  | .binary _ q₁ m q₂ w k₁ k₂ => (g i m q₁ k₁).bind fun w₁ => (g m j q₂ k₂).map fun w₂ => w * w₁ * w₂

/-- The backtraces with zero indices and the weights of the items in the chart; items and ranks. -/
structure KForest (W : Type _) where
  I : Nat → Nat → Nat → List (Backtrace W)
  cw : Nat → Nat → Nat → Option W
  ok : Nat → Nat → Nat → Prop
  rank : Nat → Nat → Nat → Nat

section
variable {W : Type _} [RoundedWeight W]

/-- The weight of a backtrace by the chart. -/
def KForest.wt0 (F : KForest W) (i j : Nat) (b : Backtrace W) : Option W := btW (fun i j q _ => F.cw i j q) i j b

/-- Ranked forests whose chart contains the greatest weights. -/
structure KForest.Ok (F : KForest W) : Prop where
  base : ∀ {i j q b}, b ∈ F.I i j q → b.base = b
  inj : ∀ {i j q b b'}, F.ok i j q → b ∈ F.I i j q → b' ∈ F.I i j q → b.key = b'.key → b = b'
  kids : ∀ {i j q b}, F.ok i j q → b ∈ F.I i j q → ∀ c ∈ b.kids i j, F.ok c.1 c.2.1 c.2.2 ∧ F.rank c.1 c.2.1 c.2.2 < F.rank i j q ∧ ∃ w, F.cw c.1 c.2.1 c.2.2 = some w
  best : ∀ {i j q w}, F.ok i j q → F.cw i j q = some w → (∃ b ∈ F.I i j q, F.wt0 i j b = some w) ∧ ∀ b ∈ F.I i j q, ∀ w', F.wt0 i j b = some w' → w' ≤ w

/-- The weights given by a list of backtraces for each item. -/
def listWt (L : Nat → Nat → Nat → List (Backtrace W × W)) (i j q k : Nat) : Option W := ((L i j q)[k]?).map Prod.snd

/-- The order of the lists of backtraces. -/
def bwKey (p : Backtrace W × W) : W ×ₗ (ℕ ×ₗ (ℕᵒᵈ ×ₗ (ℕᵒᵈ ×ₗ (ℕ ×ₗ ℕ)))) := toLex (p.2, p.1.key)

omit [RoundedWeight W] in
theorem btKey_swap [LinearOrder W] (b : Backtrace W) (w : W) : btKey (w, b) = toLex (w, b.key) := rfl

/-- All indices for a backtrace. -/
def expand (L : Nat → Nat → Nat → List (Backtrace W × W)) (i j : Nat) : Backtrace W → List (Backtrace W × W)
  | .nullary r w => [(.nullary r w, w)]
  | .unary r q w _ => (L i j q).zipIdx.map fun p => (.unary r q w p.2, w * p.1.2)
  | .binary r q₁ m q₂ w _ _ => (L i m q₁).zipIdx.flatMap fun p₁ => (L m j q₂).zipIdx.map fun p₂ => (.binary r q₁ m q₂ w p₁.2 p₂.2, w * p₁.1.2 * p₂.1.2)

theorem mem_expand {L : Nat → Nat → Nat → List (Backtrace W × W)} {i j : Nat} {b b' : Backtrace W} {w : W} :
    (b', w) ∈ expand L i j b ↔ b'.base = b.base ∧ btW (listWt L) i j b' = some w := by
  cases b with
  | nullary r v =>
    cases b' <;> simp [expand, Backtrace.base, btW]
    rintro rfl rfl
    exact eq_comm
  | unary r q v k =>
    cases b' with
    | nullary => simp [expand, Backtrace.base]
    | binary => simp [expand, Backtrace.base]
    | unary r' q' v' k' =>
      simp only [expand, List.mem_map, Prod.mk.injEq, Backtrace.unary.injEq, Backtrace.base, btW, listWt, Option.map_eq_some_iff, Prod.exists,
        List.mem_zipIdx_iff_getElem?]
      constructor
      · rintro ⟨b, w', n, h, ⟨rfl, rfl, rfl, rfl⟩, rfl⟩
        exact ⟨⟨rfl, rfl, rfl, trivial⟩, w', ⟨b, w', h, rfl⟩, rfl⟩
      · rintro ⟨⟨rfl, rfl, rfl, _⟩, _, ⟨b, w', h, rfl⟩, rfl⟩
        exact ⟨b, w', k', h, ⟨rfl, rfl, rfl, rfl⟩, rfl⟩
  | binary r q₁ m q₂ v k₁ k₂ =>
    cases b' with
    | nullary => simp [expand, Backtrace.base]
    | unary => simp [expand, Backtrace.base]
    | binary r' q₁' m' q₂' v' k₁' k₂' =>
      simp only [expand, List.mem_flatMap, List.mem_map, Prod.mk.injEq, Backtrace.binary.injEq, Backtrace.base, btW, listWt, Option.bind_eq_some_iff,
        Option.map_eq_some_iff, Prod.exists, List.mem_zipIdx_iff_getElem?]
      constructor
      · rintro ⟨b₁, w₁, n₁, h₁, b₂, w₂, n₂, h₂, ⟨rfl, rfl, rfl, rfl, rfl, rfl, rfl⟩, rfl⟩
        exact ⟨⟨rfl, rfl, rfl, rfl, rfl, trivial, trivial⟩, w₁, ⟨b₁, w₁, h₁, rfl⟩, w₂, ⟨b₂, w₂, h₂, rfl⟩, rfl⟩
      · rintro ⟨⟨rfl, rfl, rfl, rfl, rfl, _, _⟩, _, ⟨b₁, w₁, h₁, rfl⟩, _, ⟨b₂, w₂, h₂, rfl⟩, rfl⟩
        exact ⟨b₁, w₁, k₁', h₁, b₂, w₂, k₂', h₂, ⟨rfl, rfl, rfl, rfl, rfl, rfl, rfl⟩, rfl⟩

namespace KForest
variable (F : KForest W)

/-- The backtraces of an item up to a depth, in descending order. -/
noncomputable def enumF : Nat → Nat → Nat → Nat → List (Backtrace W × W)
  | 0, _, _, _ => []
  | f + 1, i, j, q => sortDesc bwKey ((F.I i j q).flatMap (expand (enumF f) i j))

/-- The backtraces of an item in descending order. -/
noncomputable def L (i j q : Nat) : List (Backtrace W × W) := F.enumF (F.rank i j q + 1) i j q

variable {F}

theorem btW_congr {g g' : Nat → Nat → Nat → Nat → Option W} {i j : Nat} {b : Backtrace W} (h : ∀ c ∈ b.kids i j, ∀ k, g c.1 c.2.1 c.2.2 k = g' c.1 c.2.1 c.2.2 k) :
    btW g i j b = btW g' i j b := by
  cases b with
  | nullary => rfl
  | unary r q w k => simp only [btW, h (i, j, q) (by simp [Backtrace.kids])]
  | binary r q₁ m q₂ w k₁ k₂ => simp only [btW, h (i, m, q₁) (by simp [Backtrace.kids]), h (m, j, q₂) (by simp [Backtrace.kids])]

theorem expand_congr {L L' : Nat → Nat → Nat → List (Backtrace W × W)} {i j : Nat} {b : Backtrace W} (h : ∀ c ∈ b.kids i j, L c.1 c.2.1 c.2.2 = L' c.1 c.2.1 c.2.2) :
    expand L i j b = expand L' i j b := by
  cases b with
  | nullary => rfl
  | unary r q w k => simp only [expand, h (i, j, q) (by simp [Backtrace.kids])]
  | binary r q₁ m q₂ w k₁ k₂ => simp only [expand, h (i, m, q₁) (by simp [Backtrace.kids]), h (m, j, q₂) (by simp [Backtrace.kids])]

theorem Ok.enumF_stable (hF : F.Ok) (r : Nat) : ∀ {i j q f f'}, F.ok i j q → F.rank i j q = r → r < f → r < f' → F.enumF f i j q = F.enumF f' i j q := by
  induction r using Nat.strong_induction_on with
  | _ r ih =>
    intro i j q f f' hok hr hf hf'
    cases f with
    | zero => omega
    | succ f =>
      cases f' with
      | zero => omega
      | succ f' =>
        unfold enumF
        congr 1
        refine List.flatMap_congr fun b hb => expand_congr fun c hc => ?_
        have := hF.kids hok hb c hc
        exact ih (F.rank c.1 c.2.1 c.2.2) (by omega) this.1 rfl (by omega) (by omega)

/-- The list of an item is sorted and contains the backtraces whose weights are defined. -/
theorem Ok.L_spec (hF : F.Ok) {i j q : Nat} (hok : F.ok i j q) :
    (F.L i j q).Pairwise (fun a b => bwKey b < bwKey a) ∧ ∀ b w, (b, w) ∈ F.L i j q ↔ b.base ∈ F.I i j q ∧ btW (listWt F.L) i j b = some w := by
  have hm : ∀ b w, (b, w) ∈ (F.I i j q).flatMap (expand (F.enumF (F.rank i j q)) i j) ↔ b.base ∈ F.I i j q ∧ btW (listWt F.L) i j b = some w := by
    intro b w
    rw [List.mem_flatMap]
    have he : ∀ b₀ ∈ F.I i j q, expand (F.enumF (F.rank i j q)) i j b₀ = expand F.L i j b₀ := fun b₀ h => expand_congr fun c hc => by
      have := hF.kids hok h c hc
      exact hF.enumF_stable _ this.1 rfl (by omega) (by omega)
    constructor
    · rintro ⟨b₀, h₀, h⟩
      rw [he b₀ h₀, mem_expand, hF.base h₀] at h
      exact ⟨h.1 ▸ h₀, h.2⟩
    · rintro ⟨h₀, h⟩
      refine ⟨b.base, h₀, ?_⟩
      rw [he _ h₀, mem_expand, Backtrace.base_base]
      exact ⟨rfl, h⟩
  have hs := sortDesc_spec (key := bwKey) (U := (F.I i j q).flatMap (expand (F.enumF (F.rank i j q)) i j)) ?_
  · exact ⟨hs.1, fun b w => (hs.2 (b, w)).trans (hm b w)⟩
  · rintro ⟨b, w⟩ hx ⟨b', w'⟩ hy he
    rw [hm] at hx hy
    have he' : w = w' ∧ b.key = b'.key := by simpa [bwKey] using he
    have := hF.inj hok hx.1 hy.1 (Backtrace.base_key he'.2)
    rw [Backtrace.eq_of_base_key this he'.2, he'.1]

theorem Ok.L_key (hF : F.Ok) {i j q : Nat} (hok : F.ok i j q) {p p' : Backtrace W × W} (hp : p ∈ F.L i j q) (hp' : p' ∈ F.L i j q) (h : p.1.key = p'.1.key) : p = p' := by
  obtain ⟨b, w⟩ := p
  obtain ⟨b', w'⟩ := p'
  rw [(hF.L_spec hok).2] at hp hp'
  have := Backtrace.eq_of_base_key (hF.inj hok hp.1 hp'.1 (Backtrace.base_key h)) h
  subst this
  rw [hp.2] at hp'
  rw [Option.some.inj hp'.2]

theorem Ok.L_lt (hF : F.Ok) {i j q k k' : Nat} (hok : F.ok i j q) {p p' : Backtrace W × W} (hp : (F.L i j q)[k]? = some p) (hp' : (F.L i j q)[k']? = some p')
    (h : k < k') : bwKey p' < bwKey p := by
  obtain ⟨h1, rfl⟩ := List.getElem?_eq_some_iff.1 hp
  obtain ⟨h2, rfl⟩ := List.getElem?_eq_some_iff.1 hp'
  exact List.pairwise_iff_getElem.1 (hF.L_spec hok).1 k k' h1 h2 h

theorem snd_le_of_bwKey {p p' : Backtrace W × W} (h : bwKey p' ≤ bwKey p) : p'.2 ≤ p.2 := by
  unfold bwKey at h
  rw [Prod.Lex.toLex_le_toLex] at h
  rcases h with h | h
  · exact h.le
  · exact h.1.le

theorem Ok.L_le (hF : F.Ok) {i j q k k' : Nat} (hok : F.ok i j q) {w w' : W} (hp : listWt F.L i j q k = some w) (hp' : listWt F.L i j q k' = some w')
    (h : k ≤ k') : w' ≤ w := by
  unfold listWt at hp hp'
  rw [Option.map_eq_some_iff] at hp hp'
  obtain ⟨p, hp, rfl⟩ := hp
  obtain ⟨p', hp', rfl⟩ := hp'
  rcases Nat.eq_or_lt_of_le h with rfl | h
  · rw [hp] at hp'
    rw [Option.some.inj hp']
  · exact snd_le_of_bwKey (hF.L_lt hok hp hp' h).le

omit [RoundedWeight W] in
/-- Smaller indices are defined as well. -/
theorem listWt_of_le {L : Nat → Nat → Nat → List (Backtrace W × W)} {i j q k k' : Nat} {w : W} (h : listWt L i j q k' = some w) (hk : k ≤ k') : ∃ w', listWt L i j q k = some w' := by
  unfold listWt at h ⊢
  rw [Option.map_eq_some_iff] at h
  obtain ⟨p, hp, rfl⟩ := h
  have := (List.getElem?_eq_some_iff.1 hp).1
  rw [List.getElem?_eq_getElem (by omega : k < (L i j q).length)]
  exact ⟨_, rfl⟩

/-- Zero indices have greater weights. -/
theorem Ok.base_le (hF : F.Ok) {i j q : Nat} (hok : F.ok i j q) {b : Backtrace W} {w : W} (hb : b.base ∈ F.I i j q) (h : btW (listWt F.L) i j b = some w) :
    ∃ w', btW (listWt F.L) i j b.base = some w' ∧ w ≤ w' := by
  have hk := hF.kids hok hb
  cases b with
  | nullary => exact ⟨w, h, le_refl _⟩
  | unary r q₁ v k =>
    simp only [btW, Backtrace.base, Option.map_eq_some_iff] at h ⊢
    obtain ⟨a, ha, rfl⟩ := h
    obtain ⟨a', ha'⟩ := listWt_of_le ha (Nat.zero_le k)
    have := hk (i, j, q₁) (by simp [Backtrace.kids, Backtrace.base])
    exact ⟨_, ⟨a', ha', rfl⟩, mul_le_mul_right (hF.L_le this.1 ha' ha (Nat.zero_le _)) v⟩
  | binary r q₁ m q₂ v k₁ k₂ =>
    simp only [btW, Backtrace.base, Option.map_eq_some_iff, Option.bind_eq_some_iff] at h ⊢
    obtain ⟨a, ha, c, hc, rfl⟩ := h
    obtain ⟨a', ha'⟩ := listWt_of_le ha (Nat.zero_le k₁)
    obtain ⟨c', hc'⟩ := listWt_of_le hc (Nat.zero_le k₂)
    have h1 := hk (i, m, q₁) (by simp [Backtrace.kids, Backtrace.base])
    have h2 := hk (m, j, q₂) (by simp [Backtrace.kids, Backtrace.base])
    exact ⟨_, ⟨a', ha', c', hc', rfl⟩, mul_le_mul' (mul_le_mul_right (hF.L_le h1.1 ha' ha (Nat.zero_le _)) v) (hF.L_le h2.1 hc' hc (Nat.zero_le _))⟩

/-- The first element has the weight of the chart. -/
theorem Ok.L_head (hF : F.Ok) (r : Nat) : ∀ {i j q w}, F.ok i j q → F.rank i j q = r → F.cw i j q = some w → listWt F.L i j q 0 = some w := by
  induction r using Nat.strong_induction_on with
  | _ r ih =>
    intro i j q w hok hr hw
    have hI : ∀ b ∈ F.I i j q, btW (listWt F.L) i j b = F.wt0 i j b := fun b hb => by
      have hk := hF.kids hok hb
      have h0 : ∀ c ∈ b.kids i j, listWt F.L c.1 c.2.1 c.2.2 0 = F.cw c.1 c.2.1 c.2.2 := fun c hc => by
        obtain ⟨h1, h2, w', h3⟩ := hk c hc
        rw [h3]
        exact ih _ (by omega) h1 rfl h3
      have hz := hF.base hb
      cases b with
      | nullary => rfl
      | unary r' q₁ v k =>
        simp only [Backtrace.base, Backtrace.unary.injEq, true_and] at hz
        subst hz
        simp only [wt0, btW, h0 (i, j, q₁) (by simp [Backtrace.kids])]
      | binary r' q₁ m q₂ v k₁ k₂ =>
        simp only [Backtrace.base, Backtrace.binary.injEq, true_and] at hz
        obtain ⟨rfl, rfl⟩ := hz
        simp only [wt0, btW, h0 (i, m, q₁) (by simp [Backtrace.kids]), h0 (m, j, q₂) (by simp [Backtrace.kids])]
    obtain ⟨⟨b, hb, hbw⟩, hmax⟩ := hF.best hok hw
    have hmem : (b, w) ∈ F.L i j q := ((hF.L_spec hok).2 b w).2 ⟨by rw [hF.base hb]; exact hb, (hI b hb).trans hbw⟩
    obtain ⟨k, hk⟩ := List.getElem?_of_mem hmem
    have hk' : listWt F.L i j q k = some w := by unfold listWt; rw [hk]; rfl
    obtain ⟨w', hw'⟩ := listWt_of_le hk' (Nat.zero_le k)
    have hle : w ≤ w' := hF.L_le hok hw' hk' (Nat.zero_le k)
    have hge : w' ≤ w := by
      unfold listWt at hw'
      rw [Option.map_eq_some_iff] at hw'
      obtain ⟨⟨b', w''⟩, hp, rfl⟩ := hw'
      have hb' := ((hF.L_spec hok).2 b' w'').1 (List.mem_of_getElem? hp)
      obtain ⟨w₂, hw₂, hle₂⟩ := hF.base_le hok hb'.1 hb'.2
      exact hle₂.trans (hmax _ hb'.1 _ ((hI _ hb'.1).symm.trans hw₂))
    rw [hw', le_antisymm hge hle]

/-- By the chart and by the lists, backtraces with zero indices have the same weight. -/
theorem Ok.wt0_eq (hF : F.Ok) {i j q : Nat} (hok : F.ok i j q) {b : Backtrace W} (hb : b ∈ F.I i j q) : btW (listWt F.L) i j b = F.wt0 i j b := by
  have hk := hF.kids hok hb
  have h0 : ∀ c ∈ b.kids i j, listWt F.L c.1 c.2.1 c.2.2 0 = F.cw c.1 c.2.1 c.2.2 := fun c hc => by
    obtain ⟨h1, h2, w', h3⟩ := hk c hc
    rw [h3]
    exact hF.L_head _ h1 rfl h3
  have hz := hF.base hb
  cases b with
  | nullary => rfl
  | unary r' q₁ v k =>
    simp only [Backtrace.base, Backtrace.unary.injEq, true_and] at hz
    subst hz
    simp only [wt0, btW, h0 (i, j, q₁) (by simp [Backtrace.kids])]
  | binary r' q₁ m q₂ v k₁ k₂ =>
    simp only [Backtrace.base, Backtrace.binary.injEq, true_and] at hz
    obtain ⟨rfl, rfl⟩ := hz
    simp only [wt0, btW, h0 (i, m, q₁) (by simp [Backtrace.kids]), h0 (m, j, q₂) (by simp [Backtrace.kids])]

/-- Successors have smaller weights. -/
theorem Ok.succ_le (hF : F.Ok) {i j q : Nat} (hok : F.ok i j q) {b b' : Backtrace W} {w : W} (hb : b.base ∈ F.I i j q) (hs : b' ∈ b.succs)
    (h : btW (listWt F.L) i j b' = some w) : ∃ w', btW (listWt F.L) i j b = some w' ∧ w ≤ w' := by
  have hk := hF.kids hok hb
  cases b with
  | nullary => simp [Backtrace.succs] at hs
  | unary r q₁ v k =>
    simp only [Backtrace.succs, List.mem_singleton] at hs
    subst hs
    simp only [btW, Option.map_eq_some_iff] at h ⊢
    obtain ⟨a, ha, rfl⟩ := h
    obtain ⟨a', ha'⟩ := listWt_of_le ha (Nat.le_succ k)
    have := hk (i, j, q₁) (by simp [Backtrace.kids, Backtrace.base])
    exact ⟨_, ⟨a', ha', rfl⟩, mul_le_mul_right (hF.L_le this.1 ha' ha (Nat.le_succ _)) v⟩
  | binary r q₁ m q₂ v k₁ k₂ =>
    have h1 := hk (i, m, q₁) (by simp [Backtrace.kids, Backtrace.base])
    have h2 := hk (m, j, q₂) (by simp [Backtrace.kids, Backtrace.base])
    simp only [Backtrace.succs, List.mem_cons, List.not_mem_nil, or_false] at hs
    rcases hs with rfl | rfl <;> simp only [btW, Option.map_eq_some_iff, Option.bind_eq_some_iff] at h ⊢ <;> obtain ⟨a, ha, c, hc, rfl⟩ := h
    · obtain ⟨c', hc'⟩ := listWt_of_le hc (Nat.le_succ k₂)
      exact ⟨_, ⟨a, ha, c', hc', rfl⟩, mul_le_mul_right (hF.L_le h2.1 hc' hc (Nat.le_succ _)) _⟩
    · obtain ⟨a', ha'⟩ := listWt_of_le ha (Nat.le_succ k₁)
      exact ⟨_, ⟨a', ha', c, hc, rfl⟩, mul_le_mul_left (mul_le_mul_right (hF.L_le h1.1 ha' ha (Nat.le_succ _)) v) c⟩

/-- Backtraces with nonzero indices are successors of backtraces with defined weight. -/
theorem Ok.pred (hF : F.Ok) {i j q : Nat} (hok : F.ok i j q) {b : Backtrace W} {w : W} (h : (b, w) ∈ F.L i j q) :
    b ∈ F.I i j q ∨ ∃ p ∈ F.L i j q, b ∈ p.1.succs ∧ bwKey (b, w) < bwKey p := by
  obtain ⟨hb, hw⟩ := ((hF.L_spec hok).2 b w).1 h
  have key : ∀ b' : Backtrace W, b'.base = b.base → b ∈ b'.succs → ∃ p ∈ F.L i j q, b ∈ p.1.succs ∧ bwKey (b, w) < bwKey p := by
    intro b' he hs
    obtain ⟨w', hw', hle⟩ := hF.succ_le hok (he ▸ hb) hs hw
    refine ⟨(b', w'), ((hF.L_spec hok).2 b' w').2 ⟨he ▸ hb, hw'⟩, hs, ?_⟩
    unfold bwKey
    rw [Prod.Lex.toLex_lt_toLex]
    rcases hle.lt_or_eq with h | h
    · exact .inl h
    · exact .inr ⟨h, Backtrace.key_succs hs⟩
  cases b with
  | nullary => exact .inl hb
  | unary r q₁ v k =>
    cases k with
    | zero => exact .inl hb
    | succ k => exact .inr (key (.unary r q₁ v k) rfl (by simp [Backtrace.succs]))
  | binary r q₁ m q₂ v k₁ k₂ =>
    cases k₂ with
    | succ k₂ => exact .inr (key (.binary r q₁ m q₂ v k₁ k₂) rfl (by simp [Backtrace.succs]))
    | zero =>
      cases k₁ with
      | zero => exact .inl hb
      | succ k₁ => exact .inr (key (.binary r q₁ m q₂ v k₁ 0) rfl (by simp [Backtrace.succs]))

/-- Successors come later. -/
theorem Ok.succ_lt (hF : F.Ok) {i j q : Nat} (hok : F.ok i j q) {b b' : Backtrace W} {w w' : W} (hb : (b, w) ∈ F.L i j q) (hs : b' ∈ b.succs)
    (h : btW (listWt F.L) i j b' = some w') : (b', w') ∈ F.L i j q ∧ bwKey (b', w') < bwKey (b, w) := by
  obtain ⟨hb, hw⟩ := ((hF.L_spec hok).2 b w).1 hb
  refine ⟨((hF.L_spec hok).2 b' w').2 ⟨by rw [Backtrace.base_succs hs]; exact hb, h⟩, ?_⟩
  obtain ⟨w₂, hw₂, hle⟩ := hF.succ_le hok hb hs h
  rw [hw] at hw₂
  cases hw₂
  unfold bwKey
  rw [Prod.Lex.toLex_lt_toLex]
  rcases hle.lt_or_eq with h | h
  · exact .inl h
  · exact .inr ⟨h, Backtrace.key_succs hs⟩

end KForest

end

end Rustomata
