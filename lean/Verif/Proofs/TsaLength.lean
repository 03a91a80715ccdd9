import Verif.Proofs.TsaOnce
import Mathlib.Tactic.Ring

/-!
# The length of a run is bounded by the number of its `push` transitions
-/

namespace Rustomata
open Spec
variable {A N T W : Type _}

/-! ### Sums over the labels of a tree stack -/

/-- The sum over the labels of a forest. -/
def Forest.total (f : A → Nat) : Forest A → Nat
  | .nil => 0
  | .vac r => r.total f
  | .occ v c r => f v + c.total f + r.total f

theorem Forest.total_pad (f : A → Nat) (n : Nat) (c : Forest A) : (c.pad n).total f = c.total f := by
  induction c generalizing n with
  | nil =>
    induction n with
    | zero => simp [Forest.pad, Forest.total]
    | succ n ih => simpa [Forest.pad, Forest.total] using ih
  | vac r ih => cases n <;> simp [Forest.pad, Forest.total, ih]
  | occ v c r _ ih => cases n <;> simp [Forest.pad, Forest.total, ih]

theorem Forest.total_write_none (f : A → Nat) {c : Forest A} {n : Nat} {v : A} {d : Forest A} (h : c.slot n = some (v, d)) :
    (c.write n none).total f + (f v + d.total f) = c.total f := by
  induction c generalizing n with
  | nil => cases n <;> simp [Forest.slot] at h
  | vac r ih =>
    cases n with
    | zero => simp [Forest.slot] at h
    | succ n => simpa [Forest.write, Forest.total] using ih h
  | occ v' c' r _ ih =>
    cases n with
    | zero =>
      simp only [Forest.slot, Option.some.injEq, Prod.mk.injEq] at h
      obtain ⟨rfl, rfl⟩ := h
      simp only [Forest.write, Forest.total]
      omega
    | succ n =>
      have := ih h
      simp only [Forest.write, Forest.total]
      omega

theorem Forest.total_write_some (f : A → Nat) {c : Forest A} {n : Nat} (hn : n < c.length) (h : c.slot n = none) (v : A) (d : Forest A) :
    (c.write n (some (v, d))).total f = c.total f + (f v + d.total f) := by
  induction c generalizing n with
  | nil => simp [Forest.length] at hn
  | vac r ih =>
    cases n with
    | zero => simp only [Forest.write, Forest.total]; omega
    | succ n => simpa [Forest.write, Forest.total] using ih (by simpa [Forest.length] using hn) h
  | occ v' c' r _ ih =>
    cases n with
    | zero => simp [Forest.slot] at h
    | succ n =>
      have := ih (by simpa [Forest.length] using hn) h
      simp only [Forest.write, Forest.total]
      omega

/-- The sum over the labels of a tree stack. -/
def TreeStack.total (f : A → Nat) (s : TreeStack A) : Nat :=
  f s.value + s.children.total f + (s.parents.map fun p => f p.value + p.children.total f).sum

theorem TreeStack.total_set (f : A → Nat) (s : TreeStack A) (a : A) : (s.set a).total f + f s.currentSymbol = s.total f + f a := by
  simp only [TreeStack.total, TreeStack.set, TreeStack.currentSymbol]
  omega

theorem TreeStack.total_push (f : A → Nat) {s s' : TreeStack A} {n : Nat} {a : A} (h : s.push n a = .ok s') : s'.total f = s.total f + f a := by
  obtain ⟨_, rfl⟩ := TreeStack.push_ok.1 h
  have : (if n ≥ s.children.length then s.children.pad n else s.children).total f = s.children.total f := by
    split
    · exact Forest.total_pad ..
    · rfl
  simp only [TreeStack.total, Forest.total, List.map_cons, List.sum_cons, this]
  omega

theorem TreeStack.total_up (f : A → Nat) {s s' : TreeStack A} {n : Nat} (h : s.up n = .ok s') : s'.total f = s.total f := by
  obtain ⟨v, c, h1, rfl⟩ := TreeStack.up_ok.1 h
  have := Forest.total_write_none f h1
  simp only [TreeStack.total, List.map_cons, List.sum_cons]
  omega

theorem TreeStack.total_down (f : A → Nat) {s s' : TreeStack A} (hw : s.Wf) (h : s.down = .ok s') : s'.total f = s.total f := by
  obtain ⟨p, ps, h1, rfl⟩ := TreeStack.down_ok.1 h
  obtain ⟨h2, h3⟩ := hw p (by simp [h1])
  have := Forest.total_write_some f h2 h3 s.value s.children
  simp only [TreeStack.total, h1, List.map_cons, List.sum_cons, this]
  omega

/-! ### The potential -/

/-- What is left for a node: the number of steps that change its label. -/
def potential {X : Type _} (K F : Nat) : PosState X → Nat
  | .initial => (F + 2) * (K + 2)
  | .designated => 0
  | .position _ j k => (F + 2) * (K + 2) - (j * (K + 1) + k)

/-- Bounds for the lengths of components, and for the numbers of components. -/
def GrammarBound (g : PMCFG N T W) (K F : Nat) : Prop :=
  ∀ r ∈ g.rules, ∀ (j : Nat) c, r.composition[j]? = some c → j ≤ F ∧ (segs c []).length ≤ K ∧ ∀ x ∈ segs c [], x.2.2 ≤ F

theorem exists_le_bound {X : Type _} (l : List X) (f : X → Nat) : ∃ B, ∀ x ∈ l, f x ≤ B := by
  induction l with
  | nil => exact ⟨0, by simp⟩
  | cons x l ih =>
    obtain ⟨B, hB⟩ := ih
    refine ⟨f x + B, fun y hy => ?_⟩
    rcases List.mem_cons.1 hy with rfl | hy
    · omega
    · have := hB y hy; omega

theorem exists_grammarBound (g : PMCFG N T W) : ∃ K F, GrammarBound g K F := by
  obtain ⟨K, hK⟩ := exists_le_bound (g.rules.flatMap fun r => r.composition) (fun c => (segs c []).length)
  obtain ⟨F₁, hF₁⟩ := exists_le_bound g.rules (fun r => r.composition.length)
  obtain ⟨F₂, hF₂⟩ := exists_le_bound (g.rules.flatMap fun r => r.composition.flatMap fun c => segs c []) (fun x => x.2.2)
  refine ⟨K, F₁ + F₂, fun r hr j c hc => ⟨?_, ?_, fun x hx => ?_⟩⟩
  · have := hF₁ r hr
    have := (List.getElem?_eq_some_iff.1 hc).1
    omega
  · exact hK c (List.mem_flatMap.2 ⟨r, hr, List.mem_of_getElem? hc⟩)
  · have := hF₂ x (List.mem_flatMap.2 ⟨r, hr, List.mem_flatMap.2 ⟨c, List.mem_of_getElem? hc, hx⟩⟩)
    omega

/-- The rule that is introduced by a transition: the transitions with `push`. -/
def pushes : TsInstr A → Nat
  | .push .. => 1
  | _ => 0

variable [DecidableEq N] [DecidableEq T]

theorem potential_step [One W] {g : PMCFG N T W} {K F : Nat} (hb : GrammarBound g K F) {t : TsaTransition N T W} (ht : IsTrans g t)
    {s s' : TreeStack (TsaSymbol N T)} (hw : s.Wf) (hs : s' ∈ t.instruction.apply s) :
    s'.total (potential K F) + 1 ≤ s.total (potential K F) + ((F + 2) * (K + 2) + 1) * pushes t.instruction := by
  have hpush : ∀ n c a, t.instruction = .push n c a → potential K F a ≤ (F + 2) * (K + 2) →
      s'.total (potential K F) + 1 ≤ s.total (potential K F) + ((F + 2) * (K + 2) + 1) * pushes t.instruction := by
    intro n c a he ha
    rw [he] at hs ⊢
    simp only [TsInstr.apply] at hs
    split at hs
    · split at hs
      · rename_i s₁ h1
        rw [List.mem_singleton] at hs
        subst hs
        rw [TreeStack.total_push _ h1]
        simp only [pushes]
        omega
      · simp at hs
    · simp at hs
  have hset : ∀ (s₁ : TreeStack (TsaSymbol N T)) (o a : TsaSymbol N T), s₁.total (potential K F) = s.total (potential K F) → s₁.currentSymbol = o →
      potential K F a + 1 ≤ potential K F o → s' = s₁.set a →
      s'.total (potential K F) + 1 ≤ s.total (potential K F) + ((F + 2) * (K + 2) + 1) * pushes t.instruction := by
    intro s₁ o a hl ho hoa hs'
    subst hs'
    have := TreeStack.total_set (potential K F) s₁ a
    rw [ho] at this
    generalize ((F + 2) * (K + 2) + 1) * pushes t.instruction = q
    omega
  have hmul : (F + 2) * (K + 2) = F * K + 2 * F + 2 * K + 4 := by ring
  cases ht with
  | init => exact hpush _ _ _ rfl (by simp only [potential]; omega)
  | push => exact hpush _ _ _ rfl (by simp only [potential]; omega)
  | @up r j k c b i j₀ ri c₀ h1 h2 h3 h4 h5 h6 =>
    simp only [TsInstr.apply] at hs
    split at hs
    · split at hs
      · rename_i s₁ g1
        split at hs
        · rename_i ho
          rw [List.mem_singleton] at hs
          refine hset s₁ _ _ (TreeStack.total_up _ g1) ho ?_ hs
          have k1 := (hb r h1 j c h2).2.2 _ (List.mem_of_getElem? h3)
          have k2 := (hb ri h4 j₀ c₀ h6).2.1
          simp only [potential]
          have k3 : (j₀ + 1) * (K + 1) ≤ F * (K + 1) := Nat.mul_le_mul_right _ k1
          have k4 : (j₀ + 1) * (K + 1) = j₀ * (K + 1) + (K + 1) := by ring
          have k5 : F * (K + 1) = F * K + F := by ring
          omega
        · simp at hs
      · simp at hs
    · simp at hs
  | @down r j k c b i j₁ ri c₁ h1 h2 h3 h4 h5 h6 =>
    simp only [TsInstr.apply] at hs
    split at hs
    · split at hs
      · rename_i s₁ g1
        split at hs
        · rename_i ho
          rw [List.mem_singleton] at hs
          refine hset s₁ _ _ (TreeStack.total_down _ hw g1) ho ?_ hs
          obtain ⟨k1, k2, _⟩ := hb r h1 j c h2
          have k0 := (List.getElem?_eq_some_iff.1 h3).1
          simp only [potential]
          have k3 : j * (K + 1) ≤ F * (K + 1) := Nat.mul_le_mul_right _ k1
          have k5 : F * (K + 1) = F * K + F := by ring
          omega
        · simp at hs
      · simp at hs
    · simp at hs
  | fin =>
    simp only [TsInstr.apply] at hs
    split at hs
    · split at hs
      · rename_i s₁ g1
        split at hs
        · rename_i ho
          rw [List.mem_singleton] at hs
          refine hset s₁ _ _ (TreeStack.total_down _ hw g1) ho ?_ hs
          simp only [potential]
          omega
        · simp at hs
      · simp at hs
    · simp at hs

/-- The length of a run is bounded by the number of `push` transitions. -/
theorem run_length_le [One W] {g : PMCFG N T W} {K F : Nat} (hb : GrammarBound g K F) {ts : List (TsaTransition N T W)} (hts : ∀ t ∈ ts, IsTrans g t)
    {s s' : TreeStack (TsaSymbol N T)} (hw : s.Wf) (hs : s' ∈ storages TsInstr.apply (ts.map Transition.instruction) s) :
    ts.length ≤ s.total (potential K F) + ((F + 2) * (K + 2) + 1) * (ts.map fun t => pushes t.instruction).sum := by
  induction ts generalizing s with
  | nil => simp
  | cons t ts ih =>
    simp only [List.map_cons, storages, List.mem_flatMap] at hs
    obtain ⟨s₁, h1, h2⟩ := hs
    have h3 := ih (fun t ht => hts t (by simp [ht])) (TSA.wf_apply hw h1) h2
    have h4 := potential_step hb (hts t (by simp)) hw h1
    rw [List.length_cons, List.map_cons, List.sum_cons, Nat.mul_add]
    omega

/-- The weight of a run is the product of the weights of rules, one for each `push` transition. -/
theorem run_weight [CommMonoid W] {g : PMCFG N T W} {ts : List (TsaTransition N T W)} (hts : ∀ t ∈ ts, IsTrans g t) :
    ∃ rs : List (PMCFGRule N T W), (∀ r ∈ rs, r ∈ g.rules) ∧ rs.length = (ts.map fun t => pushes t.instruction).sum ∧ weightOf ts = (rs.map PMCFGRule.weight).prod := by
  induction ts with
  | nil => exact ⟨[], by simp, rfl, rfl⟩
  | cons t ts ih =>
    obtain ⟨rs, h1, h2, h3⟩ := ih fun t ht => hts t (by simp [ht])
    simp only [weightOf_eq, List.map_cons, List.prod_cons, List.sum_cons] at h3 ⊢
    rw [h3]
    have hcons : ∀ r ∈ g.rules, t.weight = r.weight → pushes t.instruction = 1 → ∃ rs' : List (PMCFGRule N T W), (∀ r ∈ rs', r ∈ g.rules) ∧
        rs'.length = pushes t.instruction + (ts.map fun t => pushes t.instruction).sum ∧ t.weight * (rs.map PMCFGRule.weight).prod = (rs'.map PMCFGRule.weight).prod := by
      intro r hr hw hp
      refine ⟨r :: rs, ?_, by rw [hp, List.length_cons, h2]; omega, by rw [hw, List.map_cons, List.prod_cons]⟩
      rintro r' hr'
      rcases List.mem_cons.1 hr' with rfl | hr'
      · exact hr
      · exact h1 r' hr'
    cases hts t (by simp) with
    | init hr => exact hcons _ hr rfl rfl
    | push _ _ _ hr => exact hcons _ hr rfl rfl
    | up => exact ⟨rs, h1, by rw [h2]; exact (Nat.zero_add _).symm, by rw [one_mul]⟩
    | down => exact ⟨rs, h1, by rw [h2]; exact (Nat.zero_add _).symm, by rw [one_mul]⟩
    | fin => exact ⟨rs, h1, by rw [h2]; exact (Nat.zero_add _).symm, by rw [one_mul]⟩

end Rustomata
