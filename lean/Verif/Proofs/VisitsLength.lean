import Verif.Proofs.VisitsOnce
import Verif.Proofs.LeftRec
import Verif.Spec.LeftVisit

/-!
# The runs of the automaton of an arbitrary PMCFG: their lengths are bounded by their depths
-/

set_option linter.unusedSectionVars false

namespace Rustomata
open Spec
variable {A N T W : Type _}

/-! ### The potential -/

/-- A bound for the lengths of the runs whose tree stacks have at most the depth. -/
def visitBound (K : Nat) : Nat → Nat
  | 0 => 1
  | D + 1 => 2 + K * visitBound K D

/-- The number of visits that are left in the component of the label. -/
def leftVisits {X : Type _} (K : Nat) : PosState X → Nat
  | .initial => 1
  | .designated => 0
  | .position _ _ k => K - k

/-- What is left for the parents, where the first one has the depth `d - 1`. -/
def framesLeft {X : Type _} (K D : Nat) : List (Frame (PosState X)) → Nat
  | [] => 0
  | f :: fs => (leftVisits K f.value - 1) * visitBound K (D - fs.length) + 1 + framesLeft K D fs

/-- What is left for a tree stack. -/
def stepsLeft {X : Type _} (K D : Nat) (s : TreeStack (PosState X)) : Nat :=
  leftVisits K s.value * visitBound K (D - s.parents.length) + framesLeft K D s.parents

/-- A bound for the lengths of components. -/
def VisitBound (g : PMCFG N T W) (K : Nat) : Prop := ∀ r ∈ g.rules, ∀ (j : Nat) c, (cutTrails r.composition)[j]? = some c → (segs c []).length ≤ K

theorem exists_visitBound (g : PMCFG N T W) : ∃ K, VisitBound g K := by
  obtain ⟨K, hK⟩ := exists_le_bound (g.rules.flatMap fun r => cutTrails r.composition) (fun c => (segs c []).length)
  exact ⟨K, fun r hr j c hc => hK c (List.mem_flatMap.2 ⟨r, hr, List.mem_of_getElem? hc⟩)⟩

/-- The depth of the pointer changes by one. -/
theorem apply_parents {A : Type _} [DecidableEq A] {i : TsInstr A} {s s' : TreeStack A} (h : s' ∈ i.apply s) :
    match i with
    | .push _ c a => ∃ f : Frame A, f.value = c ∧ s'.parents = f :: s.parents ∧ s'.value = a
    | .up _ c _ a => ∃ f : Frame A, f.value = c ∧ s'.parents = f :: s.parents ∧ s'.value = a
    | .down _ c a => ∃ f : Frame A, f.value = c ∧ s.parents = f :: s'.parents ∧ s'.value = a := by
  cases i with
  | push n c a =>
    simp only [TsInstr.apply] at h
    split at h
    · rename_i hc
      split at h
      · rename_i s₁ h1
        rw [List.mem_singleton] at h
        subst h
        obtain ⟨_, rfl⟩ := TreeStack.push_ok.1 h1
        exact ⟨_, hc, rfl, rfl⟩
      · simp at h
    · simp at h
  | up n c o a =>
    simp only [TsInstr.apply] at h
    split at h
    · rename_i hc
      split at h
      · rename_i s₁ h1
        split at h
        · rw [List.mem_singleton] at h
          subst h
          obtain ⟨v, F, h2, rfl⟩ := TreeStack.up_ok.1 h1
          exact ⟨_, hc, rfl, rfl⟩
        · simp at h
      · simp at h
    · simp at h
  | down c o a =>
    simp only [TsInstr.apply] at h
    split at h
    · split at h
      · rename_i s₁ h1
        split at h
        · rename_i ho
          rw [List.mem_singleton] at h
          subst h
          obtain ⟨f, ps, h2, rfl⟩ := TreeStack.down_ok.1 h1
          exact ⟨f, ho, h2, rfl⟩
        · simp at h
      · simp at h
    · simp at h

variable [DecidableEq N] [DecidableEq T]

theorem stepsLeft_step [One W] {g : PMCFG N T W} {K D : Nat} (hb : VisitBound g K) {t : TsaTransition N T W} (ht : IsStep g t)
    {s s' : TreeStack (TsaSymbol N T)} (hs : s' ∈ t.instruction.apply s) (hD : s'.parents.length ≤ D) : stepsLeft K D s' + 1 ≤ stepsLeft K D s := by
  have hcur := mem_apply_current hs
  have hp := apply_parents hs
  -- the pointer moves to a child
  have hdeeper : ∀ (f : Frame (TsaSymbol N T)), s.value = f.value → s'.parents = f :: s.parents → leftVisits K s'.value ≤ K → 1 ≤ leftVisits K f.value →
      stepsLeft K D s' + 1 ≤ stepsLeft K D s := by
    intro f hf hps hv h1
    have hD' : s.parents.length + 1 ≤ D := by simpa [hps] using hD
    unfold stepsLeft
    rw [hps, hf]
    simp only [framesLeft, List.length_cons]
    obtain ⟨n, hn⟩ : ∃ n, D - s.parents.length = n + 1 := ⟨D - s.parents.length - 1, by omega⟩
    rw [show D - (s.parents.length + 1) = n by omega, hn]
    have e : visitBound K (n + 1) = 2 + K * visitBound K n := rfl
    obtain ⟨q, hq⟩ : ∃ q, leftVisits K f.value = q + 1 := ⟨leftVisits K f.value - 1, by omega⟩
    rw [hq, Nat.add_sub_cancel, Nat.add_mul, Nat.one_mul]
    have h2 : leftVisits K s'.value * visitBound K n ≤ K * visitBound K n := Nat.mul_le_mul_right _ hv
    generalize q * visitBound K (n + 1) = x
    omega
  -- the pointer moves to the parent
  have hback : ∀ (f : Frame (TsaSymbol N T)), s.parents = f :: s'.parents → leftVisits K s'.value ≤ leftVisits K f.value - 1 → stepsLeft K D s' + 1 ≤ stepsLeft K D s := by
    intro f hps hv
    unfold stepsLeft
    rw [hps]
    simp only [framesLeft]
    have := Nat.mul_le_mul_right (visitBound K (D - s'.parents.length)) hv
    omega
  cases ht with
  | init =>
    obtain ⟨f, h1, h2, h3⟩ := hp
    exact hdeeper f (hcur.trans h1.symm) h2 (by rw [h3]; exact Nat.sub_le _ _) (by rw [h1]; exact le_refl _)
  | @push r j k c b i j₁ ri hr hc hk =>
    obtain ⟨f, h1, h2, h3⟩ := hp
    refine hdeeper f (hcur.trans h1.symm) h2 (by rw [h3]; exact Nat.sub_le _ _) ?_
    rw [h1]
    have h4 := hb r hr j c hc
    have h5 := (List.getElem?_eq_some_iff.1 hk).1
    simp only [leftVisits]
    omega
  | @up r j k c b i j₁ j₀ ri c₀ hr hc hk =>
    obtain ⟨f, h1, h2, h3⟩ := hp
    refine hdeeper f (hcur.trans h1.symm) h2 (by rw [h3]; exact Nat.sub_le _ _) ?_
    rw [h1]
    have h4 := hb r hr j c hc
    have h5 := (List.getElem?_eq_some_iff.1 hk).1
    simp only [leftVisits]
    omega
  | down =>
    obtain ⟨f, h1, h2, h3⟩ := hp
    refine hback f h2 ?_
    rw [h1, h3]
    simp only [leftVisits]
    omega
  | fin =>
    obtain ⟨f, h1, h2, h3⟩ := hp
    refine hback f h2 ?_
    rw [h1, h3]
    simp [leftVisits]

/-- The length of a run is bounded by what is left, if all its tree stacks have at most the depth `D`. -/
theorem visit_length_le [One W] {g : PMCFG N T W} {K D : Nat} (hb : VisitBound g K) {ts : List (TsaTransition N T W)} (hts : ∀ t ∈ ts, IsStep g t)
    {s s' : TreeStack (TsaSymbol N T)} (hs : s' ∈ storages TsInstr.apply (ts.map Transition.instruction) s)
    (hD : ∀ us vs, ts = us ++ vs → ∀ s₁ ∈ storages TsInstr.apply (us.map Transition.instruction) s, s₁.parents.length ≤ D) :
    ts.length + stepsLeft K D s' ≤ stepsLeft K D s := by
  induction ts generalizing s with
  | nil =>
    simp only [List.map_nil, storages, List.mem_singleton] at hs
    subst hs
    simp
  | cons t ts ih =>
    simp only [List.map_cons, storages, List.mem_flatMap] at hs
    obtain ⟨s₁, h1, h2⟩ := hs
    have h3 := ih (fun t ht => hts t (by simp [ht])) h2 (fun us vs he s₂ hs₂ => hD (t :: us) vs (by rw [he]; rfl) s₂ (by
      simp only [List.map_cons, storages, List.mem_flatMap]
      exact ⟨s₁, h1, hs₂⟩))
    have h4 := stepsLeft_step hb (hts t (by simp)) h1 (hD [t] ts rfl s₁ (by simpa [storages] using h1))
    rw [List.length_cons]
    omega

/-- The depth is bounded by the number of steps. -/
theorem depth_le_length {A : Type _} [DecidableEq A] {is : List (TsInstr A)} {s s' : TreeStack A} (h : s' ∈ storages TsInstr.apply is s) :
    s'.parents.length ≤ s.parents.length + is.length := by
  induction is generalizing s with
  | nil =>
    simp only [storages, List.mem_singleton] at h
    subst h
    simp
  | cons i is ih =>
    simp only [storages, List.mem_flatMap] at h
    obtain ⟨s₁, h1, h2⟩ := h
    have := ih h2
    have hp := apply_parents h1
    cases i <;> obtain ⟨f, _, h4, _⟩ := hp <;> rw [List.length_cons] <;> (have := congrArg List.length h4; rw [List.length_cons] at this; omega)

/-- The number of nodes grows with the `push` transitions. -/
theorem total_run {A : Type _} [DecidableEq A] {is : List (TsInstr A)} {s s' : TreeStack A} (hw : s.Wf) (h : s' ∈ storages TsInstr.apply is s) :
    s'.total (fun _ => 1) = s.total (fun _ => 1) + (is.map pushes).sum := by
  induction is generalizing s with
  | nil =>
    simp only [storages, List.mem_singleton] at h
    subst h
    simp
  | cons i is ih =>
    simp only [storages, List.mem_flatMap] at h
    obtain ⟨s₁, h1, h2⟩ := h
    have h3 := ih (TSA.wf_apply hw h1) h2
    have h4 : s₁.total (fun _ => 1) = s.total (fun _ => 1) + pushes i := by
      cases i with
      | push n c a =>
        simp only [TsInstr.apply] at h1
        split at h1
        · split at h1
          · rename_i s₂ h5
            rw [List.mem_singleton] at h1
            subst h1
            exact TreeStack.total_push _ h5
          · simp at h1
        · simp at h1
      | up n c o a =>
        simp only [TsInstr.apply] at h1
        split at h1
        · split at h1
          · rename_i s₂ h5
            split at h1
            · rw [List.mem_singleton] at h1
              subst h1
              have h6 := TreeStack.total_set (fun _ => 1) s₂ a
              have h7 := TreeStack.total_up (fun _ => 1) h5
              simp only [pushes]
              omega
            · simp at h1
          · simp at h1
        · simp at h1
      | down c o a =>
        simp only [TsInstr.apply] at h1
        split at h1
        · split at h1
          · rename_i s₂ h5
            split at h1
            · rw [List.mem_singleton] at h1
              subst h1
              have h6 := TreeStack.total_set (fun _ => 1) s₂ a
              have h7 := TreeStack.total_down (fun _ => 1) hw h5
              simp only [pushes]
              omega
            · simp at h1
          · simp at h1
        · simp at h1
    rw [h3, h4, List.map_cons, List.sum_cons]
    omega

theorem depth_le_total {A : Type _} (s : TreeStack A) : s.parents.length + 1 ≤ s.total (fun _ => 1) := by
  have : ∀ l : List (Frame A), l.length ≤ (l.map fun p => 1 + p.children.total (fun _ => 1)).sum := by
    intro l
    induction l with
    | nil => simp
    | cons f l ih => simp only [List.length_cons, List.map_cons, List.sum_cons]; omega
  have := this s.parents
  unfold TreeStack.total
  simp only
  omega

/-- The depth is bounded by the number of `push` transitions. -/
theorem depth_le_pushes {A : Type _} [DecidableEq A] {is : List (TsInstr A)} {a : A} {s' : TreeStack A} (h : s' ∈ storages TsInstr.apply is (TreeStack.new a)) :
    s'.parents.length ≤ (is.map pushes).sum := by
  have h1 := total_run (TreeStack.wf_new _) h
  have h2 := depth_le_total s'
  have h3 : (TreeStack.new a).total (fun _ => 1) = 1 := rfl
  omega

/-- The length of a run is bounded if the number of its `push` transitions is. -/
theorem visit_length_le_pushes [One W] {g : PMCFG N T W} {K D : Nat} (hb : VisitBound g K) {ts : List (TsaTransition N T W)} (hts : ∀ t ∈ ts, IsStep g t)
    {s' : TreeStack (TsaSymbol N T)} (hs : s' ∈ storages TsInstr.apply (ts.map Transition.instruction) (TreeStack.new .initial))
    (hD : (ts.map fun t => pushes t.instruction).sum ≤ D) : ts.length ≤ visitBound K D := by
  have h1 := visit_length_le hb hts hs (D := D) (fun us vs he s₁ hs₁ => by
    have h2 := depth_le_pushes hs₁
    rw [List.map_map] at h2
    rw [he, List.map_append, List.sum_append] at hD
    have : (us.map (pushes ∘ Transition.instruction)).sum = (us.map fun t => pushes t.instruction).sum := rfl
    omega)
  have h2 : stepsLeft K D (TreeStack.new (.initial : TsaSymbol N T)) = visitBound K D := by
    simp [stepsLeft, TreeStack.new, leftVisits, framesLeft]
  omega

/-- The lengths of the runs on a word are bounded if and only if their depths are. -/
theorem bounded_iff_depth [CommMonoid W] {g : PMCFG N T W} {ts : List (TsaTransition N T W)} (hts : tsaTransitions g = some ts) (w : List T) :
    (∃ l, ∀ us c, IsRun TsInstr.apply ts (TreeStack.new .initial) w us c → us.length ≤ l) ↔
      ∃ D, ∀ us c, IsRun TsInstr.apply ts (TreeStack.new .initial) w us c → c.storage.parents.length ≤ D := by
  constructor
  · rintro ⟨l, hl⟩
    refine ⟨l, fun us c hc => ?_⟩
    obtain ⟨_, h2, _⟩ := (exec_iff _ us _ _).1 hc.1
    have h3 := depth_le_length h2
    have h4 := hl us c hc
    have h5 : (TreeStack.new (.initial : TsaSymbol N T)).parents.length = 0 := rfl
    rw [List.length_map] at h3
    simp only at h3
    omega
  · rintro ⟨D, hD⟩
    obtain ⟨K, hb⟩ := exists_visitBound g
    refine ⟨visitBound K D, fun us c hc => ?_⟩
    have m1 := tsaTransitions_step hts
    obtain ⟨h1, h2, _⟩ := (exec_iff _ us _ _).1 hc.1
    have h3 := visit_length_le hb (fun t ht => (m1 t).1 (hc.2 t ht)) h2 (D := D) (fun us₁ vs he s₁ hs₁ => by
      refine hD us₁ ⟨wordOf vs ++ c.word, s₁, 1 * weightOf us₁⟩ ⟨(exec_iff _ us₁ _ _).2 ⟨?_, hs₁, rfl⟩, fun t ht => hc.2 t (by rw [he]; simp [ht])⟩
      simp only at h1 ⊢
      rw [h1, he]
      simp [wordOf])
    have h4 : stepsLeft K D (TreeStack.new (.initial : TsaSymbol N T)) = visitBound K D := by
      simp [stepsLeft, TreeStack.new, leftVisits, framesLeft]
    simp only at h3
    omega

end Rustomata
