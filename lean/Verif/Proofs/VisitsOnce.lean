import Verif.Proofs.TsaOnce
import Verif.Proofs.VisitsRuns

/-!
# The runs of the tree stack automaton of an arbitrary PMCFG: one for each choice of rules
-/

namespace Rustomata
open Spec
variable {N T W : Type _} [CommMonoid W] [DecidableEq N] [DecidableEq T]

omit [CommMonoid W] in
/-- Rules are not changed. -/
theorem visit_ruleAt_step [One W] {g : PMCFG N T W} {t : TsaTransition N T W} (ht : IsStep g t) {s s' : TreeStack (TsaSymbol N T)} (hw : s.Wf) (hs : s' ∈ t.instruction.apply s)
    {p : List Nat} {x : PMCFGRule N T Unit} (hp : ruleAt s p = some x) : ruleAt s' p = some x := by
  have hpush : ∀ n c a, t.instruction = .push n c a → ruleAt s' p = some x := by
    intro n c a he
    rw [he] at hs
    simp only [TsInstr.apply] at hs
    split at hs
    · split at hs
      · rename_i s₁ h1
        rw [List.mem_singleton] at hs
        subst hs
        have hv := TreeStack.view_push hw h1
        have hn := (TreeStack.label_child_none hw n).2 (TreeStack.push_ok.1 h1).1
        unfold ruleAt at hp ⊢
        rw [hv]
        simp only [Marked.move, Marked.write]
        rw [if_neg]
        · exact hp
        · rintro rfl
          rw [hn] at hp
          cases hp
      · simp at hs
    · simp at hs
  have hset : ∀ (s₁ : TreeStack (TsaSymbol N T)) (o a : TsaSymbol N T), s₁.Wf → (view s₁).label = (view s).label → s₁.currentSymbol = o →
      (∀ x, o.rule? = some x → a.rule? = some x) → s' = s₁.set a → ruleAt s' p = some x := by
    intro s₁ o a hw₁ hl ho hoa hs'
    subst hs'
    unfold ruleAt at hp ⊢
    rw [TreeStack.view_set hw₁]
    simp only [Marked.write]
    split
    · rename_i hpp
      have := TreeStack.view_below hw₁ []
      rw [List.append_nil] at this
      rw [← hl, hpp, this] at hp
      simp only [nodeAt, Option.bind_some] at hp ⊢
      exact hoa x (ho ▸ hp)
    · rw [hl]
      exact hp
  cases ht with
  | init => exact hpush _ _ _ rfl
  | push => exact hpush _ _ _ rfl
  | up =>
    simp only [TsInstr.apply] at hs
    split at hs
    · split at hs
      · rename_i s₁ h1
        split at hs
        · rename_i ho
          rw [List.mem_singleton] at hs
          refine hset s₁ _ _ (TreeStack.wf_up hw h1) ?_ ho (fun x hx => ?_) hs
          · rw [TreeStack.view_up hw h1]; rfl
          · exact hx
        · simp at hs
      · simp at hs
    · simp at hs
  | down =>
    simp only [TsInstr.apply] at hs
    split at hs
    · split at hs
      · rename_i s₁ h1
        split at hs
        · rename_i ho
          rw [List.mem_singleton] at hs
          refine hset s₁ _ _ (TreeStack.wf_down hw h1) ?_ ho (fun x hx => ?_) hs
          · obtain ⟨_, _, _, hv⟩ := TreeStack.view_down hw h1
            rw [hv]; rfl
          · exact hx
        · simp at hs
      · simp at hs
    · simp at hs
  | fin =>
    simp only [TsInstr.apply] at hs
    split at hs
    · split at hs
      · rename_i s₁ h1
        split at hs
        · rename_i ho
          rw [List.mem_singleton] at hs
          refine hset s₁ _ _ (TreeStack.wf_down hw h1) ?_ ho (fun x hx => ?_) hs
          · obtain ⟨_, _, _, hv⟩ := TreeStack.view_down hw h1
            rw [hv]; rfl
          · cases hx
        · simp at hs
      · simp at hs
    · simp at hs

omit [CommMonoid W] in
theorem visit_ruleAt_run [One W] {g : PMCFG N T W} {ts : List (TsaTransition N T W)} (hts : ∀ t ∈ ts, IsStep g t) {s s' : TreeStack (TsaSymbol N T)} (hw : s.Wf)
    (hs : s' ∈ storages TsInstr.apply (ts.map Transition.instruction) s) {p : List Nat} {x : PMCFGRule N T Unit} (hp : ruleAt s p = some x) :
    ruleAt s' p = some x := by
  induction ts generalizing s with
  | nil =>
    simp only [List.map_nil, storages, List.mem_singleton] at hs
    subst hs
    exact hp
  | cons t ts ih =>
    simp only [List.map_cons, storages, List.mem_flatMap] at hs
    obtain ⟨s₁, h1, h2⟩ := hs
    exact ih (fun t ht => hts t (by simp [ht])) (TSA.wf_apply hw h1) h2 (visit_ruleAt_step (hts t (by simp)) hw h1 hp)

omit [CommMonoid W] in
theorem visit_rooted_step [One W] {g : PMCFG N T W} {t : TsaTransition N T W} (ht : IsStep g t) {s s' : TreeStack (TsaSymbol N T)} (hi : Rooted s)
    (hs : s' ∈ t.instruction.apply s) : Rooted s' := by
  have hlast : ∀ (f : Frame (TsaSymbol N T)), s.parents ≠ [] → ∀ f', (f :: s.parents).getLast? = some f' → s.parents.getLast? = some f' := by
    intro f hne f' h
    cases hp : s.parents with
    | nil => exact absurd hp hne
    | cons f₁ ps => rw [hp, List.getLast?_cons_cons] at h; exact h
  cases ht with
  | init =>
    simp only [TsInstr.apply] at hs
    split at hs
    · rename_i hc
      split at hs
      · rename_i s₁ h1
        rw [List.mem_singleton] at hs
        obtain ⟨_, rfl⟩ := TreeStack.push_ok.1 h1
        subst hs
        refine ⟨fun h => by simp at h, fun f hf => ?_⟩
        by_cases hp : s.parents = []
        · simp only [hp, List.getLast?_singleton, Option.some_inj] at hf
          subst hf
          exact ⟨rfl, hi.1 hp⟩
        · exact hi.2 f (hlast _ hp f hf)
      · simp at hs
    · simp at hs
  | push =>
    simp only [TsInstr.apply] at hs
    split at hs
    · rename_i hc
      split at hs
      · rename_i s₁ h1
        rw [List.mem_singleton] at hs
        obtain ⟨_, rfl⟩ := TreeStack.push_ok.1 h1
        subst hs
        refine ⟨fun h => by simp at h, fun f hf => ?_⟩
        refine hi.2 f (hlast _ (fun hp => ?_) f hf)
        have := hi.1 hp
        simp only [TreeStack.currentSymbol] at hc
        simp [hc, PosState.rule?] at this
      · simp at hs
    · simp at hs
  | up =>
    simp only [TsInstr.apply] at hs
    split at hs
    · rename_i hc
      split at hs
      · rename_i s₁ h1
        split at hs
        · rw [List.mem_singleton] at hs
          obtain ⟨v, F, _, rfl⟩ := TreeStack.up_ok.1 h1
          subst hs
          refine ⟨fun h => by simp [TreeStack.set] at h, fun f hf => ?_⟩
          refine hi.2 f (hlast _ (fun hp => ?_) f hf)
          have := hi.1 hp
          simp only [TreeStack.currentSymbol] at hc
          simp [hc, PosState.rule?] at this
        · simp at hs
      · simp at hs
    · simp at hs
  | fin =>
    simp only [TsInstr.apply] at hs
    split at hs
    · split at hs
      · rename_i s₁ h1
        split at hs
        · rw [List.mem_singleton] at hs
          obtain ⟨f, ps, hps, rfl⟩ := TreeStack.down_ok.1 h1
          subst hs
          refine ⟨fun h => rfl, fun f' hf => hi.2 f' ?_⟩
          simp only [TreeStack.set] at hf
          rw [hps, List.getLast?_cons, hf]
          rfl
        · simp at hs
      · simp at hs
    · simp at hs
  | down =>
    simp only [TsInstr.apply] at hs
    split at hs
    · split at hs
      · rename_i s₁ h1
        split at hs
        · rename_i ho
          rw [List.mem_singleton] at hs
          obtain ⟨f, ps, hps, rfl⟩ := TreeStack.down_ok.1 h1
          subst hs
          refine ⟨fun h => ?_, fun f' hf => hi.2 f' ?_⟩
          · simp only [TreeStack.set] at h
            subst h
            have := (hi.2 f (by rw [hps]; rfl)).2
            simp only [TreeStack.currentSymbol] at ho
            simp [ho, PosState.rule?] at this
          · simp only [TreeStack.set] at hf
            rw [hps, List.getLast?_cons, hf]
            rfl
        · simp at hs
      · simp at hs
    · simp at hs

/-- The transition is determined by the tree stack and the rules of the result. -/
theorem visit_step_unique {g : PMCFG N T W} (hk : ∀ r ∈ g.rules, ∀ r' ∈ g.rules, r.key = r'.key → r = r') {t t' : TsaTransition N T W} (ht : IsStep g t) (ht' : IsStep g t')
    {s s₁ s₁' : TreeStack (TsaSymbol N T)} (hw : s.Wf) (hi : Rooted s) (hs : s₁ ∈ t.instruction.apply s) (hs' : s₁' ∈ t'.instruction.apply s)
    (hr : ∀ p x x', ruleAt s₁ (0 :: p) = some x → ruleAt s₁' (0 :: p) = some x' → x = x') : t = t' := by
  have hchild : ∀ n, n = 0 ∨ s.value.rule? ≠ none → ∃ q, (view s).child n = 0 :: q := by
    intro n hn
    by_cases hp : s.parents = []
    · rcases hn with rfl | hn
      · exact ⟨[], by simp [Marked.child, TreeStack.pointer_eq, hp, TreeStack.parentsToTree]⟩
      · exact absurd (hi.1 hp) hn
    · obtain ⟨q, hq⟩ := hi.pointer hp
      exact ⟨q ++ [n], by rw [Marked.child, hq]; rfl⟩
  have hcur : ∀ {x : TsInstr (TsaSymbol N T)} {s₁}, s₁ ∈ x.apply s → s.value = match x with | .push _ c _ => c | .up _ c _ _ => c | .down c _ _ => c := by
    intro x s₁ h
    cases x <;> simp only [TsInstr.apply] at h <;> split at h <;> first | assumption | simp at h
  have hpush : ∀ {n c a s₁}, s₁ ∈ (TsInstr.push n c a).apply s → ruleAt s₁ ((view s).child n) = a.rule? := by
    intro n c a s₁ h
    simp only [TsInstr.apply] at h
    split at h
    · split at h
      · rename_i s₂ h1
        rw [List.mem_singleton] at h
        subst h
        unfold ruleAt
        rw [TreeStack.view_push hw h1]
        simp [Marked.move, Marked.write]
      · simp at h
    · simp at h
  have hup : ∀ {n c o a s₁}, s₁ ∈ (TsInstr.up n c o a).apply s → ∃ F, s.children.slot n = some (o, F) := by
    intro n c o a s₁ h
    simp only [TsInstr.apply] at h
    split at h
    · split at h
      · rename_i s₂ h1
        split at h
        · rename_i ho
          obtain ⟨v, F, h2, rfl⟩ := TreeStack.up_ok.1 h1
          simp only [TreeStack.currentSymbol] at ho
          subst ho
          exact ⟨F, h2⟩
        · simp at h
      · simp at h
    · simp at h
  have hdown : ∀ {c o a s₁}, s₁ ∈ (TsInstr.down c o a).apply s → s.parents.head?.map Frame.value = some o := by
    intro c o a s₁ h
    simp only [TsInstr.apply] at h
    split at h
    · split at h
      · rename_i s₂ h1
        split at h
        · rename_i ho
          obtain ⟨f, ps, h2, rfl⟩ := TreeStack.down_ok.1 h1
          simp only [TreeStack.currentSymbol] at ho
          subst ho
          simp [h2]
        · simp at h
      · simp at h
    · simp at h
  have hc := hcur hs
  have hc' := hcur hs'
  rw [hc] at hc'
  cases ht with
  | @init r h1 h2 =>
    cases ht' with
    | @init r' h1' h2' =>
      have e1 := hpush hs
      have e2 := hpush hs'
      obtain ⟨q, hq⟩ := hchild 0 (Or.inl rfl)
      rw [hq] at e1 e2
      have := hr _ _ _ e1 e2
      rw [hk r h1 r' h1' this]
    | fin => cases hc'
    | push => cases hc'
    | up => cases hc'
    | down => cases hc'
  | @fin r c h1 h2 h3 =>
    cases ht' with
    | init => cases hc'
    | @fin r' c' h1' h2' h3' =>
      obtain ⟨e1, _, _⟩ := posOf_eq (r := r) (r' := r') hc'
      obtain ⟨k1, k2, k3⟩ := key_eq e1
      rw [k3, h3', Option.some_inj] at h3
      subst h3
      rw [e1]
    | @push r' j k c' b i jj' ri h1' h3' h4' =>
      obtain ⟨e1, rfl, rfl⟩ := posOf_eq (r := r) (r' := r') hc'
      obtain ⟨k1, k2, k3⟩ := key_eq e1
      rw [k3, h3', Option.some_inj] at h3
      subst h3
      simp at h4'
    | @up r' j k c' b i jj' j₀ ri c₀ h1' h3' h4' =>
      obtain ⟨e1, rfl, rfl⟩ := posOf_eq (r := r) (r' := r') hc'
      obtain ⟨k1, k2, k3⟩ := key_eq e1
      rw [k3, h3', Option.some_inj] at h3
      subst h3
      simp at h4'
    | down =>
      have e1 := hdown hs
      have e2 := hdown hs'
      rw [e1] at e2
      cases e2
  | @push r j k c b i jj ri h1 h3 h4 hl h5 h6 =>
    cases ht' with
    | init => cases hc'
    | @fin r' c' h1' h2' h3' =>
      obtain ⟨e1, rfl, rfl⟩ := posOf_eq (r := r) (r' := r') hc'
      obtain ⟨k1, k2, k3⟩ := key_eq e1
      rw [k3, h3', Option.some_inj] at h3
      subst h3
      simp at h4
    | @push r' j' k' c' b' i' jj' ri' h1' h3' h4' hl' h5' h6' =>
      obtain ⟨e1, rfl, rfl⟩ := posOf_eq (r := r) (r' := r') hc'
      obtain ⟨k1, k2, k3⟩ := key_eq e1
      rw [k3, h3', Option.some_inj] at h3
      subst h3
      rw [h4'] at h4
      simp only [Option.some.injEq, Prod.mk.injEq] at h4
      obtain ⟨rfl, rfl, rfl⟩ := h4
      obtain ⟨q, hq⟩ := hchild i' (Or.inr (by rw [hc]; simp [PosState.rule?]))
      have f1 := hpush hs
      have f2 := hpush hs'
      rw [hq] at f1 f2
      have := hr _ _ _ f1 f2
      rw [hk ri h5 ri' h5' this, e1]
    | @up r' j' k' c' b' i' jj' j₀ ri' c₀ h1' h3' h4' hl' =>
      obtain ⟨e1, rfl, rfl⟩ := posOf_eq (r := r) (r' := r') hc'
      obtain ⟨k1, k2, k3⟩ := key_eq e1
      rw [k3, h3', Option.some_inj] at h3
      subst h3
      rw [h4'] at h4
      simp only [Option.some.injEq, Prod.mk.injEq] at h4
      obtain ⟨rfl, rfl, rfl⟩ := h4
      rw [k3, hl'] at hl
      cases hl
    | @down r' j' k' c' b' i' j₁ ri' c₁ h1' h3' h4' h5' h6' h7' =>
      obtain ⟨e1, rfl, rfl⟩ := posOf_eq (r := r) (r' := ri') hc'
      obtain ⟨k1, k2, k3⟩ := key_eq e1
      rw [k3, h7', Option.some_inj] at h3
      subst h3
      simp at h4
  | @up r j k c b i jj j₀ ri c₀ h1 h3 h4 hl h5 h6 h7 =>
    cases ht' with
    | init => cases hc'
    | @fin r' c' h1' h2' h3' =>
      obtain ⟨e1, rfl, rfl⟩ := posOf_eq (r := r) (r' := r') hc'
      obtain ⟨k1, k2, k3⟩ := key_eq e1
      rw [k3, h3', Option.some_inj] at h3
      subst h3
      simp at h4
    | @push r' j' k' c' b' i' jj' ri' h1' h3' h4' hl' h5' h6' =>
      obtain ⟨e1, rfl, rfl⟩ := posOf_eq (r := r) (r' := r') hc'
      obtain ⟨k1, k2, k3⟩ := key_eq e1
      rw [k3, h3', Option.some_inj] at h3
      subst h3
      rw [h4'] at h4
      simp only [Option.some.injEq, Prod.mk.injEq] at h4
      obtain ⟨rfl, rfl, rfl⟩ := h4
      rw [k3, hl'] at hl
      cases hl
    | @up r' j' k' c' b' i' jj' j₀' ri' c₀' h1' h3' h4' hl' h5' h6' h7' =>
      obtain ⟨e1, rfl, rfl⟩ := posOf_eq (r := r) (r' := r') hc'
      obtain ⟨k1, k2, k3⟩ := key_eq e1
      rw [k3, h3', Option.some_inj] at h3
      subst h3
      rw [h4'] at h4
      simp only [Option.some.injEq, Prod.mk.injEq] at h4
      obtain ⟨rfl, rfl, rfl⟩ := h4
      obtain ⟨F, f1⟩ := hup hs
      obtain ⟨F', f2⟩ := hup hs'
      rw [f1] at f2
      simp only [Option.some.injEq, Prod.mk.injEq, PosState.position.injEq] at f2
      obtain ⟨⟨f3, f4, f5⟩, _⟩ := f2
      rw [e1, f3, f4, f5]
    | @down r' j' k' c' b' i' j₁ ri' c₁ h1' h3' h4' h5' h6' h7' =>
      obtain ⟨e1, rfl, rfl⟩ := posOf_eq (r := r) (r' := ri') hc'
      obtain ⟨k1, k2, k3⟩ := key_eq e1
      rw [k3, h7', Option.some_inj] at h3
      subst h3
      simp at h4
  | @down r j k c b i j₁ ri c₁ h1 h3 h4 h5 h6 h7 =>
    cases ht' with
    | init => cases hc'
    | fin =>
      have e1 := hdown hs
      have e2 := hdown hs'
      rw [e1] at e2
      cases e2
    | @push r' j' k' c' b' i' jj' ri' h1' h3' h4' hl' h5' h6' =>
      obtain ⟨e1, rfl, rfl⟩ := posOf_eq (r := ri) (r' := r') hc'
      obtain ⟨k1, k2, k3⟩ := key_eq e1
      rw [k3, h3', Option.some_inj] at h7
      subst h7
      simp at h4'
    | @up r' j' k' c' b' i' jj' j₀' ri' c₀' h1' h3' h4' hl' h5' h6' h7' =>
      obtain ⟨e1, rfl, rfl⟩ := posOf_eq (r := ri) (r' := r') hc'
      obtain ⟨k1, k2, k3⟩ := key_eq e1
      rw [k3, h3', Option.some_inj] at h7
      subst h7
      simp at h4'
    | @down r' j' k' c' b' i' j₁' ri' c₁' h1' h3' h4' h5' h6' h7' =>
      obtain ⟨e1, rfl, e2⟩ := posOf_eq (r := ri) (r' := ri') hc'
      obtain ⟨k1, k2, k3⟩ := key_eq e1
      rw [k3, h7', Option.some_inj] at h7
      subst h7
      have f1 := hdown hs
      have f2 := hdown hs'
      rw [f1] at f2
      simp only [Option.some.injEq, PosState.position.injEq] at f2
      obtain ⟨f3, f4, f5⟩ := f2
      rw [e1, f3, f4, f5]

/-- The run is determined by the rules of the resulting tree stack. -/
theorem visit_run_unique {g : PMCFG N T W} (hk : ∀ r ∈ g.rules, ∀ r' ∈ g.rules, r.key = r'.key → r = r') {ts ts' : List (TsaTransition N T W)} (hts : ∀ t ∈ ts, IsStep g t)
    (hts' : ∀ t ∈ ts', IsStep g t) {s F F' : TreeStack (TsaSymbol N T)} (hw : s.Wf) (hi : Rooted s) (hF : F ∈ storages TsInstr.apply (ts.map Transition.instruction) s)
    (hF' : F' ∈ storages TsInstr.apply (ts'.map Transition.instruction) s) (hv : F.value = .designated) (hv' : F'.value = .designated)
    (hr : ∀ p, ruleAt F (0 :: p) = ruleAt F' (0 :: p)) : ts = ts' := by
  have hend : ∀ {t : TsaTransition N T W} {s s₁ : TreeStack (TsaSymbol N T)}, IsStep g t → s.value = .designated → s₁ ∉ t.instruction.apply s := by
    intro t s s₁ ht hd h
    cases ht <;> simp [TsInstr.apply, TreeStack.currentSymbol, hd] at h
  induction ts generalizing s ts' with
  | nil =>
    simp only [List.map_nil, storages, List.mem_singleton] at hF
    subst hF
    cases ts' with
    | nil => rfl
    | cons t' ts' =>
      simp only [List.map_cons, storages, List.mem_flatMap] at hF'
      obtain ⟨s₁, h1, _⟩ := hF'
      exact absurd h1 (hend (hts' t' (by simp)) hv)
  | cons t ts ih =>
    simp only [List.map_cons, storages, List.mem_flatMap] at hF
    obtain ⟨s₁, h1, h2⟩ := hF
    cases ts' with
    | nil =>
      simp only [List.map_nil, storages, List.mem_singleton] at hF'
      subst hF'
      exact absurd h1 (hend (hts t (by simp)) hv')
    | cons t' ts' =>
      simp only [List.map_cons, storages, List.mem_flatMap] at hF'
      obtain ⟨s₁', h1', h2'⟩ := hF'
      have hts₂ : ∀ t ∈ ts, IsStep g t := fun t ht => hts t (by simp [ht])
      have hts₂' : ∀ t ∈ ts', IsStep g t := fun t ht => hts' t (by simp [ht])
      obtain rfl : t = t' := by
        refine visit_step_unique hk (hts t (by simp)) (hts' t' (by simp)) hw hi h1 h1' fun p x x' hx hx' => ?_
        have e1 := visit_ruleAt_run hts₂ (TSA.wf_apply hw h1) h2 hx
        have e2 := visit_ruleAt_run hts₂' (TSA.wf_apply hw h1') h2' hx'
        rw [hr, e2, Option.some_inj] at e1
        exact e1.symm
      obtain rfl : s₁ = s₁' := by
        have := TsInstr.apply_length t.instruction s
        match h : t.instruction.apply s, this with
        | [], _ => rw [h] at h1; simp at h1
        | [s₂], _ =>
          rw [h, List.mem_singleton] at h1 h1'
          rw [h1, h1']
      rw [ih hts₂ hts₂' (TSA.wf_apply hw h1) (visit_rooted_step (hts t (by simp)) hi h1) h2 h2']

/-- A non-empty accepting run stores the rules in the tree stack. -/
theorem visit_accepting_stores {g : PMCFG N T W} {ts : List (TsaTransition N T W)} (hts : tsaTransitions g = some ts) {w : List T} {run : List (TsaTransition N T W)}
    {s : TreeStack (TsaSymbol N T)} {u : W} (h : (TSA.device ts (TreeStack.new .initial)).Accepting w run s u) (hr : run ≠ []) :
    (∀ t ∈ run, IsStep g t) ∧ s ∈ storages TsInstr.apply (run.map Transition.instruction) (TreeStack.new .initial) ∧
      ∃ S ∈ g.initial, ∃ labels, Visited cutTrails g.rules S [0] labels [w] u ∧ StoresLabels s labels := by
  obtain ⟨⟨h1, h2⟩, h3⟩ := h
  rw [exec_iff] at h1
  obtain ⟨h4, h5, h6⟩ := h1
  simp only [List.append_nil, one_mul] at h4 h6
  simp only [TSA.device, TreeStack.isAtBottom, List.isEmpty_iff] at h2 h3 h5
  have m1 := tsaTransitions_step hts
  obtain ⟨m2, _, m3⟩ := (tsaTransitions_some g).1 ⟨ts, hts⟩
  have hall : ∀ t ∈ run, IsStep g t := fun t ht => (m1 t).1 (h2 t ht)
  refine ⟨hall, h5, ?_⟩
  rcases visit_sound m3 m2 ⟨run, hall, h5, h4.symm, h6.symm⟩ h3 with h7 | h7
  · exfalso
    rcases List.eq_nil_or_concat run with h8 | ⟨run', t, rfl⟩
    · exact hr h8
    · rw [List.concat_eq_append, List.map_append, storages_append, List.mem_flatMap] at h5
      obtain ⟨s₁, _, h8⟩ := h5
      simp only [List.map_cons, List.map_nil, storages, List.flatMap_singleton'] at h8
      rw [h7.1] at h8
      exact isStep_not_initial ((m1 t).1 (h2 t (by simp))) _ h8
  · exact h7

omit [CommMonoid W] [DecidableEq N] [DecidableEq T] in
theorem StoresLabels.ruleAt {s : TreeStack (TsaSymbol N T)} {labels : List Nat → Option (PMCFGRule N T W)} (h : StoresLabels s labels) (p : List Nat) :
    Rustomata.ruleAt s (0 :: p) = (labels p).map PMCFGRule.key := by
  obtain ⟨h1, h2, h3⟩ := h
  have hget := TreeStack.view_below (t := s) (by intro f hf; rw [h1] at hf; simp at hf) (0 :: p)
  have hp : (view s).pointer = [] := by
    rw [TreeStack.pointer_eq, h1]; rfl
  rw [hp, List.nil_append] at hget
  unfold Rustomata.ruleAt
  rw [hget]
  have := h3 p
  cases hn : nodeAt s.value s.children (0 :: p) with
  | none =>
    rw [hn, Option.map_none] at this
    rw [Option.map_eq_none_iff.1 this.symm]; rfl
  | some v =>
    rw [hn, Option.map_some] at this
    obtain ⟨r, hr, hr'⟩ := Option.map_eq_some_iff.1 this.symm
    rw [hr]
    simp [← hr']

/-- Accepting runs with the same abstract syntax tree are equal. -/
theorem visit_accepting_unique {g : PMCFG N T W} {ts : List (TsaTransition N T W)} (hts : tsaTransitions g = some ts) (hk : (g.rules.map PMCFGRule.key).Nodup)
    {w w' : List T} {run run' : List (TsaTransition N T W)} {s s' : TreeStack (TsaSymbol N T)} {u u' : W}
    (h : (TSA.device ts (TreeStack.new .initial)).Accepting w run s u) (hr : run ≠ [])
    (h' : (TSA.device ts (TreeStack.new .initial)).Accepting w' run' s' u') (hr' : run' ≠ [])
    (he : ∀ m m', toAbstractSyntaxTree s.toTree.1 = some m → toAbstractSyntaxTree s'.toTree.1 = some m' → ∀ p, m.get p = m'.get p) : run = run' := by
  obtain ⟨a1, a2, _, _, d, _, a3⟩ := visit_accepting_stores hts h hr
  obtain ⟨b1, b2, _, _, d', _, b3⟩ := visit_accepting_stores hts h' hr'
  obtain ⟨m, m1, m2⟩ := a3.ast
  obtain ⟨m', m1', m2'⟩ := b3.ast
  refine visit_run_unique (fun r h1 r' h2 h3 => List.inj_on_of_nodup_map hk h1 h2 h3) a1 b1 (by intro f hf; simp [TreeStack.new] at hf) ⟨fun _ => rfl, ?_⟩ a2 b2
    a3.2.1 b3.2.1 fun p => ?_
  · intro f hf
    simp [TreeStack.new] at hf
  · rw [a3.ruleAt, b3.ruleAt, ← m2, ← m2', he m m' m1 m1']

omit [DecidableEq N] [DecidableEq T] in
/-- The labels are rules of the grammar. -/
theorem Spec.Visited.labels_mem {cut : Composition T → Composition T} {rules : List (PMCFGRule N T W)} {A : N} {s : List Nat} {labels : List Nat → Option (PMCFGRule N T W)}
    {ws : List (List T)} {u : W} (h : Visited cut rules A s labels ws u) : (∃ r, labels [] = some r) ∧ ∀ p r, labels p = some r → r ∈ rules := by
  induction h with
  | @node r s vc A labels args us ws hr _ _ _ _ _ ih =>
    refine ⟨⟨r, rfl⟩, fun p r' hp => ?_⟩
    cases p with
    | nil =>
      simp only [visitLabels, Option.some.injEq] at hp
      exact hp ▸ hr
    | cons i p =>
      simp only [visitLabels] at hp
      split at hp
      · cases hp
      · rename_i hv
        exact (ih i hv).2 p r' hp

end Rustomata
