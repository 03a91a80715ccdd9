import Verif.Proofs.Once
import Verif.Proofs.Tsa
import Verif.Proofs.FromPmcfgAst

/-!
# The runs of the tree stack automaton of a PMCFG: one for each derivation
-/

namespace Rustomata
open Spec
variable {N T W : Type _}

theorem TsInstr.apply_length {A : Type _} [DecidableEq A] (x : TsInstr A) (s : TreeStack A) : (x.apply s).length ≤ 1 := by
  unfold TsInstr.apply
  split <;> split <;> (try split) <;> (try split) <;> simp

/-! ### No transition occurs twice -/

/-- The symbol that is read at the upper end of a transition. -/
def TsInstr.site {A : Type _} : TsInstr A → A
  | .push _ c _ => c
  | .up _ c _ _ => c
  | .down _ o _ => o

/-- The rule of the child. -/
def TsInstr.childRule {X : Type _} : TsInstr (PosState X) → Option X
  | .push _ _ a => a.rule?
  | .up _ _ _ a => a.rule?
  | .down c _ _ => c.rule?

theorem mapM_flatten_nodup {α β κ : Type _} {f : α → Option (List β)} {key : α → κ} {tag : β → κ} {l : List α} (hk : (l.map key).Nodup)
    (hf : ∀ a ∈ l, ∀ x, f a = some x → x.Nodup ∧ ∀ t ∈ x, tag t = key a) {xs : List (List β)} (h : l.mapM f = some xs) : xs.flatten.Nodup := by
  rw [mapM_some_iff] at h
  induction h with
  | nil => simp
  | @cons a x l xs h1 h2 ih =>
    rw [List.map_cons, List.nodup_cons] at hk
    rw [List.flatten_cons, List.nodup_append]
    refine ⟨(hf a (by simp) x h1).1, ih hk.2 fun a ha => hf a (by simp [ha]), ?_⟩
    intro t ht t' ht' he
    subst he
    obtain ⟨y, hy, hty⟩ := List.mem_flatten.1 ht'
    obtain ⟨a', ha', hf'⟩ := forall₂_exists_left h2 hy
    apply hk.1
    rw [← (hf a (by simp) x h1).2 t ht, (hf a' (by simp [ha']) y hf').2 t hty]
    exact List.mem_map.2 ⟨a', ha', rfl⟩

section
variable [One W]

theorem tsaVariable_once {r : PMCFGRule N T W} {j k : Nat} {buffer : List T} {i₁ j₁ : Nat} {previous : Option Nat} {ri : PMCFGRule N T W}
    {l : List (TsaTransition N T W)} (h : tsaVariable r j k buffer i₁ j₁ previous ri = some l) :
    l.Nodup ∧ ∀ t ∈ l, t.instruction.site = posOf r j k ∧ t.instruction.childRule = some ri.key := by
  unfold tsaVariable at h
  split at h
  · cases h
  · split at h
    · cases h
      simp [TsInstr.site, TsInstr.childRule, PosState.rule?]
    · split at h
      · cases h
      · cases h
        simp [TsInstr.site, TsInstr.childRule, PosState.rule?]

theorem tsaTokens_once {r : PMCFGRule N T W} {rss : List (List (PMCFGRule N T W))} (hrss : ∀ rs ∈ rss, (rs.map PMCFGRule.key).Nodup) {j : Nat} (c : List (VarT T)) :
    ∀ (k : Nat) (buffer : List T) (previous : List (Option Nat)) {ts : List (TsaTransition N T W)} {previous'},
      tsaTokens r rss j c k buffer previous = some (ts, previous') → ts.Nodup ∧ ∀ t ∈ ts, ∃ k' ≥ k, t.instruction.site = posOf r j k' := by
  induction c with
  | nil =>
    intro k buffer previous ts previous' h
    simp only [tsaTokens, Option.some.injEq, Prod.mk.injEq] at h
    obtain ⟨rfl, _⟩ := h
    simp
  | cons x c ih =>
    intro k buffer previous ts previous' h
    cases x with
    | t a => exact ih k _ previous h
    | var i₁ j₁ =>
      simp only [tsaTokens] at h
      split at h
      · rename_i rs p hrs hp
        split at h
        · rename_i tss ts' previous'' htss hts'
          simp only [Option.some.injEq, Prod.mk.injEq] at h
          obtain ⟨rfl, rfl⟩ := h
          obtain ⟨h1, h2⟩ := ih _ _ _ hts'
          have h3 : ∀ t ∈ tss.flatten, t.instruction.site = posOf r j k := by
            intro t ht
            obtain ⟨l, hl, ht⟩ := List.mem_flatten.1 ht
            obtain ⟨ri, _, hri⟩ := forall₂_exists_left (mapM_some_iff.1 htss) hl
            exact ((tsaVariable_once hri).2 t ht).1
          refine ⟨?_, ?_⟩
          · rw [List.nodup_append]
            refine ⟨?_, h1, ?_⟩
            · refine mapM_flatten_nodup (key := fun ri : PMCFGRule N T W => some ri.key) (tag := fun t : TsaTransition N T W => t.instruction.childRule) ?_ ?_ htss
              · have := (hrss rs (List.mem_of_getElem? hrs)).map (Option.some_injective _)
                rwa [List.map_map] at this
              · intro ri _ l hl
                exact ⟨(tsaVariable_once hl).1, fun t ht => ((tsaVariable_once hl).2 t ht).2⟩
            · intro t ht t' ht' he
              subst he
              obtain ⟨k', hk', hs⟩ := h2 t ht'
              rw [h3 t ht] at hs
              have := (posOf_eq hs).2.2
              omega
          · intro t ht
            rcases List.mem_append.1 ht with ht | ht
            · exact ⟨k, Nat.le_refl _, h3 t ht⟩
            · obtain ⟨k', hk', hs⟩ := h2 t ht
              exact ⟨k', by omega, hs⟩
        · cases h
      · cases h

theorem tsaComponents_once {r : PMCFGRule N T W} {rss : List (List (PMCFGRule N T W))} (hrss : ∀ rs ∈ rss, (rs.map PMCFGRule.key).Nodup) (cs : Composition T) :
    ∀ (j : Nat) (previous : List (Option Nat)) {ts : List (TsaTransition N T W)},
      tsaComponents r rss cs j previous = some ts → ts.Nodup ∧ ∀ t ∈ ts, ∃ j' ≥ j, ∃ k, t.instruction.site = posOf r j' k := by
  induction cs with
  | nil =>
    intro j previous ts h
    simp only [tsaComponents, Option.some.injEq] at h
    subst h
    simp
  | cons c cs ih =>
    intro j previous ts h
    simp only [tsaComponents] at h
    split at h
    · cases h
    · rename_i ts₁ previous' h1
      obtain ⟨ts₂, h2, rfl⟩ := Option.map_eq_some_iff.1 h
      obtain ⟨a1, a2⟩ := tsaTokens_once hrss c _ _ _ h1
      obtain ⟨b1, b2⟩ := ih _ _ h2
      refine ⟨?_, ?_⟩
      · rw [List.nodup_append]
        refine ⟨a1, b1, ?_⟩
        intro t ht t' ht' he
        subst he
        obtain ⟨k, _, hs⟩ := a2 t ht
        obtain ⟨j', hj', k', hs'⟩ := b2 t ht'
        rw [hs] at hs'
        have := (posOf_eq hs').2.1
        omega
      · intro t ht
        rcases List.mem_append.1 ht with ht | ht
        · obtain ⟨k, _, hs⟩ := a2 t ht
          exact ⟨j, Nat.le_refl _, k, hs⟩
        · obtain ⟨j', hj', hs⟩ := b2 t ht
          exact ⟨j', by omega, hs⟩

variable [DecidableEq N]

theorem tsaRule_once {rules : List (PMCFGRule N T W)} (hk : (rules.map PMCFGRule.key).Nodup) {r : PMCFGRule N T W} {ts : List (TsaTransition N T W)}
    (h : tsaRule rules r = some ts) : ts.Nodup ∧ ∀ t ∈ ts, t.instruction.site.rule? = some r.key := by
  unfold tsaRule at h
  split at h
  · cases h
  · rename_i rss hrss
    have hnd : ∀ rs ∈ rss, (rs.map PMCFGRule.key).Nodup := fun rs hrs => by
      obtain ⟨A, _, hA⟩ := forall₂_exists_left (mapM_some_iff.1 hrss) hrs
      unfold ruleMapGet at hA
      split at hA
      · cases hA
        exact (List.filter_sublist.map _).nodup hk
      · cases hA
    obtain ⟨h1, h2⟩ := tsaComponents_once hnd _ _ _ h
    refine ⟨h1, fun t ht => ?_⟩
    obtain ⟨j, _, k, hs⟩ := h2 t ht
    rw [hs]
    rfl

/-- The construction emits no transition twice if no two rules differ only in their weight. -/
theorem tsaTransitions_once {g : PMCFG N T W} {ts : List (TsaTransition N T W)} (h : tsaTransitions g = some ts) (hk : (g.rules.map PMCFGRule.key).Nodup) :
    ts.Nodup := by
  unfold tsaTransitions at h
  split at h
  · rename_i a b ha hb
    cases h
    have hinit : ∀ (r : PMCFGRule N T W) l, tsaInitial r = some l → l.Nodup ∧ ∀ t ∈ l, t.instruction.site = (.initial : TsaSymbol N T) ∧ t.instruction.childRule = some r.key := by
      intro r l hl
      unfold tsaInitial at hl
      split at hl
      · cases hl
      · cases hl
        simp [TsInstr.site, TsInstr.childRule, PosState.rule?]
    rw [List.nodup_append]
    refine ⟨?_, ?_, ?_⟩
    · refine mapM_flatten_nodup (key := fun ri : PMCFGRule N T W => some ri.key) (tag := fun t : TsaTransition N T W => t.instruction.childRule) ?_ ?_ ha
      · have := ((List.filter_sublist.map _).nodup hk : ((g.rules.filter fun r => r.head ∈ g.initial).map PMCFGRule.key).Nodup).map (Option.some_injective _)
        rwa [List.map_map] at this
      · intro r _ l hl
        exact ⟨(hinit r l hl).1, fun t ht => ((hinit r l hl).2 t ht).2⟩
    · refine mapM_flatten_nodup (key := fun ri : PMCFGRule N T W => some ri.key) (tag := fun t : TsaTransition N T W => t.instruction.site.rule?) ?_ ?_ hb
      · have := hk.map (Option.some_injective _)
        rwa [List.map_map] at this
      · intro r _ l hl
        exact tsaRule_once hk hl
    · intro t ht t' ht' he
      subst he
      obtain ⟨l, hl, ht⟩ := List.mem_flatten.1 ht
      obtain ⟨r, _, hr⟩ := forall₂_exists_left (mapM_some_iff.1 ha) hl
      obtain ⟨l', hl', ht'⟩ := List.mem_flatten.1 ht'
      obtain ⟨r', _, hr'⟩ := forall₂_exists_left (mapM_some_iff.1 hb) hl'
      have h1 := ((hinit r l hr).2 t ht).1
      have h2 := (tsaRule_once hk hr').2 t ht'
      rw [h1] at h2
      cases h2
  · cases h

end

/-! ### The run of a derivation -/

section
variable [CommMonoid W] [DecidableEq N] [DecidableEq T]

/-- The rule at an address of a tree stack. -/
def ruleAt (s : TreeStack (TsaSymbol N T)) (p : List Nat) : Option (PMCFGRule N T Unit) := ((view s).label p).bind PosState.rule?

omit [CommMonoid W] in
/-- Rules are not changed. -/
theorem ruleAt_step [One W] {g : PMCFG N T W} {t : TsaTransition N T W} (ht : IsTrans g t) {s s' : TreeStack (TsaSymbol N T)} (hw : s.Wf) (hs : s' ∈ t.instruction.apply s)
    {p : List Nat} {x : PMCFGRule N T Unit} (hp : ruleAt s p = some x) : ruleAt s' p = some x := by
  have hpush : ∀ n c a, t.instruction = .push n c a → ruleAt s' p = some x := by
    intro n c a he
    rw [he] at hs
    simp only [TsInstr.apply] at hs
    split at hs
    · split at hs
      · rename_i s₁ h1
        rw [List.mem_singleton] at hs
        subst hs
        have hv := TreeStack.view_push hw h1
        have hn := (TreeStack.label_child_none hw n).2 (TreeStack.push_ok.1 h1).1
        unfold ruleAt at hp ⊢
        rw [hv]
        simp only [Marked.move, Marked.write]
        rw [if_neg]
        · exact hp
        · rintro rfl
          rw [hn] at hp
          cases hp
      · simp at hs
    · simp at hs
  have hset : ∀ (s₁ : TreeStack (TsaSymbol N T)) (o a : TsaSymbol N T), s₁.Wf → (view s₁).label = (view s).label → s₁.currentSymbol = o →
      (∀ x, o.rule? = some x → a.rule? = some x) → s' = s₁.set a → ruleAt s' p = some x := by
    intro s₁ o a hw₁ hl ho hoa hs'
    subst hs'
    unfold ruleAt at hp ⊢
    rw [TreeStack.view_set hw₁]
    simp only [Marked.write]
    split
    · rename_i hpp
      have := TreeStack.view_below hw₁ []
      rw [List.append_nil] at this
      rw [← hl, hpp, this] at hp
      simp only [nodeAt, Option.bind_some] at hp ⊢
      exact hoa x (ho ▸ hp)
    · rw [hl]
      exact hp
  cases ht with
  | init => exact hpush _ _ _ rfl
  | push => exact hpush _ _ _ rfl
  | up =>
    simp only [TsInstr.apply] at hs
    split at hs
    · split at hs
      · rename_i s₁ h1
        split at hs
        · rename_i ho
          rw [List.mem_singleton] at hs
          refine hset s₁ _ _ (TreeStack.wf_up hw h1) ?_ ho (fun x hx => ?_) hs
          · rw [TreeStack.view_up hw h1]; rfl
          · exact hx
        · simp at hs
      · simp at hs
    · simp at hs
  | down =>
    simp only [TsInstr.apply] at hs
    split at hs
    · split at hs
      · rename_i s₁ h1
        split at hs
        · rename_i ho
          rw [List.mem_singleton] at hs
          refine hset s₁ _ _ (TreeStack.wf_down hw h1) ?_ ho (fun x hx => ?_) hs
          · obtain ⟨_, _, _, hv⟩ := TreeStack.view_down hw h1
            rw [hv]; rfl
          · exact hx
        · simp at hs
      · simp at hs
    · simp at hs
  | fin =>
    simp only [TsInstr.apply] at hs
    split at hs
    · split at hs
      · rename_i s₁ h1
        split at hs
        · rename_i ho
          rw [List.mem_singleton] at hs
          refine hset s₁ _ _ (TreeStack.wf_down hw h1) ?_ ho (fun x hx => ?_) hs
          · obtain ⟨_, _, _, hv⟩ := TreeStack.view_down hw h1
            rw [hv]; rfl
          · cases hx
        · simp at hs
      · simp at hs
    · simp at hs

omit [CommMonoid W] in
theorem ruleAt_run [One W] {g : PMCFG N T W} {ts : List (TsaTransition N T W)} (hts : ∀ t ∈ ts, IsTrans g t) {s s' : TreeStack (TsaSymbol N T)} (hw : s.Wf)
    (hs : s' ∈ storages TsInstr.apply (ts.map Transition.instruction) s) {p : List Nat} {x : PMCFGRule N T Unit} (hp : ruleAt s p = some x) :
    ruleAt s' p = some x := by
  induction ts generalizing s with
  | nil =>
    simp only [List.map_nil, storages, List.mem_singleton] at hs
    subst hs
    exact hp
  | cons t ts ih =>
    simp only [List.map_cons, storages, List.mem_flatMap] at hs
    obtain ⟨s₁, h1, h2⟩ := hs
    exact ih (fun t ht => hts t (by simp [ht])) (TSA.wf_apply hw h1) h2 (ruleAt_step (hts t (by simp)) hw h1 hp)

/-- No rule is stored at the root, and only the first child of the root is ever visited. -/
def Rooted (s : TreeStack (TsaSymbol N T)) : Prop :=
  (s.parents = [] → s.value.rule? = none) ∧ ∀ f, s.parents.getLast? = some f → f.index = 0 ∧ f.value.rule? = none

omit [CommMonoid W] in
theorem rooted_step [One W] {g : PMCFG N T W} {t : TsaTransition N T W} (ht : IsTrans g t) {s s' : TreeStack (TsaSymbol N T)} (hi : Rooted s)
    (hs : s' ∈ t.instruction.apply s) : Rooted s' := by
  have hlast : ∀ (f : Frame (TsaSymbol N T)), s.parents ≠ [] → ∀ f', (f :: s.parents).getLast? = some f' → s.parents.getLast? = some f' := by
    intro f hne f' h
    cases hp : s.parents with
    | nil => exact absurd hp hne
    | cons f₁ ps => rw [hp, List.getLast?_cons_cons] at h; exact h
  cases ht with
  | init =>
    simp only [TsInstr.apply] at hs
    split at hs
    · rename_i hc
      split at hs
      · rename_i s₁ h1
        rw [List.mem_singleton] at hs
        obtain ⟨_, rfl⟩ := TreeStack.push_ok.1 h1
        subst hs
        refine ⟨fun h => by simp at h, fun f hf => ?_⟩
        by_cases hp : s.parents = []
        · simp only [hp, List.getLast?_singleton, Option.some_inj] at hf
          subst hf
          exact ⟨rfl, hi.1 hp⟩
        · exact hi.2 f (hlast _ hp f hf)
      · simp at hs
    · simp at hs
  | push =>
    simp only [TsInstr.apply] at hs
    split at hs
    · rename_i hc
      split at hs
      · rename_i s₁ h1
        rw [List.mem_singleton] at hs
        obtain ⟨_, rfl⟩ := TreeStack.push_ok.1 h1
        subst hs
        refine ⟨fun h => by simp at h, fun f hf => ?_⟩
        refine hi.2 f (hlast _ (fun hp => ?_) f hf)
        have := hi.1 hp
        simp only [TreeStack.currentSymbol] at hc
        simp [hc, PosState.rule?] at this
      · simp at hs
    · simp at hs
  | up =>
    simp only [TsInstr.apply] at hs
    split at hs
    · rename_i hc
      split at hs
      · rename_i s₁ h1
        split at hs
        · rw [List.mem_singleton] at hs
          obtain ⟨v, F, _, rfl⟩ := TreeStack.up_ok.1 h1
          subst hs
          refine ⟨fun h => by simp [TreeStack.set] at h, fun f hf => ?_⟩
          refine hi.2 f (hlast _ (fun hp => ?_) f hf)
          have := hi.1 hp
          simp only [TreeStack.currentSymbol] at hc
          simp [hc, PosState.rule?] at this
        · simp at hs
      · simp at hs
    · simp at hs
  | fin =>
    simp only [TsInstr.apply] at hs
    split at hs
    · split at hs
      · rename_i s₁ h1
        split at hs
        · rw [List.mem_singleton] at hs
          obtain ⟨f, ps, hps, rfl⟩ := TreeStack.down_ok.1 h1
          subst hs
          refine ⟨fun h => rfl, fun f' hf => hi.2 f' ?_⟩
          simp only [TreeStack.set] at hf
          rw [hps, List.getLast?_cons, hf]
          rfl
        · simp at hs
      · simp at hs
    · simp at hs
  | down =>
    simp only [TsInstr.apply] at hs
    split at hs
    · split at hs
      · rename_i s₁ h1
        split at hs
        · rename_i ho
          rw [List.mem_singleton] at hs
          obtain ⟨f, ps, hps, rfl⟩ := TreeStack.down_ok.1 h1
          subst hs
          refine ⟨fun h => ?_, fun f' hf => hi.2 f' ?_⟩
          · simp only [TreeStack.set] at h
            subst h
            have := (hi.2 f (by rw [hps]; rfl)).2
            simp only [TreeStack.currentSymbol] at ho
            simp [ho, PosState.rule?] at this
          · simp only [TreeStack.set] at hf
            rw [hps, List.getLast?_cons, hf]
            rfl
        · simp at hs
      · simp at hs
    · simp at hs

omit [CommMonoid W] in
theorem Rooted.pointer {s : TreeStack (TsaSymbol N T)} (hi : Rooted s) (hp : s.parents ≠ []) : ∃ q, (view s).pointer = 0 :: q := by
  rw [TreeStack.pointer_eq]
  have h := hi.2
  generalize s.parents = ps at hp h
  induction ps with
  | nil => exact absurd rfl hp
  | cons f ps ih =>
    simp only [TreeStack.parentsToTree]
    cases ps with
    | nil =>
      refine ⟨[], ?_⟩
      simp [TreeStack.parentsToTree, (h f rfl).1]
    | cons f' ps =>
      obtain ⟨q, hq⟩ := ih (by simp) (fun f₁ h₁ => h f₁ (by rw [List.getLast?_cons_cons]; exact h₁))
      exact ⟨q ++ [f.index], by rw [hq]; rfl⟩

/-- The transition is determined by the tree stack and the rules of the result. -/
theorem step_unique {g : PMCFG N T W} (hk : ∀ r ∈ g.rules, ∀ r' ∈ g.rules, r.key = r'.key → r = r') {t t' : TsaTransition N T W} (ht : IsTrans g t) (ht' : IsTrans g t')
    {s s₁ s₁' : TreeStack (TsaSymbol N T)} (hw : s.Wf) (hi : Rooted s) (hs : s₁ ∈ t.instruction.apply s) (hs' : s₁' ∈ t'.instruction.apply s)
    (hr : ∀ p x x', ruleAt s₁ (0 :: p) = some x → ruleAt s₁' (0 :: p) = some x' → x = x') : t = t' := by
  have hchild : ∀ n, n = 0 ∨ s.value.rule? ≠ none → ∃ q, (view s).child n = 0 :: q := by
    intro n hn
    by_cases hp : s.parents = []
    · rcases hn with rfl | hn
      · exact ⟨[], by simp [Marked.child, TreeStack.pointer_eq, hp, TreeStack.parentsToTree]⟩
      · exact absurd (hi.1 hp) hn
    · obtain ⟨q, hq⟩ := hi.pointer hp
      exact ⟨q ++ [n], by rw [Marked.child, hq]; rfl⟩
  have hcur : ∀ {x : TsInstr (TsaSymbol N T)} {s₁}, s₁ ∈ x.apply s → s.value = match x with | .push _ c _ => c | .up _ c _ _ => c | .down c _ _ => c := by
    intro x s₁ h
    cases x <;> simp only [TsInstr.apply] at h <;> split at h <;> first | assumption | simp at h
  have hpush : ∀ {n c a s₁}, s₁ ∈ (TsInstr.push n c a).apply s → ruleAt s₁ ((view s).child n) = a.rule? := by
    intro n c a s₁ h
    simp only [TsInstr.apply] at h
    split at h
    · split at h
      · rename_i s₂ h1
        rw [List.mem_singleton] at h
        subst h
        unfold ruleAt
        rw [TreeStack.view_push hw h1]
        simp [Marked.move, Marked.write]
      · simp at h
    · simp at h
  have hup : ∀ {n c o a s₁}, s₁ ∈ (TsInstr.up n c o a).apply s → ∃ F, s.children.slot n = some (o, F) := by
    intro n c o a s₁ h
    simp only [TsInstr.apply] at h
    split at h
    · split at h
      · rename_i s₂ h1
        split at h
        · rename_i ho
          obtain ⟨v, F, h2, rfl⟩ := TreeStack.up_ok.1 h1
          simp only [TreeStack.currentSymbol] at ho
          subst ho
          exact ⟨F, h2⟩
        · simp at h
      · simp at h
    · simp at h
  have hdown : ∀ {c o a s₁}, s₁ ∈ (TsInstr.down c o a).apply s → s.parents.head?.map Frame.value = some o := by
    intro c o a s₁ h
    simp only [TsInstr.apply] at h
    split at h
    · split at h
      · rename_i s₂ h1
        split at h
        · rename_i ho
          obtain ⟨f, ps, h2, rfl⟩ := TreeStack.down_ok.1 h1
          simp only [TreeStack.currentSymbol] at ho
          subst ho
          simp [h2]
        · simp at h
      · simp at h
    · simp at h
  have hc := hcur hs
  have hc' := hcur hs'
  rw [hc] at hc'
  cases ht with
  | @init r h1 h2 =>
    cases ht' with
    | @init r' h1' h2' =>
      have e1 := hpush hs
      have e2 := hpush hs'
      obtain ⟨q, hq⟩ := hchild 0 (Or.inl rfl)
      rw [hq] at e1 e2
      have := hr _ _ _ e1 e2
      rw [hk r h1 r' h1' this]
    | fin => cases hc'
    | push => cases hc'
    | up => cases hc'
    | down => cases hc'
  | @fin r c h1 h2 h3 =>
    cases ht' with
    | init => cases hc'
    | @fin r' c' h1' h2' h3' =>
      obtain ⟨e1, _, _⟩ := posOf_eq (r := r) (r' := r') hc'
      obtain ⟨k1, k2, k3⟩ := key_eq e1
      rw [k3, h3', Option.some_inj] at h3
      subst h3
      rw [e1]
    | @push r' j k c' b i ri h1' h3' h4' =>
      obtain ⟨e1, rfl, rfl⟩ := posOf_eq (r := r) (r' := r') hc'
      obtain ⟨k1, k2, k3⟩ := key_eq e1
      rw [k3, h3', Option.some_inj] at h3
      subst h3
      simp at h4'
    | @up r' j k c' b i j₀ ri c₀ h1' h3' h4' =>
      obtain ⟨e1, rfl, rfl⟩ := posOf_eq (r := r) (r' := r') hc'
      obtain ⟨k1, k2, k3⟩ := key_eq e1
      rw [k3, h3', Option.some_inj] at h3
      subst h3
      simp at h4'
    | down =>
      have e1 := hdown hs
      have e2 := hdown hs'
      rw [e1] at e2
      cases e2
  | @push r j k c b i ri h1 h3 h4 h5 h6 =>
    cases ht' with
    | init => cases hc'
    | @fin r' c' h1' h2' h3' =>
      obtain ⟨e1, rfl, rfl⟩ := posOf_eq (r := r) (r' := r') hc'
      obtain ⟨k1, k2, k3⟩ := key_eq e1
      rw [k3, h3', Option.some_inj] at h3
      subst h3
      simp at h4
    | @push r' j' k' c' b' i' ri' h1' h3' h4' h5' h6' =>
      obtain ⟨e1, rfl, rfl⟩ := posOf_eq (r := r) (r' := r') hc'
      obtain ⟨k1, k2, k3⟩ := key_eq e1
      rw [k3, h3', Option.some_inj] at h3
      subst h3
      rw [h4'] at h4
      simp only [Option.some.injEq, Prod.mk.injEq, and_true] at h4
      obtain ⟨rfl, rfl⟩ := h4
      obtain ⟨q, hq⟩ := hchild i' (Or.inr (by rw [hc]; simp [PosState.rule?]))
      have f1 := hpush hs
      have f2 := hpush hs'
      rw [hq] at f1 f2
      have := hr _ _ _ f1 f2
      rw [hk ri h5 ri' h5' this, e1]
    | @up r' j' k' c' b' i' j₀ ri' c₀ h1' h3' h4' =>
      obtain ⟨e1, rfl, rfl⟩ := posOf_eq (r := r) (r' := r') hc'
      obtain ⟨k1, k2, k3⟩ := key_eq e1
      rw [k3, h3', Option.some_inj] at h3
      subst h3
      rw [h4'] at h4
      simp at h4
    | @down r' j' k' c' b' i' j₁ ri' c₁ h1' h3' h4' h5' h6' h7' =>
      obtain ⟨e1, rfl, rfl⟩ := posOf_eq (r := r) (r' := ri') hc'
      obtain ⟨k1, k2, k3⟩ := key_eq e1
      rw [k3, h7', Option.some_inj] at h3
      subst h3
      simp at h4
  | @up r j k c b i j₀ ri c₀ h1 h3 h4 h5 h6 h7 =>
    cases ht' with
    | init => cases hc'
    | @fin r' c' h1' h2' h3' =>
      obtain ⟨e1, rfl, rfl⟩ := posOf_eq (r := r) (r' := r') hc'
      obtain ⟨k1, k2, k3⟩ := key_eq e1
      rw [k3, h3', Option.some_inj] at h3
      subst h3
      simp at h4
    | @push r' j' k' c' b' i' ri' h1' h3' h4' h5' h6' =>
      obtain ⟨e1, rfl, rfl⟩ := posOf_eq (r := r) (r' := r') hc'
      obtain ⟨k1, k2, k3⟩ := key_eq e1
      rw [k3, h3', Option.some_inj] at h3
      subst h3
      rw [h4'] at h4
      simp at h4
    | @up r' j' k' c' b' i' j₀' ri' c₀' h1' h3' h4' h5' h6' h7' =>
      obtain ⟨e1, rfl, rfl⟩ := posOf_eq (r := r) (r' := r') hc'
      obtain ⟨k1, k2, k3⟩ := key_eq e1
      rw [k3, h3', Option.some_inj] at h3
      subst h3
      rw [h4'] at h4
      simp only [Option.some.injEq, Prod.mk.injEq] at h4
      obtain ⟨rfl, rfl, h4⟩ := h4
      obtain ⟨F, f1⟩ := hup hs
      obtain ⟨F', f2⟩ := hup hs'
      rw [f1] at f2
      simp only [Option.some.injEq, Prod.mk.injEq, PosState.position.injEq] at f2
      obtain ⟨⟨f3, f4, f5⟩, _⟩ := f2
      rw [e1, f3, f4, f5]
    | @down r' j' k' c' b' i' j₁ ri' c₁ h1' h3' h4' h5' h6' h7' =>
      obtain ⟨e1, rfl, rfl⟩ := posOf_eq (r := r) (r' := ri') hc'
      obtain ⟨k1, k2, k3⟩ := key_eq e1
      rw [k3, h7', Option.some_inj] at h3
      subst h3
      simp at h4
  | @down r j k c b i j₁ ri c₁ h1 h3 h4 h5 h6 h7 =>
    cases ht' with
    | init => cases hc'
    | fin =>
      have e1 := hdown hs
      have e2 := hdown hs'
      rw [e1] at e2
      cases e2
    | @push r' j' k' c' b' i' ri' h1' h3' h4' h5' h6' =>
      obtain ⟨e1, rfl, rfl⟩ := posOf_eq (r := ri) (r' := r') hc'
      obtain ⟨k1, k2, k3⟩ := key_eq e1
      rw [k3, h3', Option.some_inj] at h7
      subst h7
      simp at h4'
    | @up r' j' k' c' b' i' j₀' ri' c₀' h1' h3' h4' h5' h6' h7' =>
      obtain ⟨e1, rfl, rfl⟩ := posOf_eq (r := ri) (r' := r') hc'
      obtain ⟨k1, k2, k3⟩ := key_eq e1
      rw [k3, h3', Option.some_inj] at h7
      subst h7
      simp at h4'
    | @down r' j' k' c' b' i' j₁' ri' c₁' h1' h3' h4' h5' h6' h7' =>
      obtain ⟨e1, rfl, e2⟩ := posOf_eq (r := ri) (r' := ri') hc'
      obtain ⟨k1, k2, k3⟩ := key_eq e1
      rw [k3, h7', Option.some_inj] at h7
      subst h7
      have f1 := hdown hs
      have f2 := hdown hs'
      rw [f1] at f2
      simp only [Option.some.injEq, PosState.position.injEq] at f2
      obtain ⟨f3, f4, f5⟩ := f2
      rw [e1, f3, f4, f5]

/-- The run is determined by the rules of the resulting tree stack. -/
theorem run_unique {g : PMCFG N T W} (hk : ∀ r ∈ g.rules, ∀ r' ∈ g.rules, r.key = r'.key → r = r') {ts ts' : List (TsaTransition N T W)} (hts : ∀ t ∈ ts, IsTrans g t)
    (hts' : ∀ t ∈ ts', IsTrans g t) {s F F' : TreeStack (TsaSymbol N T)} (hw : s.Wf) (hi : Rooted s) (hF : F ∈ storages TsInstr.apply (ts.map Transition.instruction) s)
    (hF' : F' ∈ storages TsInstr.apply (ts'.map Transition.instruction) s) (hv : F.value = .designated) (hv' : F'.value = .designated)
    (hr : ∀ p, ruleAt F (0 :: p) = ruleAt F' (0 :: p)) : ts = ts' := by
  have hend : ∀ {t : TsaTransition N T W} {s s₁ : TreeStack (TsaSymbol N T)}, IsTrans g t → s.value = .designated → s₁ ∉ t.instruction.apply s := by
    intro t s s₁ ht hd h
    cases ht <;> simp [TsInstr.apply, TreeStack.currentSymbol, hd] at h
  induction ts generalizing s ts' with
  | nil =>
    simp only [List.map_nil, storages, List.mem_singleton] at hF
    subst hF
    cases ts' with
    | nil => rfl
    | cons t' ts' =>
      simp only [List.map_cons, storages, List.mem_flatMap] at hF'
      obtain ⟨s₁, h1, _⟩ := hF'
      exact absurd h1 (hend (hts' t' (by simp)) hv)
  | cons t ts ih =>
    simp only [List.map_cons, storages, List.mem_flatMap] at hF
    obtain ⟨s₁, h1, h2⟩ := hF
    cases ts' with
    | nil =>
      simp only [List.map_nil, storages, List.mem_singleton] at hF'
      subst hF'
      exact absurd h1 (hend (hts t (by simp)) hv')
    | cons t' ts' =>
      simp only [List.map_cons, storages, List.mem_flatMap] at hF'
      obtain ⟨s₁', h1', h2'⟩ := hF'
      have hts₂ : ∀ t ∈ ts, IsTrans g t := fun t ht => hts t (by simp [ht])
      have hts₂' : ∀ t ∈ ts', IsTrans g t := fun t ht => hts' t (by simp [ht])
      obtain rfl : t = t' := by
        refine step_unique hk (hts t (by simp)) (hts' t' (by simp)) hw hi h1 h1' fun p x x' hx hx' => ?_
        have e1 := ruleAt_run hts₂ (TSA.wf_apply hw h1) h2 hx
        have e2 := ruleAt_run hts₂' (TSA.wf_apply hw h1') h2' hx'
        rw [hr, e2, Option.some_inj] at e1
        exact e1.symm
      obtain rfl : s₁ = s₁' := by
        have := TsInstr.apply_length t.instruction s
        match h : t.instruction.apply s, this with
        | [], _ => rw [h] at h1; simp at h1
        | [s₂], _ =>
          rw [h, List.mem_singleton] at h1 h1'
          rw [h1, h1']
      rw [ih hts₂ hts₂' (TSA.wf_apply hw h1) (rooted_step (hts t (by simp)) hi h1) h2 h2']

/-- A non-empty accepting run stores a derivation in the tree stack. -/
theorem accepting_stores {g : PMCFG N T W} {ts : List (TsaTransition N T W)} (hts : tsaTransitions g = some ts) (ho : Ordered g.rules)
    (hs : ∀ r ∈ g.rules, ShortTrails r.composition) (hne : ∀ r ∈ g.rules, r.composition ≠ [])
    (hinit : ∀ r ∈ g.rules, r.head ∈ g.initial → r.composition.length = 1) {w : List T} {run : List (TsaTransition N T W)}
    {s : TreeStack (TsaSymbol N T)} {u : W} (h : (TSA.device ts (TreeStack.new .initial)).Accepting w run s u) (hr : run ≠ []) :
    (∀ t ∈ run, IsTrans g t) ∧ s ∈ storages TsInstr.apply (run.map Transition.instruction) (TreeStack.new .initial) ∧
      ∃ S ∈ g.initial, ∃ d, Derives g.rules S d [w] ∧ d.weight = u ∧ Stores s d := by
  obtain ⟨⟨h1, h2⟩, h3⟩ := h
  rw [exec_iff] at h1
  obtain ⟨h4, h5, h6⟩ := h1
  simp only [List.append_nil, one_mul] at h4 h6
  simp only [TSA.device, TreeStack.isAtBottom, List.isEmpty_iff] at h2 h3 h5
  obtain ⟨m1, m2⟩ := tsaTransitions_mem hts ho hs
  have hall : ∀ t ∈ run, IsTrans g t := fun t ht => (m1 t).1 (h2 t ht)
  have hruns : Runs g (TreeStack.new .initial) w u s := ⟨run, hall, h5, h4.symm, h6.symm⟩
  refine ⟨hall, h5, ?_⟩
  rcases tsa_sound ho hinit (fun r hr => (m2 r hr).1) (fun r hr => (m2 r hr).2) hne hruns h3 with h7 | h7
  · exfalso
    rcases List.eq_nil_or_concat run with h8 | ⟨run', t, rfl⟩
    · exact hr h8
    · rw [List.concat_eq_append, List.map_append, storages_append, List.mem_flatMap] at h5
      obtain ⟨s₁, _, h8⟩ := h5
      simp only [List.map_cons, List.map_nil, storages, List.flatMap_singleton'] at h8
      rw [h7.1] at h8
      exact isTrans_not_initial ((m1 t).1 (h2 t (by simp))) h8
  · exact h7

omit [CommMonoid W] [DecidableEq N] [DecidableEq T] in
theorem Stores.ruleAt {s : TreeStack (TsaSymbol N T)} {d : DTree (PMCFGRule N T W)} (h : Stores s d) (p : List Nat) :
    Rustomata.ruleAt s (0 :: p) = (d.at? p).map PMCFGRule.key := by
  obtain ⟨h1, h2, h3⟩ := h
  have hget := TreeStack.view_below (t := s) (by intro f hf; rw [h1] at hf; simp at hf) (0 :: p)
  have hp : (view s).pointer = [] := by
    rw [TreeStack.pointer_eq, h1]; rfl
  rw [hp, List.nil_append] at hget
  unfold Rustomata.ruleAt
  rw [hget]
  have := h3 p
  cases hn : nodeAt s.value s.children (0 :: p) with
  | none =>
    rw [hn, Option.map_none] at this
    rw [Option.map_eq_none_iff.1 this.symm]; rfl
  | some v =>
    rw [hn, Option.map_some] at this
    obtain ⟨r, hr, hr'⟩ := Option.map_eq_some_iff.1 this.symm
    rw [hr]
    simp [← hr']

/-- Accepting runs with the same abstract syntax tree are equal. -/
theorem accepting_unique {g : PMCFG N T W} {ts : List (TsaTransition N T W)} (hts : tsaTransitions g = some ts) (ho : Ordered g.rules)
    (hs : ∀ r ∈ g.rules, ShortTrails r.composition) (hne : ∀ r ∈ g.rules, r.composition ≠ [])
    (hinit : ∀ r ∈ g.rules, r.head ∈ g.initial → r.composition.length = 1) (hk : (g.rules.map PMCFGRule.key).Nodup) {w w' : List T}
    {run run' : List (TsaTransition N T W)} {s s' : TreeStack (TsaSymbol N T)} {u u' : W}
    (h : (TSA.device ts (TreeStack.new .initial)).Accepting w run s u) (hr : run ≠ [])
    (h' : (TSA.device ts (TreeStack.new .initial)).Accepting w' run' s' u') (hr' : run' ≠ [])
    (he : ∀ m m', toAbstractSyntaxTree s.toTree.1 = some m → toAbstractSyntaxTree s'.toTree.1 = some m' → ∀ p, m.get p = m'.get p) : run = run' := by
  obtain ⟨a1, a2, _, _, d, _, _, a3⟩ := accepting_stores hts ho hs hne hinit h hr
  obtain ⟨b1, b2, _, _, d', _, _, b3⟩ := accepting_stores hts ho hs hne hinit h' hr'
  obtain ⟨m, m1, m2⟩ := a3.ast
  obtain ⟨m', m1', m2'⟩ := b3.ast
  refine run_unique (fun r h1 r' h2 h3 => List.inj_on_of_nodup_map hk h1 h2 h3) a1 b1 (by intro f hf; simp [TreeStack.new] at hf) ⟨fun _ => rfl, ?_⟩ a2 b2
    a3.2.1 b3.2.1 fun p => ?_
  · intro f hf
    simp [TreeStack.new] at hf
  · rw [a3.ruleAt, b3.ruleAt, ← m2, ← m2', he m m' m1 m1']

end

end Rustomata
