import Verif.Proofs.ParseText
import Verif.Props.VisitsEnd

/-!
# Helper lemmas: what the parses of the automaton of a PMCFG show
-/

set_option linter.unusedSectionVars false
set_option linter.unusedSimpArgs false

namespace Rustomata
open Spec Rustomata.Props
variable {A N T W : Type _}

/-- An instruction only writes at the new position of the pointer. -/
theorem apply_label [DecidableEq A] {i : TsInstr A} {s s' : TreeStack A} (hw : s.Wf) (hs : s' ∈ i.apply s) (q : List Nat) (hq : q ≠ (view s').pointer) :
    (view s').label q = (view s).label q := by
  cases i with
  | push n c a =>
    simp only [TsInstr.apply] at hs
    split at hs
    · split at hs
      · rename_i s₁ h1
        rw [List.mem_singleton] at hs
        subst hs
        rw [TreeStack.view_push hw h1] at hq ⊢
        simp only [Marked.move, Marked.write] at hq ⊢
        rw [if_neg hq]
      · simp at hs
    · simp at hs
  | up n c o a =>
    simp only [TsInstr.apply] at hs
    split at hs
    · split at hs
      · rename_i s₁ h1
        split at hs
        · rw [List.mem_singleton] at hs
          subst hs
          have hp : (view (s₁.set a)).pointer = (view s₁).pointer := rfl
          rw [hp] at hq
          rw [TreeStack.view_set (TreeStack.wf_up hw h1)]
          simp only [Marked.write]
          rw [if_neg hq, TreeStack.view_up hw h1]
          rfl
        · simp at hs
      · simp at hs
    · simp at hs
  | down c o a =>
    simp only [TsInstr.apply] at hs
    split at hs
    · split at hs
      · rename_i s₁ h1
        split at hs
        · rw [List.mem_singleton] at hs
          subst hs
          have hp : (view (s₁.set a)).pointer = (view s₁).pointer := rfl
          rw [hp] at hq
          rw [TreeStack.view_set (TreeStack.wf_down hw h1)]
          simp only [Marked.write]
          obtain ⟨_, _, _, hv⟩ := TreeStack.view_down hw h1
          rw [if_neg hq, hv]
          rfl
        · simp at hs
      · simp at hs
    · simp at hs

section
variable [CommMonoid W] [DecidableEq N] [DecidableEq T]

/-- Only the first child of the root has labels. -/
theorem visit_first_child {g : PMCFG N T W} {ts : List (TsaTransition N T W)} (hts : ∀ t ∈ ts, IsStep g t) {s s' : TreeStack (TsaSymbol N T)} (hw : s.Wf) (hr : Rooted s)
    (hs : s' ∈ storages TsInstr.apply (ts.map Transition.instruction) s) (h : ∀ i p, (view s).label (i :: p) ≠ none → i = 0) :
    ∀ i p, (view s').label (i :: p) ≠ none → i = 0 := by
  induction ts generalizing s with
  | nil =>
    simp only [List.map_nil, storages, List.mem_singleton] at hs
    subst hs
    exact h
  | cons t ts ih =>
    simp only [List.map_cons, storages, List.mem_flatMap] at hs
    obtain ⟨s₁, h1, h2⟩ := hs
    have hr₁ := visit_rooted_step (hts t (by simp)) hr h1
    refine ih (fun t ht => hts t (by simp [ht])) (TSA.wf_apply hw h1) hr₁ h2 fun i p hne => ?_
    by_cases hq : i :: p = (view s₁).pointer
    · by_cases hp : s₁.parents = []
      · rw [TreeStack.pointer_eq, hp] at hq
        simp [TreeStack.parentsToTree] at hq
      · obtain ⟨q, hq'⟩ := hr₁.pointer hp
        rw [hq'] at hq
        simp only [List.cons.injEq] at hq
        exact hq.1
    · rw [apply_label hw h1 _ hq] at hne
      exact h i p hne

/-- The positions in a completely visited subtree. -/
theorem SubVisit.positions {rules : List (PMCFGRule N T W)} {x : TsaSymbol N T × Forest (TsaSymbol N T)} {r : PMCFGRule N T W} {s : List Nat} {ws : List (List T)} {u : W}
    (h : SubVisit rules x r s ws u) : ∀ p v, nodeAt x.1 x.2 p = some v → ∃ r ∈ rules, ∃ j c, r.composition[j]? = some c ∧ v = posOf r j (varsOf [c]).length := by
  induction h with
  | @mk r s m V c args us xs rs F ws hr _ _ _ hc _ _ hnone hsome _ ih =>
    intro p v hv
    cases p with
    | nil =>
      simp only [nodeAt, Option.some.injEq] at hv
      have h1 := cutTrails_segs r.composition m
      rw [hc, Option.map_some] at h1
      obtain ⟨c', h2, h3⟩ := Option.map_eq_some_iff.1 h1.symm
      refine ⟨r, hr, m, c', h2, ?_⟩
      rw [← hv, ← h3, ← segs_vars c' [], List.length_map]
    | cons i p =>
      rw [nodeAt] at hv
      by_cases ha : args i = []
      · rw [(hnone i ha).1] at hv
        cases hv
      · rw [(hsome i ha).1] at hv
        exact ih i ha p v hv

/-- The tree stacks of a parse, up to what is not determined by the labels. -/
def StoresShown (s : TreeStack (TsaSymbol N T)) : Option (List Nat → Option (PMCFGRule N T W)) → Prop
  | none => s = TreeStack.new .initial
  | some labels => StoresLabels s labels

/-- What is stored for a parse: the initial symbol, or the labels of a tree. -/
def Stored (g : PMCFG N T W) (s : TreeStack (TsaSymbol N T)) : Option (List Nat → Option (PMCFGRule N T W)) → Prop
  | none => s = TreeStack.new .initial
  | some labels => StoresLabels s labels ∧ (∀ i p, (view s).label (i :: p) ≠ none → i = 0) ∧
      ∀ p v, (view s).label (0 :: p) = some v → ∃ r ∈ g.rules, ∃ j c, r.composition[j]? = some c ∧ v = posOf r j (varsOf [c]).length

theorem storesLabels_view {s : TreeStack (TsaSymbol N T)} (hp : s.parents = []) (p : List Nat) : (view s).label p = nodeAt s.value s.children p := by
  have h := TreeStack.view_below (t := s) (by intro f hf; rw [hp] at hf; simp at hf) p
  rw [TreeStack.pointer_eq, hp] at h
  exact h

theorem visit_positions {g : PMCFG N T W} (hwf : WellFormed g.rules) (hne : ∀ r ∈ g.rules, r.head ∈ g.initial → r.composition ≠ [])
    {s : TreeStack (TsaSymbol N T)} {w : List T} {u : W} (h : Steps g (TreeStack.new .initial) w u s) (hb : s.parents = []) :
    ∀ p v, nodeAt s.value s.children (0 :: p) = some v → ∃ r ∈ g.rules, ∃ j c, r.composition[j]? = some c ∧ v = posOf r j (varsOf [c]).length := by
  obtain ⟨ts, h1, h2, rfl, rfl⟩ := h
  have := Steps.inv hwf hne h1 TsaVisit.start h2
  rw [List.nil_append, one_mul] at this
  generalize wordOf ts = w at this
  generalize weightOf ts = u at this
  cases this with
  | start => intro p v hv; simp [TreeStack.new, nodeAt, Forest.slot] at hv
  | mid hr hat hk hf =>
    simp only at hb
    subst hb
    generalize _ ++ [_] = sv at hf
    cases hf
  | @final r F x _ _ hr hh hsl hsub =>
    intro p v hv
    rw [nodeAt, hsl] at hv
    exact hsub.positions p v hv

/-- Each accepting run shows something. -/
theorem accepting_shown {g : PMCFG N T W} {ts : List (TsaTransition N T W)} (hts : tsaTransitions g = some ts) {w : List T} {run : List (TsaTransition N T W)}
    {s : TreeStack (TsaSymbol N T)} {u : W} (h : (TSA.device ts (TreeStack.new .initial)).Accepting w run s u) :
    ∃ o, ShownParse g w (o, u) ∧ Stored g s o ∧ (o = none ↔ run = []) := by
  by_cases hr : run = []
  · subst hr
    obtain ⟨⟨h1, _⟩, _⟩ := h
    rw [exec_iff] at h1
    obtain ⟨h4, h5, h6⟩ := h1
    simp only [List.map_nil, storages, List.mem_singleton] at h5
    refine ⟨none, ⟨?_, ?_⟩, h5, by simp⟩
    · simpa [wordOf] using h4
    · simpa [weightOf_eq] using h6
  · obtain ⟨h1, h2, S, hS, labels, h3, h4⟩ := visit_accepting_stores hts h hr
    obtain ⟨⟨h5, _⟩, h6⟩ := h
    rw [exec_iff] at h5
    obtain ⟨m2, _, m3⟩ := (tsaTransitions_some g).1 ⟨ts, hts⟩
    refine ⟨some labels, ⟨S, hS, h3⟩, ⟨h4, ?_, ?_⟩, by simp [hr]⟩
    · refine visit_first_child h1 (s := TreeStack.new .initial) (by intro f hf; simp [TreeStack.new] at hf) ⟨fun _ => rfl, ?_⟩ h2 ?_
      · intro f hf; simp [TreeStack.new] at hf
      · intro i p hne
        rw [storesLabels_view rfl] at hne
        simp [TreeStack.new, nodeAt, Forest.slot] at hne
    · intro p v hv
      rw [storesLabels_view h4.1] at hv
      exact visit_positions m3 m2 ⟨run, h1, h2, rfl, rfl⟩ h4.1 p v hv

/-- What can be shown is shown by an accepting run. -/
theorem shown_accepting {g : PMCFG N T W} {ts : List (TsaTransition N T W)} (hts : tsaTransitions g = some ts) {w : List T}
    {x : Option (List Nat → Option (PMCFGRule N T W)) × W} (h : ShownParse g w x) :
    ∃ run s, (TSA.device ts (TreeStack.new .initial)).Accepting w run s x.2 ∧ StoresShown s x.1 := by
  obtain ⟨o, u⟩ := x
  cases o with
  | none =>
    obtain ⟨rfl, rfl⟩ := h
    exact ⟨[], _, ⟨⟨.nil _, by simp⟩, rfl⟩, rfl⟩
  | some labels =>
    obtain ⟨S, hS, hd⟩ := h
    have m1 := tsaTransitions_step hts
    obtain ⟨s, ⟨run, r1, r2, r3, r4⟩, hst⟩ := visit_complete hS hd
    refine ⟨run, s, ⟨⟨?_, fun t ht => (m1 t).2 (r1 t ht)⟩, ?_⟩, hst⟩
    · rw [exec_iff]
      exact ⟨by simp [r3], r2, by simp [r4]⟩
    · simp only [TSA.device, TreeStack.isAtBottom, hst.1, List.isEmpty_nil]

theorem storesLabels_unique {g : PMCFG N T W} {ts : List (TsaTransition N T W)} (hts : tsaTransitions g = some ts) (hk : (g.rules.map PMCFGRule.key).Nodup)
    {w w' : List T} {u u' : W} {s : TreeStack (TsaSymbol N T)} {o o' : Option (List Nat → Option (PMCFGRule N T W))} (h : ShownParse g w (o, u)) (h' : ShownParse g w' (o', u'))
    (hs : StoresShown s o) (hs' : StoresShown s o') : o = o' := by
  cases o with
  | none =>
    cases o' with
    | none => rfl
    | some labels =>
      simp only [StoresShown] at hs hs'
      subst hs
      exact absurd hs'.2.1 (by simp [TreeStack.new])
  | some labels =>
    cases o' with
    | none =>
      simp only [StoresShown] at hs hs'
      subst hs'
      exact absurd hs.2.1 (by simp [TreeStack.new])
    | some labels' =>
      simp only [StoresShown] at hs hs'
      obtain ⟨S, hS, h⟩ := h
      obtain ⟨S', hS', h'⟩ := h'
      rw [(C78_labels g ts hts hk hS hS' h h' fun p => ?_).1]
      have h1 := hs.2.2 p
      have h2 := hs'.2.2 p
      rw [h1] at h2
      cases hl : labels p <;> cases hl' : labels' p <;> rw [hl, hl'] at h2 <;> simp at h2 ⊢
      exact h2

/-- A non-empty run and the labels. -/
theorem Stored.labels {g : PMCFG N T W} {s : TreeStack (TsaSymbol N T)} {o : Option (List Nat → Option (PMCFGRule N T W))} (h : Stored g s o) : StoresShown s o := by
  cases o with
  | none => exact h
  | some labels => exact h.1

/-- The abstract syntax tree of what is stored. -/
theorem Stored.ast {g : PMCFG N T W} {s : TreeStack (TsaSymbol N T)} {o : Option (List Nat → Option (PMCFGRule N T W))} (h : Stored g s o) :
    ∃ m, toAbstractSyntaxTree s.toTree.1 = some m := by
  cases o with
  | none =>
    simp only [Stored] at h
    subst h
    exact ⟨[], rfl⟩
  | some labels =>
    obtain ⟨m, hm, _⟩ := h.1.ast
    exact ⟨m, hm⟩

/-- The drawing of what is stored. -/
theorem Stored.drawing {g : PMCFG N T W} {s : TreeStack (TsaSymbol N T)} {o : Option (List Nat → Option (PMCFGRule N T W))} (h : Stored g s o)
    (rule : PMCFGRule N T Unit → List Nat) : ShownDrawing (fun r => rule r.key) o (s.text (PosState.text rule)) := by
  cases o with
  | none =>
    simp only [Stored] at h
    subst h
    rfl
  | some labels =>
    obtain ⟨⟨h1, h2, h3⟩, h4, h5⟩ := h
    have hp : (view s).pointer = [] := by rw [TreeStack.pointer_eq, h1]; rfl
    refine ⟨fun p => ((view s).label p).map (PosState.text rule), hp ▸ treeStack_drawing _ s, ?_, fun i p hne => h4 i p fun he => hne (by simp only [he, Option.map_none]), fun p => ?_⟩
    · simp only
      rw [storesLabels_view h1, nodeAt, h2]
      rfl
    · have h6 := h3 p
      rw [← storesLabels_view h1] at h6
      cases hl : labels p with
      | none =>
        rw [hl, Option.map_none, Option.map_eq_none_iff] at h6
        simp only [h6, Option.map_none]
      | some r =>
        rw [hl, Option.map_some] at h6
        obtain ⟨v, hv, hv'⟩ := Option.map_eq_some_iff.1 h6
        obtain ⟨r', hr', j, c, hc, rfl⟩ := h5 p v hv
        have hkey : r'.key = r.key := by simpa [posOf, PosState.rule?] using hv'
        have hcomp : r'.composition = r.composition := (congrArg PMCFGRule.composition hkey : r'.key.composition = r.key.composition)
        refine ⟨j, c, hcomp ▸ hc, ?_⟩
        simp only [hv, Option.map_some, posOf, PosState.text, hkey]

omit [DecidableEq N] [DecidableEq T] in
/-- The labels are a tree. -/
theorem Spec.Visited.treeLike {cut : Composition T → Composition T} {rules : List (PMCFGRule N T W)} {A : N} {s : List Nat} {labels : List Nat → Option (PMCFGRule N T W)}
    {ws : List (List T)} {u : W} (h : Visited cut rules A s labels ws u) : TreeLike labels := by
  induction h with
  | @node r s vc A labels args us ws hr _ _ _ _ _ ih =>
    refine ⟨by simp [visitLabels], fun p i hp => ?_⟩
    cases p with
    | nil => simp [visitLabels]
    | cons i' p =>
      simp only [List.cons_append, visitLabels] at hp ⊢
      split
      · rename_i hv
        rw [if_pos hv] at hp
        exact hp
      · rename_i hv
        rw [if_neg hv] at hp
        exact (ih i' hv).2 p i hp

end

end Rustomata
