import Verif.Proofs.CfgEnds
import Verif.Spec.CfgMerge
import Verif.Spec.Integerise
import Mathlib.Data.List.Dedup

/-!
# Helper lemmas: the automaton of a grammar in which rules occur several times
-/

set_option linter.unusedSectionVars false

namespace Rustomata
open Spec

variable {N T W : Type _} [DecidableEq N] [DecidableEq T]

/-- Each grammar can be merged. -/
theorem exists_mergedCfg [AddMonoid W] (G : CFG N T W) : ∃ G', MergedCfg G G' := by
  let f : N × List (LetterT N T) → CFGRule N T W := fun k => ⟨k.1, k.2, ruleTotal G k.1 k.2⟩
  refine ⟨⟨G.initial.dedup, ((G.rules.map fun r => (r.head, r.composition)).dedup).map f⟩, G.initial.nodup_dedup, fun S => List.mem_dedup, ?_, ?_⟩
  · rw [List.map_map, show ((fun r : CFGRule N T W => (r.head, r.composition)) ∘ f) = id from rfl, List.map_id]
    exact List.nodup_dedup _
  · intro r
    simp only [List.mem_map, List.mem_dedup]
    constructor
    · rintro ⟨k, ⟨r', hr', rfl⟩, rfl⟩
      exact ⟨⟨r', hr', rfl, rfl⟩, rfl⟩
    · rintro ⟨⟨r', hr', h1, h2⟩, h3⟩
      obtain ⟨h, c, v⟩ := r
      simp only at h1 h2 h3
      subst h1 h2 h3
      exact ⟨_, ⟨r', hr', rfl⟩, rfl⟩

theorem ruleTotal_of_nodup [AddMonoid W] {G : CFG N T W} (h : (G.rules.map fun r => (r.head, r.composition)).Nodup) {r : CFGRule N T W} (hr : r ∈ G.rules) :
    ruleTotal G r.head r.composition = r.weight := by
  have : (G.rules.filter fun r' => r'.head = r.head ∧ r'.composition = r.composition) = [r] := by
    generalize G.rules = l at h hr
    induction l with
    | nil => simp at hr
    | cons a l ih =>
      rw [List.map_cons, List.nodup_cons] at h
      rcases List.mem_cons.1 hr with rfl | hr
      · rw [List.filter_cons_of_pos (by simp)]
        congr 1
        rw [List.filter_eq_nil_iff]
        intro x hx hxr
        simp only [decide_eq_true_eq] at hxr
        exact h.1 (List.mem_map.2 ⟨x, hx, by rw [hxr.1, hxr.2]⟩)
      · rw [List.filter_cons_of_neg, ih h.2 hr]
        intro har
        simp only [decide_eq_true_eq] at har
        exact h.1 (List.mem_map.2 ⟨r, hr, by rw [har.1, har.2]⟩)
  unfold ruleTotal
  rw [this]
  simp

/-- A grammar without repetitions is merged. -/
theorem mergedCfg_self [AddMonoid W] {G : CFG N T W} (h : (G.rules.map fun r => (r.head, r.composition)).Nodup) (hi : G.initial.Nodup) : MergedCfg G G where
  initial_nodup := hi
  initial_mem _ := Iff.rfl
  nodup := h
  mem r := by
    constructor
    · intro hr
      exact ⟨⟨r, hr, rfl, rfl⟩, (ruleTotal_of_nodup h hr).symm⟩
    · rintro ⟨⟨r', hr', h1, h2⟩, h3⟩
      obtain ⟨x, c, v⟩ := r
      simp only at h1 h2 h3
      subst h1 h2
      rw [ruleTotal_of_nodup h hr'] at h3
      rw [h3]
      exact hr'

theorem startTotal_of_nodup [One W] [AddMonoid W] {G : CFG N T W} (h : G.initial.Nodup) {S : N} (hS : S ∈ G.initial) : (startTotal G S : W) = 1 := by
  unfold startTotal
  have : (G.initial.filter fun S' => S' = S) = [S] := by
    generalize G.initial = l at h hS
    induction l with
    | nil => simp at hS
    | cons a l ih =>
      rw [List.nodup_cons] at h
      rcases List.mem_cons.1 hS with rfl | hS
      · rw [List.filter_cons_of_pos (by simp)]
        congr 1
        rw [List.filter_eq_nil_iff]
        intro x hx hxr
        simp only [decide_eq_true_eq] at hxr
        exact h.1 (hxr ▸ hx)
      · rw [List.filter_cons_of_neg, ih h.2 hS]
        intro har
        simp only [decide_eq_true_eq] at har
        exact h.1 (har ▸ hS)
  rw [this]
  simp

namespace CFG

/-- The transition for an initial nonterminal that occurs several times. -/
def startTransition [One W] [AddMonoid W] (G : CFG N T W) (S : N) : Transition (PdInstr (PushState N T)) T W := ⟨[], startTotal G S, ⟨[.initial], [.nt S]⟩⟩

theorem weightsOf_append {I : Type _} [DecidableEq I] (l l' : List (Transition I T W)) (w : List T) (i : I) : weightsOf (l ++ l') w i = weightsOf l w i ++ weightsOf l' w i := by
  unfold weightsOf; rw [List.filterMap_append]

theorem weightsOf_none {I : Type _} [DecidableEq I] {l : List (Transition I T W)} {w : List T} {i : I} (h : ∀ t ∈ l, ¬ (t.word = w ∧ t.instruction = i)) : weightsOf l w i = [] := by
  unfold weightsOf
  rw [List.filterMap_eq_nil_iff]
  intro t ht
  rw [if_neg (h t ht)]

theorem weightsOf_rule [Monoid W] (G : CFG N T W) (A : N) (γ : List (LetterT N T)) :
    weightsOf G.pdaTransitions [] (⟨[.nt A], pushString γ⟩ : PdInstr (PushState N T)) = (G.rules.filter fun r => r.head = A ∧ r.composition = γ).map CFGRule.weight := by
  unfold pdaTransitions
  rw [weightsOf_append, weightsOf_append, weightsOf_none (l := G.terminals.map readTransition), weightsOf_none (l := G.initial.map initialTransition), List.append_nil, List.append_nil]
  · unfold weightsOf
    induction G.rules with
    | nil => rfl
    | cons r l ih =>
      have hiff : ((ruleTransition r : Transition (PdInstr (PushState N T)) T W).word = [] ∧ (ruleTransition r : Transition (PdInstr (PushState N T)) T W).instruction =
          (⟨[.nt A], pushString γ⟩ : PdInstr (PushState N T))) ↔ r.head = A ∧ r.composition = γ := by
        simp [ruleTransition, pushString_injective.eq_iff]
      rw [List.map_cons, List.filterMap_cons]
      by_cases h : r.head = A ∧ r.composition = γ
      · rw [if_pos (hiff.2 h), List.filter_cons_of_pos (by simpa using h), List.map_cons, ih]
        rfl
      · rw [if_neg (fun h' => h (hiff.1 h')), List.filter_cons_of_neg (by simpa using h), ih]
  · rintro t ht ⟨_, h⟩
    obtain ⟨r, _, rfl⟩ := List.mem_map.1 ht
    simp [initialTransition] at h
  · rintro t ht ⟨h, _⟩
    obtain ⟨r, _, rfl⟩ := List.mem_map.1 ht
    simp [readTransition] at h

theorem weightsOf_read [Monoid W] (G : CFG N T W) {x : T} (hx : x ∈ G.terminals) :
    weightsOf G.pdaTransitions [x] (⟨[.t x], []⟩ : PdInstr (PushState N T)) = [1] := by
  unfold pdaTransitions
  rw [weightsOf_append, weightsOf_append, weightsOf_none (l := G.rules.map ruleTransition), weightsOf_none (l := G.initial.map initialTransition), List.append_nil, List.nil_append]
  · have hnd := nodup_terminals G
    unfold weightsOf
    generalize G.terminals = l at hx hnd
    induction l with
    | nil => simp at hx
    | cons y l ih =>
      rw [List.nodup_cons] at hnd
      rw [List.map_cons, List.filterMap_cons]
      rcases List.mem_cons.1 hx with rfl | hx
      · rw [if_pos (by simp [readTransition])]
        simp only
        rw [List.filterMap_eq_nil_iff.2]
        · rfl
        · intro t ht
          obtain ⟨z, hz, rfl⟩ := List.mem_map.1 ht
          rw [if_neg]
          rintro ⟨h, _⟩
          simp only [readTransition, List.cons.injEq, and_true] at h
          exact hnd.1 (h ▸ hz)
      · rw [if_neg (by
          rintro ⟨h, _⟩
          simp only [readTransition, List.cons.injEq, and_true] at h
          exact hnd.1 (h ▸ hx)), ih hx hnd.2]
  · rintro t ht ⟨h, _⟩
    obtain ⟨r, _, rfl⟩ := List.mem_map.1 ht
    simp [initialTransition] at h
  · rintro t ht ⟨h, _⟩
    obtain ⟨r, _, rfl⟩ := List.mem_map.1 ht
    simp [ruleTransition] at h

theorem weightsOf_initial [Monoid W] (G : CFG N T W) (S : N) :
    weightsOf G.pdaTransitions [] (⟨[.initial], [.nt S]⟩ : PdInstr (PushState N T)) = (G.initial.filter fun S' => S' = S).map fun _ => (1 : W) := by
  unfold pdaTransitions
  rw [weightsOf_append, weightsOf_append, weightsOf_none (l := G.rules.map ruleTransition), weightsOf_none (l := G.terminals.map readTransition), List.nil_append, List.nil_append]
  · unfold weightsOf
    induction G.initial with
    | nil => rfl
    | cons r l ih =>
      rw [List.map_cons, List.filterMap_cons]
      by_cases h : r = S
      · rw [if_pos (by simp [initialTransition, h]), List.filter_cons_of_pos (by simpa using h), List.map_cons, ih]
        rfl
      · rw [if_neg (by simp [initialTransition, h]), List.filter_cons_of_neg (by simpa using h), ih]
  · rintro t ht ⟨h, _⟩
    obtain ⟨r, _, rfl⟩ := List.mem_map.1 ht
    simp [readTransition] at h
  · rintro t ht ⟨_, h⟩
    obtain ⟨r, _, rfl⟩ := List.mem_map.1 ht
    simp [ruleTransition] at h

theorem merged_terminals [AddMonoid W] {G G' : CFG N T W} (hM : MergedCfg G G') {x : T} : x ∈ G'.terminals ↔ x ∈ G.terminals := by
  rw [mem_terminals, mem_terminals]
  constructor
  · rintro ⟨r, hr, hx⟩
    obtain ⟨⟨r', hr', _, h⟩, _⟩ := (hM.mem r).1 hr
    exact ⟨r', hr', by rw [h]; exact hx⟩
  · rintro ⟨r, hr, hx⟩
    exact ⟨⟨r.head, r.composition, ruleTotal G r.head r.composition⟩, (hM.mem _).2 ⟨⟨r, hr, rfl, rfl⟩, rfl⟩, hx⟩

/-- The transitions of the automaton, for all grammars. -/
theorem transitions_merged [Monoid W] [AddMonoid W] {G G' : CFG N T W} (hM : MergedCfg G G')
    {L : List (Transition (PdInstr (PushState N T)) T W)} (hL : ∀ t, t ∈ L ↔ (∃ t' ∈ G.pdaTransitions, t'.word = t.word ∧ t'.instruction = t.instruction) ∧
      t.weight = (weightsOf G.pdaTransitions t.word t.instruction).sum) (t : Transition (PdInstr (PushState N T)) T W) :
    t ∈ L ↔ (∃ r ∈ G'.rules, t = ruleTransition r) ∨ (∃ x ∈ G'.terminals, t = readTransition x) ∨ ∃ S ∈ G'.initial, t = startTransition G S := by
  rw [hL]
  obtain ⟨tw, tv, ti⟩ := t
  simp only
  constructor
  · rintro ⟨⟨t', ht', rfl, rfl⟩, rfl⟩
    unfold pdaTransitions at ht'
    rw [List.mem_append, List.mem_append] at ht'
    rcases ht' with (ht | ht) | ht
    · obtain ⟨r, hr, rfl⟩ := List.mem_map.1 ht
      refine .inl ⟨⟨r.head, r.composition, ruleTotal G r.head r.composition⟩, (hM.mem _).2 ⟨⟨r, hr, rfl, rfl⟩, rfl⟩, ?_⟩
      simp only [ruleTransition, weightsOf_rule, ruleTotal]
    · obtain ⟨x, hx, rfl⟩ := List.mem_map.1 ht
      refine .inr (.inl ⟨x, (merged_terminals hM).2 hx, ?_⟩)
      simp only [readTransition, weightsOf_read G hx, List.sum_cons, List.sum_nil, add_zero]
    · obtain ⟨S, hS, rfl⟩ := List.mem_map.1 ht
      refine .inr (.inr ⟨S, (hM.initial_mem S).2 hS, ?_⟩)
      simp only [initialTransition, weightsOf_initial, startTransition, startTotal]
  · rintro (⟨r, hr, h⟩ | ⟨x, hx, h⟩ | ⟨S, hS, h⟩)
    · obtain ⟨⟨r', hr', h1, h2⟩, h3⟩ := (hM.mem r).1 hr
      simp only [ruleTransition, Transition.mk.injEq] at h
      obtain ⟨rfl, rfl, rfl⟩ := h
      refine ⟨⟨ruleTransition r', ?_, rfl, by simp only [ruleTransition, h1, h2]⟩, by rw [weightsOf_rule]; exact h3⟩
      unfold pdaTransitions
      simp only [List.mem_append, List.mem_map]
      exact .inl (.inl ⟨r', hr', rfl⟩)
    · simp only [readTransition, Transition.mk.injEq] at h
      obtain ⟨rfl, rfl, rfl⟩ := h
      have hx' := (merged_terminals hM).1 hx
      refine ⟨⟨readTransition x, ?_, rfl, rfl⟩, by rw [weightsOf_read G hx']; simp⟩
      unfold pdaTransitions
      simp only [List.mem_append, List.mem_map]
      exact .inl (.inr ⟨x, hx', rfl⟩)
    · simp only [startTransition, Transition.mk.injEq] at h
      obtain ⟨rfl, rfl, rfl⟩ := h
      refine ⟨⟨initialTransition S, ?_, rfl, rfl⟩, by rw [weightsOf_initial]; rfl⟩
      unfold pdaTransitions
      simp only [List.mem_append, List.mem_map]
      exact .inr ⟨S, (hM.initial_mem S).1 hS, rfl⟩

/-- After the first step, only rules and terminals are used. -/
theorem exec_merged [Monoid W] [AddMonoid W] {G G' : CFG N T W} {L : List (Transition (PdInstr (PushState N T)) T W)}
    (hL : ∀ t, t ∈ L ↔ (∃ r ∈ G'.rules, t = ruleTransition r) ∨ (∃ x ∈ G'.terminals, t = readTransition x) ∨ ∃ S ∈ G'.initial, t = startTransition G S)
    {us : List (Transition (PdInstr (PushState N T)) T W)} : ∀ {w : List T} {γ : List (LetterT N T)} {u : W} {c : Configuration (PushDown (PushState N T)) T W},
    (∀ t ∈ us, t ∈ L) → Exec PdInstr.apply ⟨w, enc γ, u⟩ us c → ∀ t ∈ us, t ∈ G'.pdaTransitions := by
  induction us with
  | nil => simp
  | cons t us ih =>
    intro w γ u c hus he
    cases he with
    | @cons _ _ c' _ _ hst he =>
      have ht : t ∈ G'.pdaTransitions := by
        unfold pdaTransitions
        simp only [List.mem_append, List.mem_map]
        rcases (hL t).1 (hus t (by simp)) with ⟨r, hr, rfl⟩ | ⟨x, hx, rfl⟩ | ⟨S, hS, rfl⟩
        · exact .inl (.inl ⟨r, hr, rfl⟩)
        · exact .inl (.inr ⟨x, hx, rfl⟩)
        · exfalso
          obtain ⟨x, γ', rfl, hx, _⟩ := single_apply hst.storage (by simp)
          cases x <;> simp [pushState] at hx
      intro x hx
      rcases List.mem_cons.1 hx with rfl | hx
      · exact ht
      · rcases step_enc ht hst with ⟨x, γ', w', _, _, _, rfl⟩ | ⟨r, hr, γ', _, _, rfl⟩
        · exact ih (fun t ht => hus t (by simp [ht])) he _ hx
        · exact ih (fun t ht => hus t (by simp [ht])) he _ hx

/-- The first step of the automaton. -/
theorem first_merged [Monoid W] [AddMonoid W] {G G' : CFG N T W} {L : List (Transition (PdInstr (PushState N T)) T W)}
    (hL : ∀ t, t ∈ L ↔ (∃ r ∈ G'.rules, t = ruleTransition r) ∨ (∃ x ∈ G'.terminals, t = readTransition x) ∨ ∃ S ∈ G'.initial, t = startTransition G S)
    {t : Transition (PdInstr (PushState N T)) T W} (ht : t ∈ L) {w : List T} {u : W}
    {c : Configuration (PushDown (PushState N T)) T W} (hs : Step PdInstr.apply t ⟨w, PushDown.new .designated .initial, u⟩ c) :
    ∃ S ∈ G'.initial, t = startTransition G S ∧ c = ⟨w, enc [.label S], u * startTotal G S⟩ := by
  obtain ⟨cw, cs, cu⟩ := c
  obtain ⟨h1, h2, h3⟩ := hs
  simp only at h1 h2 h3
  obtain ⟨below, h4, h5⟩ := PdInstr.mem_apply.1 h2
  have hb : ∀ a : PushState N T, PushDown.new .designated .initial = below ++ [a] → below = [.designated] ∧ a = .initial := by
    intro a h
    have := List.append_inj' (show [.designated] ++ [.initial] = below ++ [a] from h) rfl
    exact ⟨this.1.symm, by simpa using this.2.symm⟩
  rcases (hL t).1 ht with ⟨r, hr, rfl⟩ | ⟨x, hx, rfl⟩ | ⟨S, hS, rfl⟩
  · cases (hb _ (by simpa [ruleTransition] using h4)).2
  · cases (hb _ (by simpa [readTransition] using h4)).2
  · obtain ⟨rfl, _⟩ := hb _ (by simpa [startTransition] using h4)
    refine ⟨S, hS, rfl, ?_⟩
    rw [h5, h3]
    simp only [startTransition, List.nil_append] at h1 ⊢
    rw [h1]
    rfl

theorem initial_not_runOf [One W] {G : CFG N T W} {γ : List (LetterT N T)} {rs : List (CFGRule N T W)} {w : List T} (h : Leftmost G γ rs w) (S : N) :
    (initialTransition S : Transition (PdInstr (PushState N T)) T W) ∉ runOf γ rs := by
  induction h with
  | nil => simp [runOf]
  | read _ ih =>
    simp only [runOf, List.mem_cons, not_or]
    exact ⟨by simp [initialTransition, readTransition], ih⟩
  | expand _ _ ih =>
    simp only [runOf, List.mem_cons, not_or]
    exact ⟨by simp [initialTransition, ruleTransition], ih⟩

/-- The accepting runs of the automaton, for all grammars. -/
theorem accepting_merged [Monoid W] [AddMonoid W] {G G' : CFG N T W} {L : List (Transition (PdInstr (PushState N T)) T W)}
    (hL : ∀ t, t ∈ L ↔ (∃ r ∈ G'.rules, t = ruleTransition r) ∨ (∃ x ∈ G'.terminals, t = readTransition x) ∨ ∃ S ∈ G'.initial, t = startTransition G S)
    {w : List T} {ts : List (Transition (PdInstr (PushState N T)) T W)} {s u} :
    (PDA.device L (PushDown.new .designated .initial)).Accepting w ts s u ↔
      s = [.designated] ∧ ∃ S ∈ G'.initial, ∃ rs, Leftmost G' [.label S] rs w ∧ ts = startTransition G S :: runOf [.label S] rs ∧ u = startTotal G S * ruleWeight rs := by
  constructor
  · rintro ⟨⟨he, hm⟩, hacc⟩
    simp only [PDA.device, beq_iff_eq] at he hm hacc
    cases he with
    | nil => simp [PushDown.new] at hacc
    | @cons _ t c' ts _ hst he =>
      obtain ⟨S, hS, rfl, rfl⟩ := first_merged hL (hm t (by simp)) hst
      obtain ⟨h8, rs, h9, h10, h11⟩ := exec_leftmost ts _ _ _ _ _ (exec_merged hL (fun t ht => hm t (by simp [ht])) he) he hacc
      exact ⟨h8, S, hS, rs, h9, by rw [h10], by rw [h11, one_mul]⟩
  · rintro ⟨rfl, S, hS, rs, h1, rfl, rfl⟩
    obtain ⟨h2, h3⟩ := leftmost_exec h1 (by simp) (startTotal G S)
    refine ⟨⟨.cons (c' := ⟨w, enc [.label S], startTotal G S⟩) ⟨rfl, ?_, by simp [startTransition, PDA.device]⟩ h2, ?_⟩, rfl⟩
    · simp only [PDA.device]
      rw [PdInstr.mem_apply]
      exact ⟨[.designated], rfl, rfl⟩
    · intro t ht
      simp only [PDA.device]
      rcases List.mem_cons.1 ht with rfl | ht
      · exact (hL _).2 (.inr (.inr ⟨S, hS, rfl⟩))
      · rw [hL]
        have hr : t ∈ G'.rules.map ruleTransition ∨ t ∈ G'.terminals.map readTransition := by
          have h4 := h3 t ht
          unfold pdaTransitions at h4
          rw [List.mem_append, List.mem_append] at h4
          rcases h4 with (h4 | h4) | h4
          · exact .inl h4
          · exact .inr h4
          · exfalso
            obtain ⟨S', _, rfl⟩ := List.mem_map.1 h4
            exact initial_not_runOf h1 _ ht
        rcases hr with hr | hr
        · obtain ⟨r, hr', rfl⟩ := List.mem_map.1 hr
          exact .inl ⟨r, hr', rfl⟩
        · obtain ⟨r, hr', rfl⟩ := List.mem_map.1 hr
          exact .inr (.inl ⟨r, hr', rfl⟩)

/-- Steps that are not for rules read symbols. -/
theorem exec_length [Monoid W] {G : CFG N T W} {us : List (Transition (PdInstr (PushState N T)) T W)} : ∀ {w : List T} {γ : List (LetterT N T)} {u : W}
    {c : Configuration (PushDown (PushState N T)) T W}, (∀ t ∈ us, t ∈ G.pdaTransitions) → Exec PdInstr.apply ⟨w, enc γ, u⟩ us c →
    ∃ rs : List (CFGRule N T W), (∀ r ∈ rs, r ∈ G.rules) ∧ c.weight = u * ruleWeight rs ∧ us.length ≤ rs.length + w.length := by
  induction us with
  | nil =>
    intro w γ u c _ he
    cases he
    exact ⟨[], by simp, by simp [ruleWeight], by simp⟩
  | cons t us ih =>
    intro w γ u c hus he
    cases he with
    | @cons _ _ c' _ _ hst he =>
      rcases step_enc (hus t (by simp)) hst with ⟨x, γ', w', _, _, rfl, rfl⟩ | ⟨r, hr, γ', _, _, rfl⟩
      · obtain ⟨rs, h1, h2, h3⟩ := ih (fun t ht => hus t (by simp [ht])) he
        exact ⟨rs, h1, h2, by simp only [List.length_cons]; omega⟩
      · obtain ⟨rs, h1, h2, h3⟩ := ih (fun t ht => hus t (by simp [ht])) he
        refine ⟨r :: rs, ?_, by rw [h2]; simp [ruleWeight, mul_assoc], by simp only [List.length_cons]; omega⟩
        intro x hx
        rcases List.mem_cons.1 hx with rfl | hx
        · exact hr
        · exact h1 x hx

theorem run_merged_length [Monoid W] [AddMonoid W] {G G' : CFG N T W} {L : List (Transition (PdInstr (PushState N T)) T W)}
    (hL : ∀ t, t ∈ L ↔ (∃ r ∈ G'.rules, t = ruleTransition r) ∨ (∃ x ∈ G'.terminals, t = readTransition x) ∨ ∃ S ∈ G'.initial, t = startTransition G S)
    {w : List T} {us : List (Transition (PdInstr (PushState N T)) T W)} {c : Configuration (PushDown (PushState N T)) T W}
    (h : IsRun PdInstr.apply L (PushDown.new .designated .initial) w us c) :
    us = [] ∨ ∃ S ∈ G'.initial, ∃ rs : List (CFGRule N T W), (∀ r ∈ rs, r ∈ G'.rules) ∧ c.weight = startTotal G S * ruleWeight rs ∧ us.length ≤ rs.length + w.length + 1 := by
  obtain ⟨he, hus⟩ := h
  cases he with
  | nil => exact .inl rfl
  | @cons _ t c' us _ hst he =>
    obtain ⟨S, hS, _, rfl⟩ := first_merged hL (hus t (by simp)) hst
    obtain ⟨rs, h1, h2, h3⟩ := exec_length (exec_merged hL (fun t ht => hus t (by simp [ht])) he) he
    exact .inr ⟨S, hS, rs, h1, by rw [h2, one_mul], by simp only [List.length_cons]; omega⟩

end CFG
end Rustomata
