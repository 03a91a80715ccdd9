import Verif.Proofs.Cfg
import Verif.Proofs.TsaLength
import Verif.Spec.CfgLeft
import Mathlib.Data.Finset.Card

/-!
# Helper lemmas: when the runs of the automaton of a context-free grammar are bounded
-/

set_option linter.unusedSectionVars false

namespace Rustomata
open Spec

variable {N T W : Type _}

/-! ### the words derived by sentential forms -/

theorem yields_iff {G : CFG N T W} {γ : List (LetterT N T)} {v : List T} : Yields G γ v ↔ ∃ rs, Leftmost G γ rs v :=
  ⟨rewrites_leftmost, fun ⟨_, h⟩ => leftmost_rewrites h⟩

theorem Spec.Yields.nil (G : CFG N T W) : Yields G [] [] := yields_iff.2 ⟨[], .nil⟩

theorem Spec.Yields.append {G : CFG N T W} {γ δ : List (LetterT N T)} {u v : List T} (h : Yields G γ u) (h' : Yields G δ v) : Yields G (γ ++ δ) (u ++ v) := by
  obtain ⟨rs, h⟩ := yields_iff.1 h
  obtain ⟨ss, h'⟩ := yields_iff.1 h'
  exact yields_iff.2 ⟨_, h.append h'⟩

theorem Spec.Yields.value (G : CFG N T W) (x : T) : Yields G [.value x] [x] := yields_iff.2 ⟨[], .read .nil⟩

theorem Spec.Yields.expand {G : CFG N T W} {r : CFGRule N T W} (hr : r ∈ G.rules) {γ : List (LetterT N T)} {v : List T} (h : Yields G (r.composition ++ γ) v) :
    Yields G (.label r.head :: γ) v := by
  obtain ⟨rs, h⟩ := yields_iff.1 h
  exact yields_iff.2 ⟨_, .expand hr h⟩

/-! ### acyclic relations with finitely many targets -/

open Classical in
theorem acc_of_acyclic {X : Type _} {R : X → X → Prop} (l : List X) (hl : ∀ x y, R x y → y ∈ l) (x : X)
    (h : ∀ y, Relation.ReflTransGen R x y → ¬ Relation.TransGen R y y) : Acc (fun y x => R x y) x := by
  generalize hn : (l.toFinset.filter fun y => Relation.TransGen R x y).card = n
  induction n using Nat.strong_induction_on generalizing x with
  | _ n ih =>
    refine ⟨x, fun y hy => ?_⟩
    refine ih _ ?_ y (fun z hz => h z (.head hy hz)) rfl
    rw [← hn]
    refine Finset.card_lt_card ⟨?_, ?_⟩
    · intro z hz
      rw [Finset.mem_filter] at hz ⊢
      exact ⟨hz.1, .head hy hz.2⟩
    · intro hsub
      have : y ∈ l.toFinset.filter fun y => Relation.TransGen R x y := Finset.mem_filter.2 ⟨List.mem_toFinset.2 (hl x y hy), .single hy⟩
      exact h y (.single hy) (Finset.mem_filter.1 (hsub this)).2

/-! ### steps of the parser -/

/-- The steps of the automaton on sentential forms. -/
inductive CfgStep (G : CFG N T W) : List T × List (LetterT N T) → List T × List (LetterT N T) → Prop
  | read {x w γ} : CfgStep G (x :: w, .value x :: γ) (w, γ)
  | expand {r w γ} : r ∈ G.rules → CfgStep G (w, .label r.head :: γ) (w, r.composition ++ γ)

/-- Each nonterminal of the sentential form is exposed after the words that are derived from the symbols before it. -/
def AllExposed (G : CFG N T W) (u : List T) (γ : List (LetterT N T)) : Prop :=
  ∀ α B β v, γ = α ++ .label B :: β → Yields G α v → Exposed G (u ++ v) B

theorem AllExposed.read {G : CFG N T W} {u : List T} {x : T} {γ : List (LetterT N T)} (h : AllExposed G u (.value x :: γ)) : AllExposed G (u ++ [x]) γ := by
  intro α B β v hγ hv
  rw [List.append_assoc]
  exact h (.value x :: α) B β _ (by rw [hγ]; rfl) ((Yields.value G x).append hv)

theorem AllExposed.drop {G : CFG N T W} {u : List T} {A : N} {γ : List (LetterT N T)} (h : AllExposed G u (.label A :: γ)) (hA : Yields G [.label A] []) :
    AllExposed G u γ := by
  intro α B β v hγ hv
  exact h (.label A :: α) B β _ (by rw [hγ]; rfl) (hA.append hv)

theorem AllExposed.expand {G : CFG N T W} {u : List T} {r : CFGRule N T W} (hr : r ∈ G.rules) {γ : List (LetterT N T)} (h : AllExposed G u (.label r.head :: γ)) :
    AllExposed G u (r.composition ++ γ) := by
  intro α B β v hγ hv
  have hx : Exposed G u r.head := by simpa using h [] r.head γ [] rfl (Yields.nil G)
  rcases List.append_eq_append_iff.1 hγ with ⟨a, h1, h2⟩ | ⟨a, h1, h2⟩
  · -- in the rest
    rw [h1] at hv
    exact h (.label r.head :: a) B β v (by rw [h2]; rfl) (hv.expand hr)
  · cases a with
    | nil =>
      simp only [List.nil_append] at h2
      rw [List.append_nil] at h1
      exact h [.label r.head] B β v (by rw [← h2]; rfl) (by
        refine Yields.expand hr ?_
        rwa [List.append_nil, h1])
    | cons b a =>
      simp only [List.cons_append, List.cons.injEq] at h2
      obtain ⟨rfl, rfl⟩ := h2
      exact .step hx hr rfl h1 hv

/-- If no left recursive nonterminal is exposed after a prefix of the word, the parser has no infinite runs. -/
theorem acc_cfgStep {G : CFG N T W} : ∀ (n : Nat) (u w : List T) (γ : List (LetterT N T)), w.length = n →
    (∀ v A, v <+: w → Exposed G (u ++ v) A → ¬ CfgLeftRecursive G A) → AllExposed G u γ → Acc (fun y x => CfgStep G x y) (w, γ) := by
  intro n
  induction n using Nat.strong_induction_on with
  | _ n ih =>
    intro u w γ hn hw hγ
    subst hn
    have hread : ∀ x γ, AllExposed G u (.value x :: γ) → Acc (fun y x => CfgStep G x y) (w, .value x :: γ) := by
      intro x γ h
      refine ⟨_, fun y hy => ?_⟩
      cases hy with
      | @read _ w' _ =>
        exact ih w'.length (by simp) (u ++ [x]) w' γ rfl (fun v A hv hA => hw (x :: v) A ((List.prefix_cons_inj x).2 hv) (by simpa using hA)) h.read
    -- one nonterminal
    have hone : ∀ A, Exposed G u A → ∀ s, AllExposed G u (.label A :: s) → (Yields G [.label A] [] → Acc (fun y x => CfgStep G x y) (w, s)) →
        Acc (fun y x => CfgStep G x y) (w, .label A :: s) := by
      intro A hA
      have hacc : Acc (fun B A => CfgLeftCorner G A B) A := by
        refine acc_of_acyclic (G.rules.flatMap fun r => r.composition.filterMap fun x => match x with | .label B => some B | .value _ => none) ?_ A ?_
        · rintro x y ⟨r, hr, _, α, β, h, _⟩
          exact List.mem_flatMap.2 ⟨r, hr, List.mem_filterMap.2 ⟨.label y, by rw [h]; simp, rfl⟩⟩
        · intro B hB
          have : Exposed G (u ++ []) B := by
            clear hw
            induction hB with
            | refl => simpa using hA
            | tail _ h1 ih1 =>
              obtain ⟨r, hr, h2, α, β, h3, h4⟩ := h1
              have := Exposed.step ih1 hr h2 h3 h4
              simpa using this
          exact hw [] B (List.nil_prefix) this
      induction hacc with
      | intro A _ ihA =>
        intro s hs hnull
        refine ⟨_, fun y hy => ?_⟩
        generalize hx : (w, LetterT.label A :: s) = x at hy
        cases hy with
        | read => simp at hx
        | @expand r w' γ' hr =>
          simp only [Prod.mk.injEq, List.cons.injEq, LetterT.label.injEq] at hx
          obtain ⟨rfl, rfl, rfl⟩ := hx
          have hall := hs.expand hr
          -- the symbols of the right-hand side
          have hsuf : ∀ δ pre, r.composition = pre ++ δ → Yields G pre [] → AllExposed G u (δ ++ s) → (Yields G δ [] → Acc (fun y x => CfgStep G x y) (w, s)) →
              Acc (fun y x => CfgStep G x y) (w, δ ++ s) := by
            intro δ
            induction δ with
            | nil => exact fun _ _ _ _ h => h (Yields.nil G)
            | cons a δ ihδ =>
              intro pre hpre hyp hall' hn'
              cases a with
              | value x => exact hread x _ hall'
              | label B =>
                refine ihA B ⟨r, hr, rfl, pre, δ, hpre, hyp⟩ (by simpa using hall' [] B _ [] rfl (Yields.nil G)) (δ ++ s) hall' fun hB => ?_
                refine ihδ (pre ++ [.label B]) (by rw [hpre]; simp) (hyp.append hB) (hall'.drop hB) fun hδ => ?_
                exact hn' (hB.append hδ)
          refine hsuf r.composition [] rfl (Yields.nil G) hall fun hc => hnull ?_
          exact Yields.expand hr (by rwa [List.append_nil])
    -- the whole form
    induction γ with
    | nil =>
      refine ⟨_, fun y hy => ?_⟩
      cases hy
    | cons a γ ihγ =>
      cases a with
      | value x => exact hread x γ hγ
      | label A => exact hone A (by simpa using hγ [] A γ [] rfl (Yields.nil G)) γ hγ fun hA => ihγ (hγ.drop hA)

namespace CFG
variable [DecidableEq N] [DecidableEq T]

/-- Finitely many steps are possible, so the lengths of the runs are bounded. -/
theorem exec_bounded [Monoid W] {G : CFG N T W} {x : List T × List (LetterT N T)} (h : Acc (fun y x => CfgStep G x y) x) :
    ∃ L, ∀ (u : W) (us : List (Transition (PdInstr (PushState N T)) T W)) (c : Configuration (PushDown (PushState N T)) T W), (∀ t ∈ us, t ∈ G.pdaTransitions) →
      Exec PdInstr.apply ⟨x.1, enc x.2, u⟩ us c → us.length ≤ L := by
  induction h with
  | intro x _ ih =>
    obtain ⟨w, γ⟩ := x
    have hrules : ∀ l : List (CFGRule N T W), (∀ r ∈ l, r ∈ G.rules) → ∃ L, ∀ r ∈ l, ∀ γ', γ = .label r.head :: γ' →
        ∀ (u : W) (us : List (Transition (PdInstr (PushState N T)) T W)) (c : Configuration (PushDown (PushState N T)) T W), (∀ t ∈ us, t ∈ G.pdaTransitions) →
          Exec PdInstr.apply ⟨w, enc (r.composition ++ γ'), u⟩ us c → us.length ≤ L := by
      intro l
      induction l with
      | nil => exact fun _ => ⟨0, by simp⟩
      | cons r l ihl =>
        intro hl
        obtain ⟨L₁, h1⟩ := ihl fun r hr => hl r (by simp [hr])
        have h2 : ∃ L, ∀ γ', γ = .label r.head :: γ' →
            ∀ (u : W) (us : List (Transition (PdInstr (PushState N T)) T W)) (c : Configuration (PushDown (PushState N T)) T W), (∀ t ∈ us, t ∈ G.pdaTransitions) →
              Exec PdInstr.apply ⟨w, enc (r.composition ++ γ'), u⟩ us c → us.length ≤ L := by
          by_cases hγ : ∃ γ', γ = .label r.head :: γ'
          · obtain ⟨γ', rfl⟩ := hγ
            obtain ⟨L, hL⟩ := ih (w, r.composition ++ γ') (.expand (hl r (by simp)))
            refine ⟨L, fun γ'' h => ?_⟩
            simp only [List.cons.injEq, true_and] at h
            subst h
            exact hL
          · exact ⟨0, fun γ' h => absurd ⟨γ', h⟩ hγ⟩
        obtain ⟨L₂, h2⟩ := h2
        refine ⟨max L₁ L₂, fun r' hr' γ' hγ u us c hus he => ?_⟩
        rcases List.mem_cons.1 hr' with rfl | hr'
        · exact (h2 γ' hγ u us c hus he).trans (le_max_right _ _)
        · exact (h1 r' hr' γ' hγ u us c hus he).trans (le_max_left _ _)
    obtain ⟨L₁, h1⟩ := hrules G.rules fun _ h => h
    have h2 : ∃ L, ∀ x w' γ', w = x :: w' → γ = .value x :: γ' →
        ∀ (u : W) (us : List (Transition (PdInstr (PushState N T)) T W)) (c : Configuration (PushDown (PushState N T)) T W), (∀ t ∈ us, t ∈ G.pdaTransitions) →
          Exec PdInstr.apply ⟨w', enc γ', u⟩ us c → us.length ≤ L := by
      by_cases hγ : ∃ x w' γ', w = x :: w' ∧ γ = .value x :: γ'
      · obtain ⟨x, w', γ', rfl, rfl⟩ := hγ
        obtain ⟨L, hL⟩ := ih (w', γ') .read
        refine ⟨L, fun x' w'' γ'' h1 h2 => ?_⟩
        simp only [List.cons.injEq] at h1 h2
        obtain ⟨_, rfl⟩ := h1
        obtain ⟨_, rfl⟩ := h2
        exact hL
      · exact ⟨0, fun x w' γ' h1 h2 => absurd ⟨x, w', γ', h1, h2⟩ hγ⟩
    obtain ⟨L₂, h2⟩ := h2
    refine ⟨max L₁ L₂ + 1, fun u us c hus he => ?_⟩
    cases he with
    | nil => simp
    | @cons _ t c' ts _ hst he =>
      rw [List.length_cons]
      have hts : ∀ t ∈ ts, t ∈ G.pdaTransitions := fun t ht => hus t (by simp [ht])
      rcases step_enc (hus t (by simp)) hst with ⟨x, γ', w', h3, _, h4, rfl⟩ | ⟨r, hr, γ', h3, _, rfl⟩
      · have := h2 x w' γ' h4 h3 _ _ _ hts he
        have := le_max_right L₁ L₂
        omega
      · have := h1 r hr γ' h3 _ _ _ hts he
        have := le_max_left L₁ L₂
        omega

/-- The first step chooses an initial nonterminal. -/
theorem first_step [Monoid W] {G : CFG N T W} {t : Transition (PdInstr (PushState N T)) T W} (ht : t ∈ G.pdaTransitions) {w : List T} {u : W}
    {c : Configuration (PushDown (PushState N T)) T W} (hs : Step PdInstr.apply t ⟨w, PushDown.new .designated .initial, u⟩ c) :
    ∃ S ∈ G.initial, t = initialTransition S ∧ c = ⟨w, enc [.label S], u⟩ := by
  obtain ⟨cw, cs, cu⟩ := c
  obtain ⟨h1, h2, h3⟩ := hs
  simp only at h1 h2 h3
  obtain ⟨below, h4, h5⟩ := PdInstr.mem_apply.1 h2
  unfold pdaTransitions at ht
  rw [List.mem_append, List.mem_append] at ht
  have hb : ∀ a : PushState N T, PushDown.new .designated .initial = below ++ [a] → below = [.designated] ∧ a = .initial := by
    intro a h
    have := List.append_inj' (show [.designated] ++ [.initial] = below ++ [a] from h) rfl
    exact ⟨this.1.symm, by simpa using this.2.symm⟩
  rcases ht with (ht | ht) | ht
  · obtain ⟨r, hr, rfl⟩ := List.mem_map.1 ht
    cases (hb _ (by simpa [ruleTransition] using h4)).2
  · obtain ⟨r, hr, rfl⟩ := List.mem_map.1 ht
    cases (hb _ (by simpa [readTransition] using h4)).2
  · obtain ⟨S, hS, rfl⟩ := List.mem_map.1 ht
    obtain ⟨rfl, _⟩ := hb _ (by simpa [initialTransition] using h4)
    refine ⟨S, hS, rfl, ?_⟩
    rw [h5, h3]
    simp only [initialTransition, List.nil_append, mul_one] at h1 ⊢
    rw [h1]
    rfl

/-- If no left recursive nonterminal is exposed after a prefix of the word, the runs are bounded. -/
theorem run_bounded [Monoid W] {G : CFG N T W} {w : List T} (hw : ∀ v A, v <+: w → Exposed G v A → ¬ CfgLeftRecursive G A) :
    ∃ L, ∀ (us : List (Transition (PdInstr (PushState N T)) T W)) c, IsRun PdInstr.apply G.pdaTransitions (PushDown.new .designated .initial) w us c →
      us.length ≤ L := by
  have h1 : ∀ l : List N, (∀ S ∈ l, S ∈ G.initial) → ∃ L, ∀ S ∈ l, ∀ (u : W) (us : List (Transition (PdInstr (PushState N T)) T W))
      (c : Configuration (PushDown (PushState N T)) T W), (∀ t ∈ us, t ∈ G.pdaTransitions) → Exec PdInstr.apply ⟨w, enc [.label S], u⟩ us c → us.length ≤ L := by
    intro l
    induction l with
    | nil => exact fun _ => ⟨0, by simp⟩
    | cons S l ihl =>
      intro hl
      obtain ⟨L₁, h1⟩ := ihl fun S hS => hl S (by simp [hS])
      obtain ⟨L₂, h2⟩ := exec_bounded (acc_cfgStep (G := G) w.length [] w [.label S] rfl (by simpa using hw) (by
        intro α B β v hγ hv
        cases α with
        | nil =>
          simp only [List.nil_append, List.cons.injEq, LetterT.label.injEq] at hγ
          obtain ⟨rfl, _⟩ := hγ
          obtain ⟨rs, hv⟩ := yields_iff.1 hv
          cases hv
          exact .initial (hl S (by simp))
        | cons a α => simp at hγ))
      refine ⟨max L₁ L₂, fun S' hS' u us c hus he => ?_⟩
      rcases List.mem_cons.1 hS' with rfl | hS'
      · exact (h2 u us c hus he).trans (le_max_right _ _)
      · exact (h1 S' hS' u us c hus he).trans (le_max_left _ _)
  obtain ⟨L, hL⟩ := h1 G.initial fun _ h => h
  refine ⟨L + 1, fun us c ⟨he, hus⟩ => ?_⟩
  cases he with
  | nil => simp
  | @cons _ t c' ts _ hst he =>
    obtain ⟨S, hS, _, rfl⟩ := first_step (hus t (by simp)) hst
    have := hL S hS _ _ _ (fun t ht => hus t (by simp [ht])) he
    rw [List.length_cons]
    omega

/-! ### the converse -/

/-- A leftmost derivation of a part of the form. -/
theorem leftmost_exec_part [Monoid W] {G : CFG N T W} {α : List (LetterT N T)} {rs : List (CFGRule N T W)} {v : List T} (h : Leftmost G α rs v)
    (hα : ∀ t, .value t ∈ α → t ∈ G.terminals) (w : List T) (γ : List (LetterT N T)) (u : W) :
    ∃ us u', Exec PdInstr.apply ⟨v ++ w, enc (α ++ γ), u⟩ us ⟨w, enc γ, u'⟩ ∧ ∀ t ∈ us, t ∈ G.pdaTransitions := by
  induction h generalizing u with
  | nil => exact ⟨[], u, .nil _, by simp⟩
  | @read t α rs v h ih =>
    obtain ⟨us, u', h1, h2⟩ := ih (fun x hx => hα x (by simp [hx])) u
    refine ⟨readTransition t :: us, u', .cons ⟨rfl, ?_, ?_⟩ h1, ?_⟩
    · rw [PdInstr.mem_apply]
      exact ⟨enc (α ++ γ), by simp [enc_cons, pushState, readTransition], by simp [readTransition]⟩
    · simp [readTransition]
    · intro x hx
      rcases List.mem_cons.1 hx with rfl | hx
      · simp only [pdaTransitions, List.mem_append, List.mem_map]
        exact .inl (.inr ⟨t, hα t (by simp), rfl⟩)
      · exact h2 x hx
  | @expand r α rs v hr h ih =>
    obtain ⟨us, u', h1, h2⟩ := ih (fun x hx => by
      rcases List.mem_append.1 hx with hx | hx
      · exact mem_terminals.2 ⟨r, hr, hx⟩
      · exact hα x (by simp [hx])) (u * r.weight)
    refine ⟨ruleTransition r :: us, u', .cons (c' := ⟨v ++ w, enc (r.composition ++ (α ++ γ)), u * r.weight⟩) ⟨by simp [ruleTransition], ?_, by simp [ruleTransition]⟩ ?_, ?_⟩
    · rw [PdInstr.mem_apply]
      exact ⟨enc (α ++ γ), by simp [enc_cons, pushState, ruleTransition], by simp [ruleTransition, enc_append]⟩
    · simpa using h1
    · intro x hx
      rcases List.mem_cons.1 hx with rfl | hx
      · simp only [pdaTransitions, List.mem_append, List.mem_map]
        exact .inl (.inl ⟨r, hr, rfl⟩)
      · exact h2 x hx

/-- From a rule to a nonterminal of its right-hand side. -/
theorem corner_exec [Monoid W] {G : CFG N T W} {r : CFGRule N T W} (hr : r ∈ G.rules) {α β : List (LetterT N T)} {B : N} (hc : r.composition = α ++ .label B :: β)
    {v : List T} (hv : Yields G α v) (w : List T) (γ : List (LetterT N T)) (u : W) :
    ∃ us u', Exec PdInstr.apply ⟨v ++ w, enc (.label r.head :: γ), u⟩ us ⟨w, enc (.label B :: (β ++ γ)), u'⟩ ∧ (∀ t ∈ us, t ∈ G.pdaTransitions) ∧ 1 ≤ us.length := by
  obtain ⟨rs, hv⟩ := yields_iff.1 hv
  obtain ⟨us, u', h1, h2⟩ := leftmost_exec_part hv (fun t ht => mem_terminals.2 ⟨r, hr, by rw [hc]; simp [ht]⟩) w (.label B :: (β ++ γ)) (u * r.weight)
  refine ⟨ruleTransition r :: us, u', .cons (c' := ⟨v ++ w, enc (r.composition ++ γ), u * r.weight⟩) ⟨by simp [ruleTransition], ?_, by simp [ruleTransition]⟩ ?_, ?_, by simp⟩
  · rw [PdInstr.mem_apply]
    exact ⟨enc γ, by simp [enc_cons, pushState, ruleTransition], by simp [ruleTransition, enc_append]⟩
  · rw [hc]; simpa using h1
  · intro x hx
    rcases List.mem_cons.1 hx with rfl | hx
    · simp only [pdaTransitions, List.mem_append, List.mem_map]
      exact .inl (.inl ⟨r, hr, rfl⟩)
    · exact h2 x hx

theorem exec_append [Monoid W] {S I : Type _} {ap : I → S → List S} {c c' c'' : Configuration S T W} {us vs : List (Transition I T W)} (h : Exec ap c us c')
    (h' : Exec ap c' vs c'') : Exec ap c (us ++ vs) c'' := by
  induction h with
  | nil => exact h'
  | cons hs _ ih => exact .cons hs (ih h')

theorem exposed_run [Monoid W] {G : CFG N T W} {v : List T} {A : N} (h : Exposed G v A) (w : List T) :
    ∃ γ us u, IsRun PdInstr.apply G.pdaTransitions (PushDown.new .designated .initial) (v ++ w) us ⟨w, enc (.label A :: γ), (u : W)⟩ := by
  induction h generalizing w with
  | @initial S hS =>
    refine ⟨[], [initialTransition S], 1, .cons (c' := ⟨w, enc [.label S], 1⟩) ⟨by simp [initialTransition], ?_, by simp [initialTransition]⟩ (.nil _), ?_⟩
    · rw [PdInstr.mem_apply]
      exact ⟨[.designated], rfl, rfl⟩
    · intro x hx
      rw [List.mem_singleton.1 hx]
      simp only [pdaTransitions, List.mem_append, List.mem_map]
      exact .inr ⟨S, hS, rfl⟩
  | @step u v A r α β B _ hr hA hc hv ih =>
    subst hA
    obtain ⟨γ, us, x, h1, h2⟩ := ih (v ++ w)
    obtain ⟨us', x', h3, h4, _⟩ := corner_exec hr hc hv w γ x
    refine ⟨β ++ γ, us ++ us', x', ?_, ?_⟩
    · rw [List.append_assoc]
      exact exec_append h1 h3
    · intro t ht
      rcases List.mem_append.1 ht with ht | ht
      · exact h2 t ht
      · exact h4 t ht

theorem leftCorner_exec [Monoid W] {G : CFG N T W} {A B : N} (h : Relation.TransGen (CfgLeftCorner G) A B) (w : List T) (γ : List (LetterT N T)) (u : W) :
    ∃ γ' us u', Exec PdInstr.apply ⟨w, enc (.label A :: γ), u⟩ us ⟨w, enc (.label B :: γ'), u'⟩ ∧ (∀ t ∈ us, t ∈ G.pdaTransitions) ∧ 1 ≤ us.length := by
  induction h with
  | single h =>
    obtain ⟨r, hr, rfl, α, β, hc, hv⟩ := h
    obtain ⟨us, u', h1, h2, h3⟩ := corner_exec hr hc hv w γ u
    exact ⟨β ++ γ, us, u', h1, h2, h3⟩
  | tail _ h ih =>
    obtain ⟨γ', us, u', h1, h2, h3⟩ := ih
    obtain ⟨r, hr, rfl, α, β, hc, hv⟩ := h
    obtain ⟨us', u'', h4, h5, h6⟩ := corner_exec hr hc hv w γ' u'
    refine ⟨β ++ γ', us ++ us', u'', exec_append h1 h4, fun t ht => ?_, by rw [List.length_append]; omega⟩
    rcases List.mem_append.1 ht with ht | ht
    · exact h2 t ht
    · exact h5 t ht

/-- If a left recursive nonterminal is exposed after a prefix of the word, there are runs of each length. -/
theorem run_unbounded [Monoid W] {G : CFG N T W} {v w : List T} {A : N} (hv : v <+: w) (hA : Exposed G v A) (hl : CfgLeftRecursive G A) (n : Nat) :
    ∃ us c, IsRun PdInstr.apply (G.pdaTransitions : List (Transition (PdInstr (PushState N T)) T W)) (PushDown.new .designated .initial) w us c ∧ n ≤ us.length := by
  obtain ⟨w, rfl⟩ := hv
  obtain ⟨γ, us, u, h1, h2⟩ := exposed_run (W := W) hA w
  have h3 : ∀ n, ∃ γ' us' u', Exec PdInstr.apply ⟨w, enc (.label A :: γ), u⟩ us' ⟨w, enc (.label A :: γ'), u'⟩ ∧ (∀ t ∈ us', t ∈ G.pdaTransitions) ∧ n ≤ us'.length := by
    intro n
    induction n with
    | zero => exact ⟨γ, [], u, .nil _, by simp, by simp⟩
    | succ n ih =>
      obtain ⟨γ', us', u', h3, h4, h5⟩ := ih
      obtain ⟨γ'', us'', u'', h6, h7, h8⟩ := leftCorner_exec hl w γ' u'
      refine ⟨γ'', us' ++ us'', u'', exec_append h3 h6, fun t ht => ?_, by rw [List.length_append]; omega⟩
      rcases List.mem_append.1 ht with ht | ht
      · exact h4 t ht
      · exact h7 t ht
  obtain ⟨γ', us', u', h4, h5, h6⟩ := h3 n
  refine ⟨us ++ us', _, ⟨exec_append h1 h4, fun t ht => ?_⟩, by rw [List.length_append]; omega⟩
  rcases List.mem_append.1 ht with ht | ht
  · exact h2 t ht
  · exact h5 t ht

end CFG

/-- Runs with other weights. -/
theorem run_of_keys {S I : Type _} [Monoid W] {ap : I → S → List S} {l l' : List (Transition I T W)} {initial : S}
    (hk : ∀ k, k ∈ l.map PDA.keyOf → k ∈ l'.map PDA.keyOf) {w : List T} {us : List (Transition I T W)} {c : Configuration S T W} (h : IsRun ap l initial w us c) :
    ∃ us' c', IsRun ap l' initial w us' c' ∧ us'.length = us.length := by
  obtain ⟨he, hm⟩ := h
  generalize hc₀ : (⟨w, initial, 1⟩ : Configuration S T W) = c₀ at he
  have hgen : ∀ u' : W, ∃ us' u'', Exec ap ⟨c₀.word, c₀.storage, u'⟩ us' ⟨c.word, c.storage, u''⟩ ∧ (∀ t ∈ us', t ∈ l') ∧ us'.length = us.length := by
    clear hc₀
    induction he with
    | nil c => exact fun u' => ⟨[], u', .nil _, by simp, rfl⟩
    | @cons c₁ t c₂ ts c₃ hs _ ih =>
      intro u'
      obtain ⟨t', h1, h2⟩ := List.mem_map.1 (hk (PDA.keyOf t) (List.mem_map.2 ⟨t, hm t (by simp), rfl⟩))
      obtain ⟨us', u'', h3, h4, h5⟩ := ih (fun t ht => hm t (by simp [ht])) (u' * t'.weight)
      obtain ⟨h6, h7⟩ := Prod.mk.inj h2
      refine ⟨t' :: us', u'', .cons ⟨?_, ?_, rfl⟩ h3, ?_, by simp [h5]⟩
      · rw [h6]; exact hs.word
      · rw [h7]; exact hs.storage
      · intro x hx
        rcases List.mem_cons.1 hx with rfl | hx
        · exact h1
        · exact h4 x hx
  obtain ⟨us', u'', h1, h2, h3⟩ := hgen 1
  subst hc₀
  exact ⟨us', _, ⟨h1, h2⟩, h3⟩

end Rustomata
