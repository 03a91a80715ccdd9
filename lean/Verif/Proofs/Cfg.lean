import Verif.Proofs.Pda
import Verif.Spec.Cfg

/-!
# Helper lemmas: context-free grammars
-/

set_option linter.unusedSectionVars false
set_option linter.unusedSimpArgs false
set_option linter.unnecessarySimpa false

namespace Rustomata
open Spec

variable {N T W : Type _}

/-! ### leftmost and arbitrary derivations -/

theorem Spec.Leftmost.append {G : CFG N T W} {γ δ : List (LetterT N T)} {rs ss : List (CFGRule N T W)} {u v : List T}
    (h : Leftmost G γ rs u) (h' : Leftmost G δ ss v) : Leftmost G (γ ++ δ) (rs ++ ss) (u ++ v) := by
  induction h with
  | nil => exact h'
  | read _ ih => exact .read ih
  | @expand r γ rs w hr _ ih =>
    rw [List.append_assoc] at ih
    exact .expand hr ih

theorem Spec.Leftmost.split {G : CFG N T W} {γ δ : List (LetterT N T)} {rs : List (CFGRule N T W)} {w : List T}
    (h : Leftmost G (γ ++ δ) rs w) : ∃ rs1 rs2 w1 w2, rs = rs1 ++ rs2 ∧ w = w1 ++ w2 ∧ Leftmost G γ rs1 w1 ∧ Leftmost G δ rs2 w2 := by
  generalize hx : γ ++ δ = x at h
  induction h generalizing γ with
  | nil =>
    obtain ⟨rfl, rfl⟩ := List.append_eq_nil_iff.1 hx
    exact ⟨[], [], [], [], rfl, rfl, .nil, .nil⟩
  | @read t γ' rs w h ih =>
    cases γ with
    | nil =>
      simp only [List.nil_append] at hx
      subst hx
      exact ⟨[], rs, [], t :: w, rfl, rfl, .nil, .read h⟩
    | cons a γ =>
      simp only [List.cons_append, List.cons.injEq] at hx
      obtain ⟨rfl, rfl⟩ := hx
      obtain ⟨r1, r2, w1, w2, rfl, rfl, h1, h2⟩ := ih rfl
      exact ⟨r1, r2, t :: w1, w2, rfl, rfl, .read h1, h2⟩
  | @expand r γ' rs w hr h ih =>
    cases γ with
    | nil =>
      simp only [List.nil_append] at hx
      subst hx
      exact ⟨[], r :: rs, [], w, rfl, rfl, .nil, .expand hr h⟩
    | cons a γ =>
      simp only [List.cons_append, List.cons.injEq] at hx
      obtain ⟨rfl, rfl⟩ := hx
      obtain ⟨r1, r2, w1, w2, rfl, rfl, h1, h2⟩ := ih (γ := r.composition ++ γ) (by simp)
      exact ⟨r :: r1, r2, w1, w2, rfl, rfl, .expand hr h1, h2⟩

theorem Spec.Leftmost.values (G : CFG N T W) (w : List T) : Leftmost G (w.map .value) [] w := by
  induction w with
  | nil => exact .nil
  | cons t w ih => exact .read ih

theorem Spec.Rewrites.append_left {G : CFG N T W} {u v : List (LetterT N T)} (h : Rewrites G u v) (p q : List (LetterT N T)) :
    Rewrites G (p ++ u ++ q) (p ++ v ++ q) := by
  obtain ⟨pre, post, r, hr, rfl, rfl⟩ := h
  exact ⟨p ++ pre, post ++ q, r, hr, by simp, by simp⟩

theorem leftmost_rewrites {G : CFG N T W} {γ : List (LetterT N T)} {rs : List (CFGRule N T W)} {w : List T} (h : Leftmost G γ rs w) :
    Relation.ReflTransGen (Rewrites G) γ (w.map .value) := by
  induction h with
  | nil => exact .refl
  | @read t γ rs w _ ih =>
    have : ∀ u v, Relation.ReflTransGen (Rewrites G) u v → Relation.ReflTransGen (Rewrites G) (LetterT.value t :: u) (LetterT.value t :: v) := by
      intro u v h
      refine Relation.ReflTransGen.lift (p := Rewrites G) (fun u => LetterT.value t :: u) ?_ _ _ h
      intro a b hab
      simpa using hab.append_left [LetterT.value t] []
    exact this _ _ ih
  | @expand r γ rs w hr _ ih => exact .head ⟨[], γ, r, hr, by simp, by simp⟩ ih

theorem rewrites_leftmost {G : CFG N T W} {γ : List (LetterT N T)} {w : List T} (h : Relation.ReflTransGen (Rewrites G) γ (w.map .value)) :
    ∃ rs, Leftmost G γ rs w := by
  induction h using Relation.ReflTransGen.head_induction_on with
  | refl => exact ⟨[], Leftmost.values G w⟩
  | head hstep _ ih =>
    obtain ⟨rs, hrs⟩ := ih
    obtain ⟨pre, post, r, hr, rfl, rfl⟩ := hstep
    rw [List.append_assoc] at hrs
    obtain ⟨r1, r2, w1, w2, rfl, rfl, h1, h2⟩ := hrs.split
    refine ⟨r1 ++ r :: r2, ?_⟩
    rw [List.append_assoc]
    exact h1.append (.expand hr h2)

theorem generates_iff {G : CFG N T W} {w : List T} : Generates G w ↔ ∃ S ∈ G.initial, ∃ rs, Leftmost G [.label S] rs w := by
  constructor
  · rintro ⟨S, hS, h⟩; exact ⟨S, hS, rewrites_leftmost h⟩
  · rintro ⟨S, hS, rs, h⟩; exact ⟨S, hS, leftmost_rewrites h⟩

/-! ### the automaton -/

namespace CFG
variable [DecidableEq N] [DecidableEq T]

theorem pushString_eq (c : List (LetterT N T)) : pushString c = (c.map pushState).reverse := by
  unfold pushString
  have : ∀ (acc : List (PushState N T)), c.foldl (fun st v => pushState v :: st) acc = (c.map pushState).reverse ++ acc := by
    induction c with
    | nil => simp
    | cons a c ih => intro acc; simp [ih]
  simpa using this []

theorem pushState_injective : Function.Injective (pushState : LetterT N T → PushState N T) := by
  intro a b h
  cases a <;> cases b <;> simp_all [pushState]

theorem pushString_injective : Function.Injective (pushString : List (LetterT N T) → List (PushState N T)) := by
  intro a b h
  rw [pushString_eq, pushString_eq, List.reverse_inj] at h
  exact List.map_injective_iff.2 pushState_injective h

theorem mem_bufferTerminals {buf : List T} {c : List (LetterT N T)} {t : T} :
    t ∈ bufferTerminals buf c ↔ t ∈ buf ∨ .value t ∈ c := by
  unfold bufferTerminals
  induction c generalizing buf with
  | nil => simp
  | cons a c ih =>
    simp only [List.foldl_cons, ih]
    cases a with
    | label n => simp
    | value x =>
      simp only [List.mem_cons, LetterT.value.injEq]
      split
      · rename_i h
        constructor
        · rintro (h1 | h1)
          · exact .inl h1
          · exact .inr (.inr h1)
        · rintro (h1 | rfl | h1)
          · exact .inl h1
          · exact .inl h
          · exact .inr h1
      · simp only [List.mem_cons]
        constructor
        · rintro ((rfl | h1) | h1)
          · exact .inr (.inl rfl)
          · exact .inl h1
          · exact .inr (.inr h1)
        · rintro (h1 | rfl | h1)
          · exact .inl (.inr h1)
          · exact .inl (.inl rfl)
          · exact .inr h1

theorem nodup_bufferTerminals {buf : List T} (h : buf.Nodup) (c : List (LetterT N T)) : (bufferTerminals buf c).Nodup := by
  unfold bufferTerminals
  induction c generalizing buf with
  | nil => exact h
  | cons a c ih =>
    simp only [List.foldl_cons]
    cases a with
    | label n => exact ih h
    | value x =>
      simp only
      split
      · exact ih h
      · rename_i hx
        exact ih (List.nodup_cons.2 ⟨hx, h⟩)

theorem mem_terminals {G : CFG N T W} {t : T} : t ∈ G.terminals ↔ ∃ r ∈ G.rules, .value t ∈ r.composition := by
  unfold terminals
  have : ∀ (rs : List (CFGRule N T W)) (buf : List T), t ∈ rs.foldl (fun b r => bufferTerminals b r.composition) buf ↔
      t ∈ buf ∨ ∃ r ∈ rs, .value t ∈ r.composition := by
    intro rs
    induction rs with
    | nil => simp
    | cons r rs ih =>
      intro buf
      simp only [List.foldl_cons, ih, mem_bufferTerminals, List.mem_cons, exists_eq_or_imp, or_assoc]
  simpa using this G.rules []

theorem nodup_terminals (G : CFG N T W) : G.terminals.Nodup := by
  unfold terminals
  have : ∀ (rs : List (CFGRule N T W)) (buf : List T), buf.Nodup → (rs.foldl (fun b r => bufferTerminals b r.composition) buf).Nodup := by
    intro rs
    induction rs with
    | nil => intro buf h; exact h
    | cons r rs ih => intro buf h; exact ih _ (nodup_bufferTerminals h _)
  exact this _ _ List.nodup_nil

/-- The store that represents a sentential form. -/
def enc (γ : List (LetterT N T)) : PushDown (PushState N T) := .designated :: pushString γ

theorem enc_cons (a : LetterT N T) (γ : List (LetterT N T)) : enc (a :: γ) = enc γ ++ [pushState a] := by
  simp [enc, pushString_eq]

theorem enc_append (γ δ : List (LetterT N T)) : enc (γ ++ δ) = enc δ ++ pushString γ := by
  simp [enc, pushString_eq]

theorem enc_length (γ : List (LetterT N T)) : (enc γ).length = γ.length + 1 := by
  simp [enc, pushString_eq]

/-- The run for a leftmost derivation. -/
def runOf [One W] : List (LetterT N T) → List (CFGRule N T W) → List (Transition (PdInstr (PushState N T)) T W)
  | [], _ => []
  | .value t :: γ, rs => readTransition t :: runOf γ rs
  | .label _ :: _, [] => []
  | .label _ :: γ, r :: rs => ruleTransition r :: runOf (r.composition ++ γ) rs
termination_by γ rs => (rs.length, γ.length)

theorem single_apply {a : PushState N T} {new : List (PushState N T)} {γ : List (LetterT N T)} {q : PushDown (PushState N T)}
    (h : q ∈ (⟨[a], new⟩ : PdInstr (PushState N T)).apply (enc γ)) (hd : a ≠ .designated) :
    ∃ x γ', γ = x :: γ' ∧ pushState x = a ∧ q = enc γ' ++ new := by
  obtain ⟨below, h1, h2⟩ := PdInstr.mem_apply.1 h
  simp only [List.reverse_cons, List.reverse_nil, List.nil_append] at h1 h2
  cases γ with
  | nil =>
    simp only [enc, pushString, List.foldl_nil] at h1
    cases below with
    | nil => simp at h1; exact absurd h1.symm hd
    | cons b bs => simp at h1
  | cons x γ' =>
    rw [enc_cons] at h1
    have := List.append_inj' h1 (by simp)
    refine ⟨x, γ', rfl, ?_, ?_⟩
    · simpa using this.2
    · rw [h2, this.1]

/-- Steps of the automaton from the store of a sentential form. -/
theorem step_enc [Monoid W] {G : CFG N T W} {t : Transition (PdInstr (PushState N T)) T W} (ht : t ∈ G.pdaTransitions)
    {w : List T} {γ : List (LetterT N T)} {u : W} {c' : Configuration (PushDown (PushState N T)) T W}
    (hs : Step PdInstr.apply t ⟨w, enc γ, u⟩ c') :
    (∃ x γ' w', γ = .value x :: γ' ∧ t = readTransition x ∧ w = x :: w' ∧ c' = ⟨w', enc γ', u⟩) ∨
    (∃ r ∈ G.rules, ∃ γ', γ = .label r.head :: γ' ∧ t = ruleTransition r ∧ c' = ⟨w, enc (r.composition ++ γ'), u * r.weight⟩) := by
  obtain ⟨cw, cs, cu⟩ := c'
  obtain ⟨h1, h2, h3⟩ := hs
  simp only at h1 h2 h3
  unfold pdaTransitions at ht
  rw [List.mem_append, List.mem_append] at ht
  rcases ht with (ht | ht) | ht
  · obtain ⟨r, hr, rfl⟩ := List.mem_map.1 ht
    right
    obtain ⟨x, γ', rfl, hx, rfl⟩ := single_apply h2 (by simp)
    have hx' : x = .label r.head := pushState_injective hx
    subst hx'
    refine ⟨r, hr, γ', rfl, rfl, ?_⟩
    rw [enc_append]
    simp only [ruleTransition, List.nil_append] at h1 h3
    rw [h1, h3]
  · obtain ⟨a, ha, rfl⟩ := List.mem_map.1 ht
    left
    obtain ⟨x, γ', rfl, hx, rfl⟩ := single_apply h2 (by simp)
    have hx' : x = .value a := pushState_injective hx
    subst hx'
    refine ⟨a, γ', cw, rfl, rfl, by simpa [readTransition] using h1, ?_⟩
    rw [h3]; simp [readTransition]
  · obtain ⟨a, ha, rfl⟩ := List.mem_map.1 ht
    exfalso
    obtain ⟨x, γ', rfl, hx, rfl⟩ := single_apply h2 (by simp)
    cases x <;> simp [pushState] at hx

/-- Runs from the store of a sentential form are leftmost derivations. -/
theorem exec_leftmost [Monoid W] {G : CFG N T W} (ts : List (Transition (PdInstr (PushState N T)) T W)) :
    ∀ (w : List T) (γ : List (LetterT N T)) (u : W) (s : PushDown (PushState N T)) (u' : W), (∀ t ∈ ts, t ∈ G.pdaTransitions) →
      Exec PdInstr.apply ⟨w, enc γ, u⟩ ts ⟨[], s, u'⟩ → s.length = 1 →
      s = [.designated] ∧ ∃ rs, Leftmost G γ rs w ∧ ts = runOf γ rs ∧ u' = u * ruleWeight rs := by
  induction ts with
  | nil =>
    intro w γ u s u' _ he hs
    cases he
    rw [enc_length] at hs
    have : γ = [] := List.length_eq_zero_iff.1 (by omega)
    subst this
    exact ⟨rfl, [], .nil, by simp [runOf], by simp [ruleWeight]⟩
  | cons t ts ih =>
    intro w γ u s u' hm he hs
    cases he with
    | cons hst he =>
      rcases step_enc (hm t (by simp)) hst with ⟨x, γ', w', rfl, rfl, rfl, rfl⟩ | ⟨r, hr, γ', rfl, rfl, rfl⟩
      · obtain ⟨h1, rs, h2, h3, h4⟩ := ih _ _ _ _ _ (fun t ht => hm t (by simp [ht])) he hs
        exact ⟨h1, rs, .read h2, by simp [runOf, h3], h4⟩
      · obtain ⟨h1, rs, h2, h3, h4⟩ := ih _ _ _ _ _ (fun t ht => hm t (by simp [ht])) he hs
        exact ⟨h1, r :: rs, .expand hr h2, by simp [runOf, h3], by rw [h4]; simp [ruleWeight, mul_assoc]⟩

/-- Leftmost derivations are runs. -/
theorem leftmost_exec [Monoid W] {G : CFG N T W} {γ : List (LetterT N T)} {rs : List (CFGRule N T W)} {w : List T} (h : Leftmost G γ rs w)
    (hγ : ∀ t, .value t ∈ γ → t ∈ G.terminals) (u : W) :
    Exec PdInstr.apply ⟨w, enc γ, u⟩ (runOf γ rs) ⟨[], [.designated], u * ruleWeight rs⟩ ∧ ∀ t ∈ runOf γ rs, t ∈ G.pdaTransitions := by
  induction h generalizing u with
  | nil => simp only [runOf, ruleWeight, List.map_nil, List.prod_nil, mul_one]; exact ⟨.nil _, by simp⟩
  | @read t γ rs w h ih =>
    obtain ⟨h1, h2⟩ := ih (fun x hx => hγ x (by simp [hx])) u
    simp only [runOf]
    refine ⟨.cons ⟨rfl, ?_, ?_⟩ h1, ?_⟩
    · rw [PdInstr.mem_apply]
      exact ⟨enc γ, by simp [enc_cons, pushState, readTransition], by simp [readTransition]⟩
    · simp [readTransition]
    · intro x hx
      rcases List.mem_cons.1 hx with rfl | hx
      · simp only [pdaTransitions, List.mem_append, List.mem_map]
        exact .inl (.inr ⟨t, hγ t (by simp), rfl⟩)
      · exact h2 x hx
  | @expand r γ rs w hr h ih =>
    obtain ⟨h1, h2⟩ := ih (fun x hx => by
      rcases List.mem_append.1 hx with hx | hx
      · exact mem_terminals.2 ⟨r, hr, hx⟩
      · exact hγ x (by simp [hx])) (u * r.weight)
    simp only [runOf]
    refine ⟨.cons (c' := ⟨w, enc (r.composition ++ γ), u * r.weight⟩) ⟨by simp [ruleTransition], ?_, by simp [ruleTransition]⟩ ?_, ?_⟩
    · rw [PdInstr.mem_apply]
      exact ⟨enc γ, by simp [enc_cons, pushState, ruleTransition], by simp [ruleTransition, enc_append]⟩
    · simpa [ruleWeight, mul_assoc] using h1
    · intro x hx
      rcases List.mem_cons.1 hx with rfl | hx
      · simp only [pdaTransitions, List.mem_append, List.mem_map]
        exact .inl (.inl ⟨r, hr, rfl⟩)
      · exact h2 x hx

theorem ruleTransition_injective : Function.Injective (ruleTransition : CFGRule N T W → _) := by
  rintro ⟨h1, c1, w1⟩ ⟨h2, c2, w2⟩ h
  simp only [ruleTransition, Transition.mk.injEq, PdInstr.mk.injEq, List.cons.injEq, PushState.nt.injEq, and_true, true_and] at h
  rw [h.1, h.2.1, pushString_injective h.2.2]

theorem runOf_injective [One W] {G : CFG N T W} {γ : List (LetterT N T)} {rs rs' : List (CFGRule N T W)} {w w' : List T}
    (h : Leftmost G γ rs w) (h' : Leftmost G γ rs' w') (he : runOf γ rs = runOf γ rs') : rs = rs' := by
  induction h generalizing rs' w' with
  | nil => cases h'; rfl
  | read _ ih =>
    cases h' with
    | read h' =>
      simp only [runOf, List.cons.injEq, true_and] at he
      exact ih h' he
  | @expand r γ rs w hr _ ih =>
    generalize hh : r.head = hd at h' he
    cases h' with
    | @expand r' _ rs' _ hr' h' =>
      simp only [runOf, List.cons.injEq] at he
      obtain ⟨he1, he2⟩ := he
      have := ruleTransition_injective he1
      subst this
      rw [ih h' he2]

/-- Accepting runs of the automaton before merging: the first step chooses the initial nonterminal. -/
theorem accepting_iff [Monoid W] {G : CFG N T W} {w : List T} {ts : List (Transition (PdInstr (PushState N T)) T W)} {s u} :
    (PDA.device G.pdaTransitions (PushDown.new .designated .initial)).Accepting w ts s u ↔
      s = [.designated] ∧ ∃ S ∈ G.initial, ∃ rs, Leftmost G [.label S] rs w ∧ ts = initialTransition S :: runOf [.label S] rs ∧ u = ruleWeight rs := by
  constructor
  · rintro ⟨⟨he, hm⟩, hacc⟩
    simp only [PDA.device, beq_iff_eq] at he hm hacc
    cases he with
    | nil => simp [PushDown.new] at hacc
    | @cons _ t c' ts _ hst he =>
      obtain ⟨cw, cs, cu⟩ := c'
      obtain ⟨h1, h2, h3⟩ := hst
      simp only at h1 h2 h3
      have ht := hm t (by simp)
      obtain ⟨below, h4, h5⟩ := PdInstr.mem_apply.1 h2
      unfold pdaTransitions at ht
      rw [List.mem_append, List.mem_append] at ht
      have hlast : t.instruction.current = [.initial] := by
        rcases ht with (ht | ht) | ht
        · obtain ⟨r, hr, rfl⟩ := List.mem_map.1 ht
          exfalso
          simp only [PushDown.new, ruleTransition, List.reverse_cons, List.reverse_nil, List.nil_append] at h4
          have : [PushState.designated] ++ [PushState.initial] = below ++ [PushState.nt r.head] := h4
          have := (List.append_inj' this rfl).2
          simp at this
        · obtain ⟨a, ha, rfl⟩ := List.mem_map.1 ht
          exfalso
          simp only [PushDown.new, readTransition, List.reverse_cons, List.reverse_nil, List.nil_append] at h4
          have : [PushState.designated] ++ [PushState.initial] = below ++ [PushState.t a] := h4
          have := (List.append_inj' this rfl).2
          simp at this
        · obtain ⟨a, ha, rfl⟩ := List.mem_map.1 ht
          rfl
      have : ∃ S ∈ G.initial, t = initialTransition S := by
        rcases ht with (ht | ht) | ht
        · obtain ⟨r, hr, rfl⟩ := List.mem_map.1 ht; simp [ruleTransition] at hlast
        · obtain ⟨r, hr, rfl⟩ := List.mem_map.1 ht; simp [readTransition] at hlast
        · obtain ⟨S, hS, rfl⟩ := List.mem_map.1 ht; exact ⟨S, hS, rfl⟩
      obtain ⟨S, hS, rfl⟩ := this
      simp only [initialTransition, List.nil_append, List.reverse_cons, List.reverse_nil, one_mul] at h1 h3 h4 h5
      subst h1 h3
      have h6 : below = [.designated] := by
        have : [PushState.designated] ++ [PushState.initial] = below ++ [PushState.initial] := h4
        exact (List.append_inj' this rfl).1.symm
      subst h6
      have h7 : cs = enc [.label S] := by rw [h5]; rfl
      subst h7
      obtain ⟨h8, rs, h9, h10, h11⟩ := exec_leftmost ts _ _ _ _ _ (fun t ht => hm t (by simp [ht])) he hacc
      exact ⟨h8, S, hS, rs, h9, by rw [h10], by rw [h11, one_mul]⟩
  · rintro ⟨rfl, S, hS, rs, h1, rfl, rfl⟩
    obtain ⟨h2, h3⟩ := leftmost_exec h1 (by simp) 1
    refine ⟨⟨.cons (c' := ⟨w, enc [.label S], 1⟩) ⟨rfl, ?_, by simp [initialTransition, PDA.device]⟩ ?_, ?_⟩, rfl⟩
    · simp only [PDA.device]
      rw [PdInstr.mem_apply]
      exact ⟨[.designated], rfl, rfl⟩
    · rw [one_mul] at h2
      exact h2
    · intro t ht
      rcases List.mem_cons.1 ht with rfl | ht
      · simp only [PDA.device, pdaTransitions, List.mem_append, List.mem_map]
        exact .inr ⟨S, hS, rfl⟩
      · exact h3 t ht

theorem toPda_some [Monoid W] [AddMonoid W] (G : CFG N T W) : ∃ P, G.toPda = some P := by
  unfold toPda PDA.new
  have h := PDA.foldlM_isSome G.pdaTransitions (⟨(PushDown.integ.integerise Integeriser.new (PushDown.new .designated .initial)).1, Integeriser.new, []⟩ :
    PDA.BuildState (PushState N T) T W) (by
      intro t ht
      unfold pdaTransitions at ht
      rw [List.mem_append, List.mem_append] at ht
      rcases ht with (ht | ht) | ht
      · obtain ⟨r, hr, rfl⟩ := List.mem_map.1 ht; simp [ruleTransition]
      · obtain ⟨r, hr, rfl⟩ := List.mem_map.1 ht; simp [readTransition]
      · obtain ⟨r, hr, rfl⟩ := List.mem_map.1 ht; simp [initialTransition])
  obtain ⟨s, hs⟩ := Option.isSome_iff_exists.1 h
  simp only [hs]
  exact ⟨_, rfl⟩

end CFG

/-! ### merging transitions -/

/-- The language only depends on words and instructions of the transitions. -/
theorem language_of_keys {S I T W : Type _} [Monoid W] {D D' : Device S I T W} (h1 : D.apply = D'.apply) (h2 : D.initial = D'.initial)
    (h3 : D.accepts = D'.accepts) (h4 : ∀ k, k ∈ D.transitions.map PDA.keyOf ↔ k ∈ D'.transitions.map PDA.keyOf) (w : List T) :
    D.Language w → D'.Language w := by
  rintro ⟨ts, s, u, ⟨⟨he, hm⟩, hacc⟩⟩
  have : ∃ ts', List.Forall₂ (fun t t' : Transition I T W => PDA.keyOf t = PDA.keyOf t') ts ts' ∧ ∀ t ∈ ts', t ∈ D'.transitions := by
    clear he
    induction ts with
    | nil => exact ⟨[], .nil, by simp⟩
    | cons t ts ih =>
      obtain ⟨ts', h5, h6⟩ := ih (fun t ht => hm t (by simp [ht]))
      obtain ⟨t', h7, h8⟩ := List.mem_map.1 ((h4 (PDA.keyOf t)).1 (List.mem_map.2 ⟨t, hm t (by simp), rfl⟩))
      refine ⟨t' :: ts', .cons h8.symm h5, ?_⟩
      intro x hx
      rcases List.mem_cons.1 hx with rfl | hx
      · exact h7
      · exact h6 x hx
  obtain ⟨ts', h5, h6⟩ := this
  rw [exec_iff] at he
  obtain ⟨e1, e2, e3⟩ := he
  have hw : wordOf ts = wordOf ts' := by
    unfold wordOf
    clear e1 e2 e3 hm h6
    induction h5 with
    | nil => rfl
    | cons h7 _ ih => simp only [List.flatMap_cons, ih, (Prod.mk.inj h7).1]
  have hi : ts.map Transition.instruction = ts'.map Transition.instruction := by
    clear e1 e2 e3 hm h6 hw
    induction h5 with
    | nil => rfl
    | cons h7 _ ih => simp only [List.map_cons, ih, (Prod.mk.inj h7).2]
  refine ⟨ts', s, weightOf ts', ⟨?_, h6⟩, by rw [← h3]; exact hacc⟩
  rw [exec_iff]
  refine ⟨by rw [← hw]; exact e1, ?_, by simp⟩
  simp only at e2 ⊢
  rw [← hi, ← h1, ← h2]
  exact e2

/-- Without repetitions, merging changes nothing. -/
theorem PDA.total_of_nodup {I T W : Type _} [AddZeroClass W] [DecidableEq I] [DecidableEq T] {ts : List (Transition I T W)}
    (h : (ts.map PDA.keyOf).Nodup) {t : Transition I T W} (ht : t ∈ ts) : PDA.total ts (PDA.keyOf t) = t.weight := by
  induction ts with
  | nil => simp at ht
  | cons a ts ih =>
    rw [List.map_cons, List.nodup_cons] at h
    rw [total, List.filter_cons]
    rcases List.mem_cons.1 ht with rfl | ht
    · have : (ts.filter fun t' => keyOf t' = keyOf t) = [] := by
        rw [List.filter_eq_nil_iff]
        intro t' ht' e
        exact h.1 (List.mem_map.2 ⟨t', ht', by simpa using e⟩)
      simp [this]
    · have : ¬ keyOf a = keyOf t := by
        intro e
        exact h.1 (List.mem_map.2 ⟨t, ht, e.symm⟩)
      simp only [this, decide_false]
      rw [total] at ih
      exact ih h.2 ht

theorem PDA.Built.mem_iff {A T W : Type _} [DecidableEq A] [DecidableEq T] [AddZeroClass W] {P : PDA A T W} {ts L : List (Transition (PdInstr A) T W)}
    {initial : PushDown A} (h : PDA.Built P ts initial L) (hnd : (ts.map PDA.keyOf).Nodup) (t : Transition (PdInstr A) T W) :
    t ∈ L ↔ t ∈ ts := by
  constructor
  · intro ht
    obtain ⟨t', h1, h2⟩ := List.mem_map.1 ((h.mem _).1 (List.mem_map.2 ⟨t, ht, rfl⟩))
    have h3 := h.weight t ht
    rw [← h2, PDA.total_of_nodup hnd h1] at h3
    obtain ⟨a, b, c⟩ := t
    obtain ⟨a', b', c'⟩ := t'
    obtain ⟨rfl, rfl⟩ := Prod.mk.inj h2
    simp only at h3
    subst h3
    exact h1
  · intro ht
    obtain ⟨t', h1, h2⟩ := List.mem_map.1 ((h.mem _).2 (List.mem_map.2 ⟨t, ht, rfl⟩))
    have h3 := h.weight t' h1
    rw [h2, PDA.total_of_nodup hnd ht] at h3
    obtain ⟨a, b, c⟩ := t
    obtain ⟨a', b', c'⟩ := t'
    obtain ⟨rfl, rfl⟩ := Prod.mk.inj h2
    simp only at h3
    subst h3
    exact h1

end Rustomata
