import Verif.Proofs.Cfg
import Verif.Props.Pda

/-!
# Property C22: context-free grammars and their push-down automata
-/

namespace Rustomata.Props
open Spec

variable {N T W H : Type _} [DecidableEq N] [DecidableEq T]

/-- The store `[Designated, Initial]` the automaton starts with. -/
private abbrev start : PushDown (PushState N T) := PushDown.new .designated .initial

/-- **C22** The automaton exists (no panic), and with its listed transitions it accepts exactly the words that the grammar generates
by arbitrary rewriting from an initial nonterminal; for all grammars. -/
theorem C22_language [Monoid W] [AddMonoid W] (G : CFG N T W) :
    ∃ P L, G.toPda = some P ∧ P.listTransitions = some L ∧ P.initialStore = some start ∧
      ∀ w, (PDA.device L start).Language w ↔ Generates G w := by
  obtain ⟨P, hP⟩ := CFG.toPda_some (W := W) G
  obtain ⟨L, h1, h2⟩ := PDA.new_built hP
  refine ⟨P, L, hP, h1, PushDown.integLaws.unInteg.2 h2.init, ?_⟩
  intro w
  have hl : (PDA.device L start).Language w ↔ (PDA.device G.pdaTransitions start).Language w :=
    ⟨language_of_keys (D := PDA.device L start) (D' := PDA.device G.pdaTransitions start) rfl rfl rfl h2.mem w,
      language_of_keys (D := PDA.device G.pdaTransitions start) (D' := PDA.device L start) rfl rfl rfl (fun k => (h2.mem k).symm) w⟩
  rw [hl, generates_iff]
  constructor
  · rintro ⟨ts, s, u, h⟩
    obtain ⟨_, S, hS, rs, h3, _⟩ := CFG.accepting_iff.1 h
    exact ⟨S, hS, rs, h3⟩
  · rintro ⟨S, hS, rs, h⟩
    exact ⟨_, _, _, CFG.accepting_iff.2 ⟨rfl, S, hS, rs, h, rfl, rfl⟩⟩

/-- The weight part of C22: every leftmost derivation from an initial nonterminal has an accepting run with its weight, and vice versa. -/
def C22_weights_claim : Prop :=
  ∀ (G : CFG Char Char Nat) (P : PDA (PushState Char Char) Char Nat) (L : List (Transition (PdInstr (PushState Char Char)) Char Nat)),
    G.toPda = some P → P.listTransitions = some L → ∀ w u,
      (∃ ts s, (PDA.device L start).Accepting w ts s u) ↔ ∃ S ∈ G.initial, ∃ rs, Leftmost G [.label S] rs w ∧ u = ruleWeight rs

/-- **C22** The weights can differ: rules that occur twice (with different weights), and initial nonterminals that occur twice, are merged into one
transition with the sum of the weights. Here `S → a` has the weights 3 and 2, and only a run with weight 5 remains. -/
theorem C22_weights_violated : ¬ C22_weights_claim := by
  intro h
  have h1 := (h ⟨['S'], [⟨'S', [.value 'a'], 3⟩, ⟨'S', [.value 'a'], 2⟩]⟩ _ _ rfl rfl ['a'] 3).2
    ⟨'S', by simp, [⟨'S', [.value 'a'], 3⟩], .expand (r := ⟨'S', [.value 'a'], 3⟩) (by simp) (.read .nil), rfl⟩
  obtain ⟨ts, s, ⟨he, hm⟩, hacc⟩ := h1
  rw [exec_iff] at he
  obtain ⟨e1, e2, e3⟩ := he
  -- all weights are 1 or 5
  have : ∀ (l : List (Transition (PdInstr (PushState Char Char)) Char Nat)), (∀ t ∈ l, t.weight = 1 ∨ t.weight = 5) → weightOf l = 1 ∨ 5 ∣ weightOf l := by
    intro l
    induction l with
    | nil => intro _; left; rfl
    | cons t l ih =>
      intro hl
      have hw : weightOf (t :: l) = t.weight * weightOf l := by simp [weightOf_eq]
      rw [hw]
      rcases hl t (by simp) with h1 | h1
      · rw [h1, one_mul]; exact ih (fun t ht => hl t (by simp [ht]))
      · right; rw [h1]; exact Dvd.intro _ rfl
  have h2 := this ts (by
    intro t ht
    have := hm t ht
    revert t
    intro t _ ht
    have hall : ∀ t ∈ ((CFG.toPda (⟨['S'], [⟨'S', [.value 'a'], 3⟩, ⟨'S', [.value 'a'], 2⟩]⟩ : CFG Char Char Nat)).bind PDA.listTransitions).getD [],
      t.weight = 1 ∨ t.weight = 5 := by decide
    exact hall t ht)
  simp only [one_mul] at e3
  rw [← e3] at h2
  omega

/-- **C22** If no rule occurs twice (up to weight) and no initial nonterminal occurs twice, then leftmost derivations from initial nonterminals and
accepting runs correspond one to one, with equal word and weight. -/
theorem C22_weights_partial [Monoid W] [AddMonoid W] (G : CFG N T W) (hr : (G.rules.map fun r => (r.head, r.composition)).Nodup) (hi : G.initial.Nodup)
    {P : PDA (PushState N T) T W} {L : List (Transition (PdInstr (PushState N T)) T W)} (hP : G.toPda = some P) (hL : P.listTransitions = some L) :
    ∃ run : N → List (CFGRule N T W) → List (Transition (PdInstr (PushState N T)) T W),
      (∀ w ts s u, (PDA.device L start).Accepting w ts s u ↔
        s = [.designated] ∧ ∃ S ∈ G.initial, ∃ rs, Leftmost G [.label S] rs w ∧ ts = run S rs ∧ u = ruleWeight rs) ∧
      (∀ S S' rs rs' w w', Leftmost G [.label S] rs w → Leftmost G [.label S'] rs' w' → run S rs = run S' rs' → S = S' ∧ rs = rs') := by
  obtain ⟨L', h1, h2⟩ := PDA.new_built hP
  obtain rfl : L' = L := by rw [hL] at h1; exact (Option.some.inj h1).symm
  have hnd : (G.pdaTransitions.map PDA.keyOf).Nodup := by
    unfold CFG.pdaTransitions
    rw [List.map_append, List.map_append, List.map_map, List.map_map, List.map_map]
    refine List.Nodup.append (List.Nodup.append ?_ ?_ ?_) ?_ ?_
    · have : G.rules.map (PDA.keyOf ∘ CFG.ruleTransition) =
          (G.rules.map fun r => (r.head, r.composition)).map fun p => (([] : List T), (⟨[.nt p.1], CFG.pushString p.2⟩ : PdInstr (PushState N T))) := by
        rw [List.map_map]; rfl
      rw [this]
      refine List.Nodup.map ?_ hr
      rintro ⟨a, b⟩ ⟨c, d⟩ h
      simp only [Prod.mk.injEq, PdInstr.mk.injEq, List.cons.injEq, PushState.nt.injEq, and_true, true_and] at h
      rw [h.1, CFG.pushString_injective h.2]
    · refine List.Nodup.map ?_ (CFG.nodup_terminals G)
      intro a b h
      simpa [PDA.keyOf, CFG.readTransition] using h
    · rw [List.disjoint_left]
      intro x hx hy
      obtain ⟨r, _, rfl⟩ := List.mem_map.1 hx
      obtain ⟨t, _, h⟩ := List.mem_map.1 hy
      simp [PDA.keyOf, CFG.readTransition, CFG.ruleTransition] at h
    · refine List.Nodup.map ?_ hi
      intro a b h
      simpa [PDA.keyOf, CFG.initialTransition] using h
    · rw [List.disjoint_left]
      intro x hx hy
      obtain ⟨n, _, rfl⟩ := List.mem_map.1 hy
      rcases List.mem_append.1 hx with hx | hx
      · obtain ⟨r, _, h⟩ := List.mem_map.1 hx
        simp [PDA.keyOf, CFG.initialTransition, CFG.ruleTransition] at h
      · obtain ⟨r, _, h⟩ := List.mem_map.1 hx
        simp [PDA.keyOf, CFG.initialTransition, CFG.readTransition] at h
  refine ⟨fun S rs => CFG.initialTransition S :: CFG.runOf [.label S] rs, ?_, ?_⟩
  · intro w ts s u
    rw [← CFG.accepting_iff]
    constructor
    · rintro ⟨⟨h3, h4⟩, h5⟩; exact ⟨⟨h3, fun t ht => (h2.mem_iff hnd t).1 (h4 t ht)⟩, h5⟩
    · rintro ⟨⟨h3, h4⟩, h5⟩; exact ⟨⟨h3, fun t ht => (h2.mem_iff hnd t).2 (h4 t ht)⟩, h5⟩
  · intro S S' rs rs' w w' h3 h4 h5
    simp only [List.cons.injEq] at h5
    obtain ⟨h5, h6⟩ := h5
    simp only [CFG.initialTransition, Transition.mk.injEq, PdInstr.mk.injEq, List.cons.injEq, PushState.nt.injEq, and_true, true_and] at h5
    subst h5
    exact ⟨rfl, CFG.runOf_injective h3 h4 h6⟩

/-- **C22**/**C51** Recognition with the automaton of a grammar never panics. -/
theorem C22_no_panic [Monoid W] [AddMonoid W] (G : CFG N T W) {P : PDA (PushState N T) T W} (hP : G.toPda = some P)
    {ag : Agenda H (Item (PushDown Nat) (PdInstr Nat) Nat W)} {content : H → Multiset (Item (PushDown Nat) (PdInstr Nat) Nat W)} (hG : ag.Sound content)
    {empty : H} (hempty : content empty = 0) (w : List T) (n : Nat) : ∃ r, P.recognise ag empty w n = some r := by
  refine C51_pda_no_panic_partial hP ?_ hG hempty w n
  intro L hL w ts c ⟨he, hm⟩
  obtain ⟨L', h1, h2⟩ := PDA.new_built hP
  obtain rfl : L' = L := by rw [hL] at h1; exact (Option.some.inj h1).symm
  -- the bottom symbol is never removed
  have hcur : ∀ t ∈ L', ∃ a, t.instruction.current = [a] ∧ a ≠ .designated := by
    intro t ht
    obtain ⟨t', h3, h4⟩ := List.mem_map.1 ((h2.mem _).1 (List.mem_map.2 ⟨t, ht, rfl⟩))
    rw [show t.instruction = t'.instruction from (Prod.mk.inj h4).2.symm]
    unfold CFG.pdaTransitions at h3
    rw [List.mem_append, List.mem_append] at h3
    rcases h3 with (h3 | h3) | h3 <;> obtain ⟨r, _, rfl⟩ := List.mem_map.1 h3
    · exact ⟨_, rfl, by simp⟩
    · exact ⟨_, rfl, by simp⟩
    · exact ⟨_, rfl, by simp⟩
  have key : ∀ (ts : List (Transition (PdInstr (PushState N T)) T W)) (c c' : Configuration (PushDown (PushState N T)) T W),
      Exec PdInstr.apply c ts c' → (∀ t ∈ ts, t ∈ L') → c.storage.head? = some .designated → c'.storage.head? = some .designated := by
    intro ts c c' he
    induction he with
    | nil => intro _ h; exact h
    | @cons c t c1 ts c2 hst _ ih =>
      intro hm hc
      refine ih (fun t ht => hm t (by simp [ht])) ?_
      obtain ⟨below, h3, h4⟩ := PdInstr.mem_apply.1 hst.storage
      obtain ⟨a, h5, h6⟩ := hcur t (hm t (by simp))
      rw [h5] at h3
      cases below with
      | nil =>
        rw [h3] at hc
        simp at hc
        exact absurd hc h6
      | cons b bs =>
        rw [h3] at hc
        rw [h4]
        simpa using hc
  have := key ts _ _ he hm rfl
  intro e
  rw [e] at this
  simp at this

/-- **C22** Deciding membership by recognition: whatever is returned is a parse of a generated word, and if recognition has ended, something has been
returned iff the grammar generates the word. -/
theorem C22_recognise [Monoid W] [AddMonoid W] [DecidableEq W] (G : CFG N T W) {P : PDA (PushState N T) T W} (hP : G.toPda = some P)
    {ag : Agenda H (Item (PushDown Nat) (PdInstr Nat) Nat W)} {content : H → Multiset (Item (PushDown Nat) (PdInstr Nat) Nat W)} (hG : ag.Lossless content)
    {empty : H} (hempty : content empty = 0) {w : List T} {n : Nat} {out : List (Item (PushDown (PushState N T)) (PdInstr (PushState N T)) T W)} {a : H}
    (hrun : P.recognise ag empty w n = some (out, a)) :
    (out ≠ [] → Generates G w) ∧ (ag.pop a = none → (out ≠ [] ↔ Generates G w)) := by
  obtain ⟨P', L, h1, h2, h3, h4⟩ := C22_language G
  obtain rfl : P = P' := by rw [hP] at h1; exact Option.some.inj h1
  have hs : out ≠ [] → Generates G w := by
    intro hne
    obtain ⟨i, is, rfl⟩ := List.exists_cons_of_ne_nil hne
    obtain ⟨L', h5, h6⟩ := C16_pda_sound hP hG.sound hempty hrun
    obtain rfl : L' = L := by rw [h2] at h5; exact (Option.some.inj h5).symm
    exact (h4 w).1 ⟨_, _, _, (h6 i (by simp)).2⟩
  refine ⟨hs, fun hend => ⟨hs, ?_⟩⟩
  intro hg
  obtain ⟨ts, s, u, h5⟩ := (h4 w).2 hg
  obtain ⟨L', h6, _, h7⟩ := C17_pda_exact hP hG hempty hrun hend
  obtain rfl : L' = L := by rw [h2] at h6; exact (Option.some.inj h6).symm
  have hv : (Pushdown.ofSlice ts).toVec = ts := by
    unfold Pushdown.ofSlice; rw [Pushdown.toVec_foldl]; simp
  have := (h7 ⟨⟨[], s, u⟩, Pushdown.ofSlice ts⟩).2 ⟨rfl, by rw [hv]; exact h5⟩
  exact List.ne_nil_of_mem this

/-- The grammar `S → a S b | ε`. -/
private def exCfg : CFG Char Char Nat := ⟨['S'], [⟨'S', [.value 'a', .label 'S', .value 'b'], 2⟩, ⟨'S', [], 3⟩]⟩

example : (exCfg.rules.map fun r => (r.head, r.composition)).Nodup ∧ exCfg.initial.Nodup := by decide

example : (exCfg.toPda.bind fun P => P.recognise (dequeAgenda _) [] ['a', 'a', 'b', 'b'] 20).map
    (fun r => r.1.map fun i => i.run.toVec.map Transition.word) = some [[[], [], ['a'], [], ['a'], [], ['b'], ['b']]] := by decide

example : (exCfg.toPda.bind fun P => P.recognise (dequeAgenda _) [] ['a', 'a', 'b', 'b'] 20).map
    (fun r => (r.1.map fun i => i.conf.weight, r.2.length)) = some ([12], 0) := by decide

example : Leftmost exCfg [.label 'S'] [⟨'S', [.value 'a', .label 'S', .value 'b'], 2⟩, ⟨'S', [], 3⟩] ['a', 'b'] :=
  .expand (r := ⟨'S', [.value 'a', .label 'S', .value 'b'], 2⟩) (by decide) (.read (.expand (r := ⟨'S', [], 3⟩) (by decide) (.read .nil)))

end Rustomata.Props
