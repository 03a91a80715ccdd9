import Verif.Proofs.CfgAutomaton
import Verif.Props.Cfg
import Verif.Props.Ends

/-!
# Property C72: parsing with context-free grammars ends if no left recursive nonterminal is reached

Only property theorems, the lemmas that combine them, and the examples that show their hypotheses to be satisfiable.
-/

namespace Rustomata.Props
open Rustomata Rustomata.Spec
variable {N T W H : Type _} [DecidableEq N] [DecidableEq T]

/-- **C72** Parsing a word with the automaton of a context-free grammar ends if and only if no left recursive nonterminal can become the leftmost nonterminal to the right
of a prefix of the word. For all grammars, for all words whose symbols occur in the grammar, and for each agenda that loses nothing. -/
theorem C72_word [Monoid W] [AddMonoid W] (G : CFG N T W) {P : PDA (PushState N T) T W} (hP : G.toPda = some P)
    {ag : Agenda H (Item (PushDown Nat) (PdInstr Nat) Nat W)} {content : H → Multiset (Item (PushDown Nat) (PdInstr Nat) Nat W)} (hG : ag.Lossless content)
    {empty : H} (hempty : content empty = 0) {w : List T} (hw : ∀ x ∈ w, ∃ r ∈ G.rules, .value x ∈ r.composition) :
    (∃ n out a, P.recognise ag empty w n = some (out, a) ∧ ag.pop a = none) ↔ ¬ ∃ v A, v <+: w ∧ Exposed G v A ∧ CfgLeftRecursive G A := by
  obtain ⟨L, _, hB⟩ := PDA.new_built hP
  exact cfg_ends_iff hB hG hempty hw

/-- **C72** If no left recursive nonterminal is reached with a prefix of the word, parsing ends, also for words with unknown symbols. -/
theorem C72_ends [Monoid W] [AddMonoid W] (G : CFG N T W) {P : PDA (PushState N T) T W} (hP : G.toPda = some P)
    {ag : Agenda H (Item (PushDown Nat) (PdInstr Nat) Nat W)} {content : H → Multiset (Item (PushDown Nat) (PdInstr Nat) Nat W)} (hG : ag.Sound content)
    {empty : H} (hempty : content empty = 0) {w : List T} (h : ∀ v A, v <+: w → Exposed G v A → ¬ CfgLeftRecursive G A) :
    ∃ n₀, ∀ n ≥ n₀, ∃ out a, P.recognise ag empty w n = some (out, a) ∧ ag.pop a = none := by
  obtain ⟨L, _, hB⟩ := PDA.new_built hP
  exact cfg_ends hB hG hempty h

/-- **C72** Parsing ends for all words if and only if no left recursive nonterminal can become the leftmost nonterminal of a sentential form. -/
theorem C72_all [Monoid W] [AddMonoid W] (G : CFG N T W) {P : PDA (PushState N T) T W} (hP : G.toPda = some P)
    {ag : Agenda H (Item (PushDown Nat) (PdInstr Nat) Nat W)} {content : H → Multiset (Item (PushDown Nat) (PdInstr Nat) Nat W)} (hG : ag.Lossless content)
    {empty : H} (hempty : content empty = 0) :
    (∀ w, ∃ n out a, P.recognise ag empty w n = some (out, a) ∧ ag.pop a = none) ↔ ∀ v A, Exposed G v A → ¬ CfgLeftRecursive G A := by
  constructor
  · intro h v A hA hrec
    exact (C72_word G hP hG hempty (exposed_symbols hA)).1 (h v) ⟨v, A, List.prefix_refl v, hA, hrec⟩
  · intro h w
    obtain ⟨n, hn⟩ := C72_ends G hP hG.sound hempty (w := w) fun v A _ hA => h v A hA
    obtain ⟨out, a, h1, h2⟩ := hn n (le_refl _)
    exact ⟨n, out, a, h1, h2⟩

/-- **C72** Also with left recursion: if the weights of the rules fade, the parses of all derivations of weight at least `v` are returned after finitely many steps. -/
theorem C72_fair [CommMonoid W] [AddMonoid W] [Preorder W] (G G' : CFG N T W) {P : PDA (PushState N T) T W} (hP : G.toPda = some P) (hM : MergedCfg G G')
    (hle : ∀ r ∈ G'.rules, ∀ u : W, u * r.weight ≤ u) (hin : ∀ S ∈ G'.initial, ∀ u : W, u * startTotal G S ≤ u) {v : W} (hf : Fades (G'.rules.map CFGRule.weight) v)
    {ag : Agenda H (Item (PushDown Nat) (PdInstr Nat) Nat W)} {content : H → Multiset (Item (PushDown Nat) (PdInstr Nat) Nat W)}
    (hG : HeapLaws ag content fun i => i.conf.weight) {empty : H} (hempty : content empty = 0) (w : List T) :
    ∃ m₀, ∀ m ≥ m₀, ∃ out a ds, P.recognise ag empty w m = some (out, a) ∧ ds.Nodup ∧
      List.Forall₂ (fun i d => CfgDerivation G' w d ∧ i.conf = ⟨[], [.designated], derivationWeight G d⟩) out ds ∧
      ∀ d, CfgDerivation G' w d → v ≤ derivationWeight G d → d ∈ ds := by
  obtain ⟨L, _, hB⟩ := PDA.new_built hP
  exact cfg_fair hB hM hle hin hf hG hempty w

/-- **C22** For all grammars, also with repeated rules and repeated initial nonterminals: accepting runs and leftmost derivations of the merged grammar correspond one to one,
with equal word and weight. In the merged grammar, rules that are equal up to their weights are one rule with the sum of the weights. -/
theorem C22_merged [Monoid W] [AddMonoid W] (G : CFG N T W) {P : PDA (PushState N T) T W} {L : List (Transition (PdInstr (PushState N T)) T W)} (hP : G.toPda = some P)
    (hL : P.listTransitions = some L) : ∃ G', MergedCfg G G' ∧ ∃ run : N × List (CFGRule N T W) → List (Transition (PdInstr (PushState N T)) T W),
      (∀ w ts s u, (PDA.device L [.designated, .initial]).Accepting w ts s u ↔
        s = [.designated] ∧ ∃ d, CfgDerivation G' w d ∧ ts = run d ∧ u = derivationWeight G d) ∧
      (∀ d d' w w', CfgDerivation G' w d → CfgDerivation G' w' d' → run d = run d' → d = d') := by
  obtain ⟨L', h1, h2⟩ := PDA.new_built hP
  obtain rfl : L' = L := by rw [hL] at h1; exact (Option.some.inj h1).symm
  obtain ⟨G', hM⟩ := exists_mergedCfg G
  refine ⟨G', hM, derivationRun G, fun w ts s u => ?_, fun d d' w w' h h' he => derivationRun_injective h h' he⟩
  refine (CFG.accepting_merged (CFG.transitions_merged hM h2.transitions)).trans ⟨?_, ?_⟩
  · rintro ⟨rfl, S, hS, rs, h3, h4, h5⟩
    exact ⟨rfl, (S, rs), ⟨hS, h3⟩, h4, h5⟩
  · rintro ⟨rfl, d, h3, h4, h5⟩
    exact ⟨rfl, d.1, h3.1, d.2, h3.2, h4, h5⟩

/-! ### Examples -/

namespace C72Example

/-- `S → A S b`, `S → ε`, `A → ε`, `A → a`: `S` is left recursive because `A` derives the empty word. -/
def hidden : CFG Char Char Nat :=
  ⟨['S'], [⟨'S', [.label 'A', .label 'S', .value 'b'], 1⟩, ⟨'S', [], 1⟩, ⟨'A', [], 1⟩, ⟨'A', [.value 'a'], 1⟩]⟩

/-- `S → a X`, `S → b`, `X → X c`, `X → c`: the left recursive `X` is exposed only after `a`. -/
def later : CFG Char Char Nat :=
  ⟨['S'], [⟨'S', [.value 'a', .label 'X'], 1⟩, ⟨'S', [.value 'b'], 1⟩, ⟨'X', [.label 'X', .value 'c'], 1⟩, ⟨'X', [.value 'c'], 1⟩]⟩

theorem hidden_recursive : CfgLeftRecursive hidden 'S' :=
  .single ⟨⟨'S', [.label 'A', .label 'S', .value 'b'], 1⟩, by simp [hidden], rfl, [.label 'A'], [.value 'b'], rfl,
    yields_iff.2 ⟨[⟨'A', [], 1⟩], .expand (r := ⟨'A', [], 1⟩) (by simp [hidden]) .nil⟩⟩

theorem later_exposed {v : List Char} {A : Char} (h : Exposed later v A) : v = [] ∧ A = 'S' ∨ (∃ x, v = 'a' :: x) ∧ A = 'X' := by
  induction h with
  | initial hS => left; simpa [later] using hS
  | @step u v A r α β B _ hr hA hc hv ih =>
    simp only [later, List.mem_cons, List.not_mem_nil, or_false] at hr
    rcases hr with rfl | rfl | rfl | rfl
    · subst hA
      match α, hc with
      | [], hc => simp at hc
      | [_], hc =>
        simp only [List.cons_append, List.nil_append, List.cons.injEq, LetterT.label.injEq] at hc
        obtain ⟨rfl, rfl, _⟩ := hc
        obtain ⟨rs, hl⟩ := yields_iff.1 hv
        clear hv
        cases hl with
        | read hl =>
          cases hl
          rcases ih with ⟨rfl, _⟩ | ⟨⟨x, rfl⟩, h⟩
          · exact .inr ⟨⟨[], rfl⟩, rfl⟩
          · exact .inr ⟨⟨x ++ ['a'], rfl⟩, rfl⟩
      | _ :: _ :: α, hc => simp at hc
    · match α, hc with
      | [], hc => simp at hc
      | _ :: α, hc => simp at hc
    · subst hA
      rcases ih with ⟨_, h⟩ | ⟨⟨x, rfl⟩, _⟩
      · exact absurd h (by decide)
      · match α, hc with
        | [], hc =>
          simp only [List.nil_append, List.cons.injEq, LetterT.label.injEq] at hc
          obtain ⟨rfl, _⟩ := hc
          exact .inr ⟨⟨x ++ v, rfl⟩, rfl⟩
        | [_], hc => simp at hc
        | _ :: _ :: α, hc => simp at hc
    · match α, hc with
      | [], hc => simp at hc
      | _ :: α, hc => simp at hc

theorem later_not_S : ¬ CfgLeftRecursive later 'S' := by
  intro h
  obtain ⟨B, hB, _⟩ := Relation.TransGen.head'_iff.1 h
  obtain ⟨r, hr, hS, α, β, hc, hv⟩ := hB
  simp only [later, List.mem_cons, List.not_mem_nil, or_false] at hr
  obtain ⟨rs, hv⟩ := yields_iff.1 hv
  rcases hr with rfl | rfl | rfl | rfl
  · match α, hc with
    | [], hc => simp at hc
    | _ :: α, hc =>
      simp only [List.cons_append, List.cons.injEq] at hc
      obtain ⟨rfl, _⟩ := hc
      cases hv
  · match α, hc with
    | [], hc => simp at hc
    | _ :: α, hc => simp at hc
  · exact absurd hS (by decide)
  · exact absurd hS (by decide)

theorem later_recursive : CfgLeftRecursive later 'X' :=
  .single ⟨⟨'X', [.label 'X', .value 'c'], 1⟩, by simp [later], rfl, [], [.value 'c'], rfl, yields_iff.2 ⟨[], .nil⟩⟩

/-- Parsing `bc` ends, and parsing `ac` does not. -/
example {P : PDA (PushState Char Char) Char Nat} (hP : later.toPda = some P) :
    (∃ n out a, P.recognise (dequeAgenda _) [] ['b', 'c'] n = some (out, a) ∧ (dequeAgenda _).pop a = none) ∧
    ¬ ∃ n out a, P.recognise (dequeAgenda _) [] ['a', 'c'] n = some (out, a) ∧ (dequeAgenda _).pop a = none := by
  constructor
  · refine (C72_word later hP dequeAgenda_lossless rfl ?_).2 ?_
    · intro x hx
      simp only [List.mem_cons, List.not_mem_nil, or_false] at hx
      rcases hx with rfl | rfl
      · exact ⟨⟨'S', [.value 'b'], 1⟩, by simp [later], by simp⟩
      · exact ⟨⟨'X', [.value 'c'], 1⟩, by simp [later], by simp⟩
    · rintro ⟨v, A, hv, hA, hrec⟩
      rcases later_exposed hA with ⟨_, rfl⟩ | ⟨⟨x, rfl⟩, _⟩
      · exact later_not_S hrec
      · obtain ⟨z, hz⟩ := hv
        simp at hz
  · intro h
    refine (C72_word later hP dequeAgenda_lossless rfl ?_).1 h ⟨['a'], 'X', ⟨['c'], rfl⟩, ?_, later_recursive⟩
    · intro x hx
      simp only [List.mem_cons, List.not_mem_nil, or_false] at hx
      rcases hx with rfl | rfl
      · exact ⟨⟨'S', [.value 'a', .label 'X'], 1⟩, by simp [later], by simp⟩
      · exact ⟨⟨'X', [.value 'c'], 1⟩, by simp [later], by simp⟩
    · exact .step (u := []) (v := ['a']) (α := [.value 'a']) (β := []) (.initial (S := 'S') (by simp [later])) (r := ⟨'S', [.value 'a', .label 'X'], 1⟩) (by simp [later]) rfl rfl
        (Spec.Yields.value _ _)

/-- With `hidden`, parsing never ends. -/
example {P : PDA (PushState Char Char) Char Nat} (hP : hidden.toPda = some P) :
    ¬ ∃ n out a, P.recognise (dequeAgenda _) [] ['a', 'b'] n = some (out, a) ∧ (dequeAgenda _).pop a = none := by
  intro h
  refine (C72_word hidden hP dequeAgenda_lossless rfl ?_).1 h ⟨[], 'S', ⟨_, rfl⟩, .initial (by simp [hidden]), hidden_recursive⟩
  intro x hx
  simp only [List.mem_cons, List.not_mem_nil, or_false] at hx
  rcases hx with rfl | rfl
  · exact ⟨⟨'A', [.value 'a'], 1⟩, by simp [hidden], by simp⟩
  · exact ⟨⟨'S', [.label 'A', .label 'S', .value 'b'], 1⟩, by simp [hidden], by simp⟩

example : ∃ P, later.toPda = some P := CFG.toPda_some later
example : ∃ P, hidden.toPda = some P := CFG.toPda_some hidden

/-- `S → S a`, `S → a` with the weight 1/2. -/
def half : CFG Char Char ℚ≥0 := ⟨['S'], [⟨'S', [.label 'S', .value 'a'], 1 / 2⟩, ⟨'S', [.value 'a'], 1 / 2⟩]⟩

/-- Parsing `aa` never ends, but the derivation is found. -/
example {P : PDA (PushState Char Char) Char ℚ≥0} (hP : half.toPda = some P) : ∃ m₀, ∀ m ≥ m₀, ∃ out a ds,
    P.recognise (listHeap fun i => i.conf.weight) [] ['a', 'a'] m = some (out, a) ∧ ds.Nodup ∧
      List.Forall₂ (fun i d => CfgDerivation half ['a', 'a'] d ∧ i.conf = ⟨[], [.designated], derivationWeight half d⟩) out ds ∧
      ∀ d, CfgDerivation half ['a', 'a'] d → 1 / 4 ≤ derivationWeight half d → d ∈ ds := by
  have hM : MergedCfg half half := mergedCfg_self (by decide +kernel) (by decide +kernel)
  have hw : ∀ r ∈ half.rules, r.weight = 1 / 2 := by decide +kernel
  refine C72_fair half half hP hM (fun r hr u => ?_) (fun S hS u => ?_) ?_ (listHeap_laws _) rfl _
  · rw [hw r hr]
    exact mul_le_of_le_one_right' (by norm_num)
  · rw [startTotal_of_nodup (by decide +kernel) hS, mul_one]
  · exact C70_probabilities (fun u hu => by
      obtain ⟨r, hr, rfl⟩ := List.mem_map.1 hu
      rw [hw r hr]; norm_num) (by norm_num)

end C72Example

end Rustomata.Props
