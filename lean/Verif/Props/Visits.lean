import Verif.Proofs.VisitsDerives
import Verif.Props.FromPmcfg

/-!
# Property C77: what the tree stack automaton of an arbitrary PMCFG does

Only property theorems and the examples that show their hypotheses to be satisfiable. C28 and C53 compare the automaton with the derivations of the grammar, and
their claims only hold for grammars of a restricted form. Here, all grammars are admitted. Which words are accepted is stated in `Spec/Visits`: the components of
nonterminals are visited one after the other, without the terminals that the construction loses.
-/

namespace Rustomata.Props
open Rustomata Rustomata.Spec
variable {N T W H : Type _} [CommMonoid W] [DecidableEq N] [DecidableEq T]

/-- **C77**: each accepting run of the automaton of any grammar is empty, or the word is accepted by visiting components, with the weight of the run, and the
abstract syntax tree of the tree stack contains the rules that were used. -/
theorem C77_sound (g : PMCFG N T W) (ts : List (TsaTransition N T W)) (hts : tsaTransitions g = some ts) {w : List T} {run : List (TsaTransition N T W)}
    {s : TreeStack (TsaSymbol N T)} {u : W} (h : (TSA.device ts (TreeStack.new .initial)).Accepting w run s u) :
    (run = [] ∧ w = [] ∧ u = 1) ∨ ∃ S ∈ g.initial, ∃ labels, Visited cutTrails g.rules S [0] labels [w] u ∧
      ∃ m, toAbstractSyntaxTree s.toTree.1 = some m ∧ ∀ p, GornTree.get m p = (labels p).map PMCFGRule.key := by
  obtain ⟨⟨h1, h2⟩, h3⟩ := h
  rw [exec_iff] at h1
  obtain ⟨h4, h5, h6⟩ := h1
  simp only [List.append_nil, one_mul] at h4 h6
  simp only [TSA.device, TreeStack.isAtBottom, List.isEmpty_iff] at h2 h3 h5
  have m1 := tsaTransitions_step hts
  obtain ⟨m2, _, m3⟩ := (tsaTransitions_some g).1 ⟨ts, hts⟩
  have hruns : Steps g (TreeStack.new .initial) w u s := ⟨run, fun t ht => (m1 t).1 (h2 t ht), h5, h4.symm, h6.symm⟩
  rcases visit_sound m3 m2 hruns h3 with h7 | ⟨S, hS, labels, d1, d3⟩
  · refine Or.inl ⟨?_, h7.2⟩
    rcases List.eq_nil_or_concat run with h8 | ⟨run', t, rfl⟩
    · exact h8
    · exfalso
      rw [List.concat_eq_append, List.map_append, storages_append, List.mem_flatMap] at h5
      obtain ⟨s₁, _, h8⟩ := h5
      simp only [List.map_cons, List.map_nil, storages, List.flatMap_singleton'] at h8
      rw [h7.1] at h8
      exact isStep_not_initial ((m1 t).1 (h2 t (by simp))) _ h8
  · exact Or.inr ⟨S, hS, labels, d1, d3.ast⟩

/-- **C77**: each way to accept a word by visiting components is a non-empty accepting run of the automaton with the same weight and the same rules. -/
theorem C77_complete (g : PMCFG N T W) (ts : List (TsaTransition N T W)) (hts : tsaTransitions g = some ts) {S : N} (hS : S ∈ g.initial)
    {labels : List Nat → Option (PMCFGRule N T W)} {w : List T} {u : W} (hd : Visited cutTrails g.rules S [0] labels [w] u) :
    ∃ run s, run ≠ [] ∧ (TSA.device ts (TreeStack.new .initial)).Accepting w run s u ∧
      ∃ m, toAbstractSyntaxTree s.toTree.1 = some m ∧ ∀ p, GornTree.get m p = (labels p).map PMCFGRule.key := by
  have m1 := tsaTransitions_step hts
  obtain ⟨s, ⟨run, r1, r2, r3, r4⟩, hst⟩ := visit_complete hS hd
  refine ⟨run, s, ?_, ⟨⟨?_, fun t ht => (m1 t).2 (r1 t ht)⟩, ?_⟩, hst.ast⟩
  · rintro rfl
    simp only [List.map_nil, storages, List.mem_singleton] at r2
    subst r2
    have := hst.2.1
    simp [TreeStack.new] at this
  · rw [exec_iff]
    exact ⟨by simp [r3], r2, by simp [r4]⟩
  · simp only [TSA.device, TreeStack.isAtBottom, hst.1, List.isEmpty_nil]

/-- **C77**: the language of the automaton of any grammar. -/
theorem C77_language (g : PMCFG N T W) (ts : List (TsaTransition N T W)) (hts : tsaTransitions g = some ts) (w : List T) :
    (TSA.device ts (TreeStack.new .initial)).Language w ↔ w = [] ∨ ∃ u, VisitGenerates g w u := by
  constructor
  · rintro ⟨run, s, u, h⟩
    rcases C77_sound g ts hts h with h | ⟨S, hS, labels, d, _⟩
    · exact Or.inl h.2.1
    · exact Or.inr ⟨u, S, hS, labels, d⟩
  · rintro (rfl | ⟨u, S, hS, labels, d⟩)
    · exact C28_empty_word ts
    · obtain ⟨run, s, _, h, _⟩ := C77_complete g ts hts hS d
      exact ⟨run, s, _, h⟩

/-- **C77**: `recognise` of the automaton of any grammar returns, until it ends, parses with non-empty runs for exactly the weights with which the word is accepted by
visiting components. -/
theorem C77_recognise [DecidableEq W] (g : PMCFG N T W) (a : TSA (TsaSymbol N T) T W) (ha : TSA.ofPmcfg g = some a)
    {G : Agenda H (Item (TreeStack Nat) (TsInstr Nat) Nat W)} {content : H → Multiset (Item (TreeStack Nat) (TsInstr Nat) Nat W)} (hG : G.Lossless content)
    {empty : H} (hempty : content empty = 0) {w : List T} {n : Nat} {out : List (Item (TreeStack (TsaSymbol N T)) (TsInstr (TsaSymbol N T)) T W)} {b : H}
    (hrun : a.recognise G empty w n = some (out, b)) (hend : G.pop b = none) (u : W) :
    (∃ i ∈ out, i.run.toVec ≠ [] ∧ i.conf.weight = u) ↔ VisitGenerates g w u := by
  unfold TSA.ofPmcfg at ha
  obtain ⟨ts, hts, rfl⟩ := Option.map_eq_some_iff.1 ha
  constructor
  · rintro ⟨i, hi, hr, rfl⟩
    obtain ⟨_, h⟩ := (C17_tsa_exact ts _ hG hempty hrun hend i).1.1 hi
    rcases C77_sound g ts hts h with h | ⟨S, hS, labels, d, _⟩
    · exact absurd h.1 hr
    · exact ⟨S, hS, labels, d⟩
  · rintro ⟨S, hS, labels, d⟩
    obtain ⟨run, s, hr, h, _⟩ := C77_complete g ts hts hS d
    have hv : (Pushdown.ofSlice run).toVec = run := by unfold Pushdown.ofSlice; rw [Pushdown.toVec_foldl]; simp
    refine ⟨⟨⟨[], s, u⟩, Pushdown.ofSlice run⟩, ?_, by rw [hv]; exact hr, rfl⟩
    rw [(C17_tsa_exact ts _ hG hempty hrun hend _).1]
    exact ⟨rfl, by rw [hv]; exact h⟩

/-- **C77**: `to_abstract_syntax_tree` does not panic for any parse that `recognise` returns for any grammar. It gives the empty tree for the empty run, and else the
rules with which the word is accepted by visiting components, with the weight of the parse. -/
theorem C77_ast (g : PMCFG N T W) (a : TSA (TsaSymbol N T) T W) (ha : TSA.ofPmcfg g = some a)
    {G : Agenda H (Item (TreeStack Nat) (TsInstr Nat) Nat W)} {content : H → Multiset (Item (TreeStack Nat) (TsInstr Nat) Nat W)} (hG : G.Sound content)
    {empty : H} (hempty : content empty = 0) {w : List T} {n : Nat} {out : List (Item (TreeStack (TsaSymbol N T)) (TsInstr (TsaSymbol N T)) T W)} {b : H}
    (hrun : a.recognise G empty w n = some (out, b)) : ∀ i ∈ out, ∃ m, toAbstractSyntaxTree i.conf.storage.toTree.1 = some m ∧
      ((i.run.toVec = [] ∧ w = [] ∧ i.conf.weight = 1 ∧ m = []) ∨ ∃ S ∈ g.initial, ∃ labels, Visited cutTrails g.rules S [0] labels [w] i.conf.weight ∧
        ∀ p, GornTree.get m p = (labels p).map PMCFGRule.key) := by
  unfold TSA.ofPmcfg at ha
  obtain ⟨ts, hts, rfl⟩ := Option.map_eq_some_iff.1 ha
  intro i hi
  obtain ⟨_, h⟩ := C16_tsa_sound ts _ hG hempty hrun i hi
  rcases C77_sound g ts hts h with h' | ⟨S, hS, labels, d1, m, m1, m2⟩
  · obtain ⟨⟨h1, _⟩, _⟩ := h
    rw [exec_iff, h'.1] at h1
    have h2 := h1.2.1
    simp only [List.map_nil, storages, List.mem_singleton] at h2
    refine ⟨[], ?_, Or.inl ⟨h'.1, h'.2.1, h'.2.2, rfl⟩⟩
    rw [h2]
    rfl
  · exact ⟨m, m1, Or.inr ⟨S, hS, labels, d1, m2⟩⟩

/-- **C77**: if no rule deletes, each rule has a component and rules for initial nonterminals have exactly one, then each accepting run is empty, or is a derivation of the
word with the same weight in the grammar without the lost terminals. Rules may copy and swap components. -/
theorem C77_nondeleting_sound (g : PMCFG N T W) (ts : List (TsaTransition N T W)) (hts : tsaTransitions g = some ts) (hnd : NonDeleting g.rules)
    (hne : ∀ r ∈ g.rules, r.composition ≠ []) (hinit : ∀ r ∈ g.rules, r.head ∈ g.initial → r.composition.length = 1) {w : List T}
    {run : List (TsaTransition N T W)} {s : TreeStack (TsaSymbol N T)} {u : W} (h : (TSA.device ts (TreeStack.new .initial)).Accepting w run s u) :
    (run = [] ∧ w = [] ∧ u = 1) ∨ ∃ S ∈ g.initial, ∃ d, Derives (g.rules.map (cutRule cutTrails)) S d [w] ∧ d.weight = u := by
  rcases C77_sound g ts hts h with h | ⟨S, hS, labels, hv, _⟩
  · exact Or.inl h
  · refine Or.inr ⟨S, hS, ?_⟩
    obtain ⟨_, hex, _⟩ := (tsaTransitions_some g).1 ⟨ts, hts⟩
    obtain ⟨d, v, h1, h2, h3, _⟩ := hv.derives (cutTrails_nonDeleting hnd) hex
      (fun r hr e => hne r hr (List.length_eq_zero_iff.1 (by rw [← cutTrails_length, e]; rfl)))
      (fun r hr hh j hj => by
        rw [cutTrails_length, hinit r hr (hh ▸ hS)] at hj
        simp; omega)
    have hl : v.length = 1 := by
      cases h1 with
      | node hr₀ _ hc =>
        rw [compose_length hc]
        obtain ⟨r, hr, rfl⟩ := List.mem_map.1 hr₀
        rw [show (cutRule cutTrails r).composition = cutTrails r.composition from rfl, cutTrails_length]
        exact hinit r hr hS
    obtain ⟨x, rfl⟩ := List.length_eq_one_iff.1 hl
    have h4 := h3 0 0 rfl
    simp only [List.getElem?_cons_zero, Option.some.injEq] at h4
    rw [h4]
    exact ⟨d, h1, h2⟩

/-- **C77**: for an ordered grammar in which each rule has a component and rules for initial nonterminals have exactly one, the automaton accepts the empty word and what the
grammar generates without the lost terminals. Unlike C28, terminals may trail. -/
theorem C77_ordered (g : PMCFG N T W) (ts : List (TsaTransition N T W)) (hts : tsaTransitions g = some ts) (ho : Ordered g.rules)
    (hne : ∀ r ∈ g.rules, r.composition ≠ []) (hinit : ∀ r ∈ g.rules, r.head ∈ g.initial → r.composition.length = 1) (w : List T) :
    (TSA.device ts (TreeStack.new .initial)).Language w ↔ w = [] ∨ ∃ u, PGenerates g.initial (g.rules.map (cutRule cutTrails)) w u := by
  constructor
  · rintro ⟨run, s, u, h⟩
    have hnd : NonDeleting g.rules := by
      intro r hr i A hA r' hr' hh j hj
      rw [← mem_visitsOf]
      unfold visitsOf
      rw [ho r hr i A hA r' hr' hh]
      exact List.mem_range.2 hj
    rcases C77_nondeleting_sound g ts hts hnd hne hinit h with h | ⟨S, hS, d, h1, h2⟩
    · exact Or.inl h.2.1
    · exact Or.inr ⟨u, S, hS, d, h1, h2⟩
  · rintro (rfl | ⟨u, S, hS, d, h1, rfl⟩)
    · exact C28_empty_word ts
    · obtain ⟨_, _, hwf⟩ := (tsaTransitions_some g).1 ⟨ts, hts⟩
      obtain ⟨labels, hv, _⟩ := h1.visited (cutTrails_ordered ho) (cutTrails_wellFormed hwf)
        (fun r hr e => hne r hr (List.length_eq_zero_iff.1 (by rw [← cutTrails_length, e]; rfl)))
      obtain ⟨run, s, _, h, _⟩ := C77_complete g ts hts hS hv
      exact ⟨run, s, _, h⟩

/-- The word `1` that C28 shows to be accepted for `S → [0 1] ()` is accepted by visiting components: the first terminal is lost. -/
example : VisitGenerates (⟨[0], [⟨0, [], [[.t 0, .t 1]], 1⟩]⟩ : PMCFG Nat Nat Nat) [1] 1 := by
  refine ⟨0, by simp, _, Visited.node (r := ⟨0, [], [[.t 0, .t 1]], 1⟩) (vc := [[.t 1]]) (A := fun _ => 0) (labels := fun _ _ => none) (args := fun _ => [])
    (us := fun _ => 1) (by simp) (.cons rfl .nil) ?_ ?_ ?_ rfl⟩
  · intro a j c k i j₁ _ hc hk
    rcases a with _ | a <;> simp at hc
    subst hc
    simp [varsOf] at hk
  · intro i hi
    exact absurd rfl hi
  · intro i hi
    exact absurd rfl hi

/-- The word `0` that C28 shows to be accepted for `S → [0] (A)`, `A → [x₀,₀] (A)` is accepted by visiting components: `A` is not visited. -/
example : VisitGenerates (⟨[0], [⟨0, [1], [[.t 0]], 1⟩, ⟨1, [1], [[.var 0 0]], 1⟩]⟩ : PMCFG Nat Nat Nat) [0] 1 := by
  refine ⟨0, by simp, _, Visited.node (r := ⟨0, [1], [[.t 0]], 1⟩) (vc := [[.t 0]]) (A := fun _ => 0) (labels := fun _ _ => none) (args := fun _ => [])
    (us := fun _ => 1) (by simp) (.cons rfl .nil) ?_ ?_ ?_ rfl⟩
  · intro a j c k i j₁ _ hc hk
    rcases a with _ | a <;> simp at hc
    subst hc
    simp [varsOf] at hk
  · intro i hi
    exact absurd rfl hi
  · intro i hi
    exact absurd rfl hi

/-- The hypotheses of `C77_nondeleting_sound` hold for the copying grammar `S → [x₀,₀ x₀,₀] (A)`, `A → [0] ()`, and the automaton is built. -/
example : let g : PMCFG Nat Nat Nat := ⟨[0], [⟨0, [1], [[.var 0 0, .var 0 0]], 1⟩, ⟨1, [], [[.t 0]], 1⟩]⟩
    (∃ ts, tsaTransitions g = some ts) ∧ NonDeleting g.rules ∧ (∀ r ∈ g.rules, r.composition ≠ []) ∧
    (∀ r ∈ g.rules, r.head ∈ g.initial → r.composition.length = 1) ∧ ∃ u, VisitGenerates g [0, 0] u := by
  intro g
  refine ⟨⟨_, rfl⟩, ?_, by decide, by decide, ?_⟩
  · intro r hr i A hA r' hr' hh j hj
    simp only [g, List.mem_cons, List.not_mem_nil, or_false] at hr hr'
    rcases hr with rfl | rfl <;> rcases i with _ | i <;> simp at hA
    subst hA
    rcases hr' with rfl | rfl <;> simp at hh hj
    subst hj
    simp [varsOf]
  · refine ⟨_, 0, by simp [g], _, Visited.node (r := ⟨0, [1], [[.var 0 0, .var 0 0]], 1⟩) (vc := [[.var 0 0, .var 0 0]]) (A := fun _ => 1)
      (labels := fun _ => visitLabels ⟨1, [], [[.t 0]], 1⟩ [[.t 0], [.t 0]] fun _ _ => none)
      (args := fun _ => [[0], [0]]) (us := fun _ => 1) (by simp [g]) (.cons rfl .nil) ?_ ?_ ?_ rfl⟩
    · intro a j c k i j₁ hj hc _
      rcases a with _ | a <;> simp at hc hj
      subst hc hj
      rfl
    · intro i hi
      rcases i with _ | i
      · rfl
      · exact absurd (by simp [visitsOf, varsOf]) hi
    · intro i hi
      rcases i with _ | i
      · refine Visited.node (r := ⟨1, [], [[.t 0]], 1⟩) (s := [0, 0]) (vc := [[.t 0], [.t 0]]) (A := fun _ => 0) (labels := fun _ _ => none)
          (args := fun _ => []) (us := fun _ => 1) (by simp [g]) (.cons rfl (.cons rfl .nil)) ?_ ?_ ?_ rfl
        · intro a j c k i j₁ _ hc hk
          rcases a with _ | _ | a <;> simp at hc <;> subst hc <;> simp [varsOf] at hk
        · intro i hi
          exact absurd rfl hi
        · intro i hi
          exact absurd rfl hi
      · exact absurd (by simp [visitsOf, varsOf]) hi

/-- The hypotheses of `C77_ordered` hold for `S → [0 x₀,₀ 1 2] (A)`, `A → [3] ()`, which has trailing terminals: the automaton accepts `0 3 2`. -/
example : let g : PMCFG Nat Nat Nat := ⟨[0], [⟨0, [1], [[.t 0, .var 0 0, .t 1, .t 2]], 1⟩, ⟨1, [], [[.t 3]], 1⟩]⟩
    ∃ ts, tsaTransitions g = some ts ∧ (TSA.device ts (TreeStack.new .initial)).Language [0, 3, 2] := by
  intro g
  have ho : Ordered g.rules := by
    intro r hr i A hA r' hr' hh
    simp only [g, List.mem_cons, List.not_mem_nil, or_false] at hr hr'
    rcases hr with rfl | rfl <;> rcases i with _ | i <;> simp at hA
    subst hA
    rcases hr' with rfl | rfl <;> simp at hh
    simp [varsOf, List.range_succ]
  have h := C77_ordered g _ rfl ho (by decide) (by decide)
  refine ⟨_, rfl, ?_⟩
  rw [h]
  exact Or.inr ⟨1, 0, by simp [g], _, .node (r := ⟨0, [1], [[.t 0, .var 0 0, .t 2]], 1⟩) (args := [[[3]]]) (.head _)
      (.cons (.node (r := ⟨1, [], [[.t 3]], 1⟩) (args := []) (.tail _ (.head _)) .nil rfl) .nil) rfl, rfl⟩

end Rustomata.Props
