import Verif.Proofs.FromPmcfgAst
import Verif.Props.Tsa

/-!
# Properties C28 and C53: the tree stack automaton of a PMCFG

Only property theorems and the examples that show their hypotheses to be satisfiable.
-/

namespace Rustomata.Props
open Rustomata Rustomata.Spec
variable {N T W H : Type _}

/-! ### C28 -/

/-- The full claim **C28**: for every grammar, the automaton is built and accepts exactly the words that the grammar generates. -/
def C28_claim : Prop :=
  ∀ (g : PMCFG Nat Nat Nat), ∃ ts, tsaTransitions g = some ts ∧
    ∀ w, (TSA.device ts (TreeStack.new .initial)).Language w ↔ ∃ u, PGenerates g.initial g.rules w u

/-- The automaton that is built has these transitions and starts with this tree stack (C15). -/
theorem C28_automaton [DecidableEq N] [DecidableEq T] [One W] (g : PMCFG N T W) (ts : List (TsaTransition N T W)) (h : tsaTransitions g = some ts) :
    ∃ a, TSA.ofPmcfg g = some a ∧ (∃ L, a.listTransitions = some L ∧ L.Perm ts) ∧ a.initialStack = some (TreeStack.new .initial) := by
  refine ⟨TSA.new ts (TreeStack.new .initial), by simp [TSA.ofPmcfg, h], ?_⟩
  exact C15_tsa_new ts _

/-- **C28**: the construction panics iff a rule for an initial nonterminal has no components, or a nonterminal of a right-hand side has no
rules, or a variable refers to a nonterminal or component that does not exist. -/
theorem C28_panics [DecidableEq N] [DecidableEq T] [One W] (g : PMCFG N T W) : TSA.ofPmcfg g = none ↔
    ¬ ((∀ r ∈ g.rules, r.head ∈ g.initial → r.composition ≠ []) ∧ (∀ r ∈ g.rules, ∀ A ∈ r.tail, ∃ r' ∈ g.rules, r'.head = A) ∧
      WellFormed g.rules) := by
  rw [← tsaTransitions_some]
  unfold TSA.ofPmcfg
  rw [Option.map_eq_none_iff]
  cases tsaTransitions g <;> simp

/-- **C28 is violated**: the automaton accepts the empty word for every grammar. -/
theorem C28_empty_word [One W] [Mul W] [DecidableEq N] [DecidableEq T] (ts : List (TsaTransition N T W)) :
    (TSA.device ts (TreeStack.new .initial)).Language [] :=
  ⟨[], _, _, ⟨⟨.nil _, by simp⟩, rfl⟩⟩

/-- **C28 is violated**: the grammar without rules generates nothing, but the automaton accepts the empty word. -/
theorem C28_language_violated : ¬ C28_claim := by
  intro h
  obtain ⟨ts, _, h2⟩ := h ⟨[0], []⟩
  obtain ⟨u, S, _, d, hd, _⟩ := (h2 []).1 (C28_empty_word ts)
  cases hd with
  | node hr _ _ => simp at hr

/-- **C28 is violated** by components that end with two terminals: `S → [0 1] ()` generates `0 1`, but the automaton accepts `1`. -/
theorem C28_trailing_terminals_violated :
    let g : PMCFG Nat Nat Nat := ⟨[0], [⟨0, [], [[.t 0, .t 1]], 1⟩]⟩
    ∃ ts, tsaTransitions g = some ts ∧ (TSA.device ts (TreeStack.new .initial)).Language [1] ∧ ¬ ∃ u, PGenerates g.initial g.rules [1] u := by
  let r : PMCFGRule Nat Nat Nat := ⟨0, [], [[.t 0, .t 1]], 1⟩
  refine ⟨[⟨[], 1, .push 0 .initial (.position r.key 0 0)⟩, ⟨[1], 1, .down (.position r.key 0 0) .initial .designated⟩], rfl, ?_, ?_⟩
  · refine ⟨[⟨[], 1, .push 0 .initial (.position r.key 0 0)⟩, ⟨[1], 1, .down (.position r.key 0 0) .initial .designated⟩],
      ⟨[], .designated, .occ (.position r.key 0 0) .nil .nil⟩, 1, ⟨?_, by simp [TSA.device]⟩, rfl⟩
    rw [exec_iff]
    refine ⟨rfl, ?_, rfl⟩
    simp only [List.map_cons, List.map_nil, TSA.device]
    decide
  · rintro ⟨u, S, _, d, hd, _⟩
    cases hd with
    | node hr _ hv =>
      simp only [List.mem_singleton] at hr
      subst hr
      simp [compose, substAll, subst] at hv

/-- **C28 is violated** by deleting rules: `S → [0] (A)`, `A → [x₀,₀] (A)` generates nothing, but the automaton accepts `0`. -/
theorem C28_deleting_violated :
    let g : PMCFG Nat Nat Nat := ⟨[0], [⟨0, [1], [[.t 0]], 1⟩, ⟨1, [1], [[.var 0 0]], 1⟩]⟩
    ∃ ts, tsaTransitions g = some ts ∧ (TSA.device ts (TreeStack.new .initial)).Language [0] ∧ ¬ ∃ u, PGenerates g.initial g.rules [0] u := by
  let r : PMCFGRule Nat Nat Nat := ⟨0, [1], [[.t 0]], 1⟩
  let r' : PMCFGRule Nat Nat Nat := ⟨1, [1], [[.var 0 0]], 1⟩
  refine ⟨[⟨[], 1, .push 0 .initial (.position r.key 0 0)⟩, ⟨[0], 1, .down (.position r.key 0 0) .initial .designated⟩,
    ⟨[], 1, .push 0 (.position r'.key 0 0) (.position r'.key 0 0)⟩, ⟨[], 1, .down (.position r'.key 0 1) (.position r'.key 0 0) (.position r'.key 0 1)⟩],
    rfl, ?_, ?_⟩
  · refine ⟨[⟨[], 1, .push 0 .initial (.position r.key 0 0)⟩, ⟨[0], 1, .down (.position r.key 0 0) .initial .designated⟩],
      ⟨[], .designated, .occ (.position r.key 0 0) .nil .nil⟩, 1, ⟨?_, by simp [TSA.device]⟩, rfl⟩
    rw [exec_iff]
    refine ⟨rfl, ?_, rfl⟩
    simp only [List.map_cons, List.map_nil, TSA.device]
    decide
  · have key : ∀ A d v, Derives [⟨0, [1], [[.t 0]], 1⟩, ⟨1, [1], [[.var 0 0]], 1⟩] A d v → (False : Prop) := by
      intro A (d : DTree (PMCFGRule Nat Nat Nat)) v hd
      refine derives_induct (P := fun _ _ _ => False) ?_ hd
      intro r ds args v hr h1 h2 h3 _
      simp only [List.mem_cons, List.not_mem_nil, or_false] at hr
      rcases hr with rfl | rfl
      · obtain ⟨d, hd⟩ : ∃ d, ds[0]? = some d := ⟨ds[0]'(by simp at h1; omega), List.getElem?_eq_getElem _⟩
        obtain ⟨a, ha⟩ : ∃ d, args[0]? = some d := ⟨args[0]'(by simp at h2; omega), List.getElem?_eq_getElem _⟩
        exact (h3 0 1 d a rfl hd ha).2
      · obtain ⟨d, hd⟩ : ∃ d, ds[0]? = some d := ⟨ds[0]'(by simp at h1; omega), List.getElem?_eq_getElem _⟩
        obtain ⟨a, ha⟩ : ∃ d, args[0]? = some d := ⟨args[0]'(by simp at h2; omega), List.getElem?_eq_getElem _⟩
        exact (h3 0 1 d a rfl hd ha).2
    rintro ⟨u, S, _, d, hd, _⟩
    exact key _ _ _ hd

/-- Runs stay inside of a set of tree stacks that is closed under the transitions. -/
private theorem storages_closed {S I : Type _} {ap : I → S → List S} {R : List S} {is all : List I} (hall : ∀ i ∈ is, i ∈ all)
    (h : ∀ s ∈ R, ∀ i ∈ all, ∀ s' ∈ ap i s, s' ∈ R) : ∀ {s}, s ∈ R → ∀ s' ∈ storages ap is s, s' ∈ R := by
  induction is with
  | nil => intro s hs s' h'; simp [storages] at h'; subst h'; exact hs
  | cons i is ih =>
    intro s hs s' h'
    simp only [storages, List.mem_flatMap] at h'
    obtain ⟨s₁, h1, h2⟩ := h'
    exact ih (fun i hi => hall i (by simp [hi])) (h s hs i (hall i (by simp)) s₁ h1) s' h2

/-- **C28 is violated** by rules that visit components out of order: `S → [x₀,₁ x₀,₀] (A)`, `A → [x₀,₀], [x₀,₁] (B)`, `B → [0], [1] ()`
generates `1 0`, but the automaton does not accept it. -/
theorem C28_unordered_violated :
    let g : PMCFG Nat Nat Nat := ⟨[0], [⟨0, [1], [[.var 0 1, .var 0 0]], 1⟩, ⟨1, [2], [[.var 0 0], [.var 0 1]], 1⟩, ⟨2, [], [[.t 0], [.t 1]], 1⟩]⟩
    ∃ ts, tsaTransitions g = some ts ∧ ¬ (TSA.device ts (TreeStack.new .initial)).Language [1, 0] ∧ PGenerates g.initial g.rules [1, 0] 1 := by
  intro g
  let r : PMCFGRule Nat Nat Nat := ⟨0, [1], [[.var 0 1, .var 0 0]], 1⟩
  let r' : PMCFGRule Nat Nat Nat := ⟨1, [2], [[.var 0 0], [.var 0 1]], 1⟩
  let r'' : PMCFGRule Nat Nat Nat := ⟨2, [], [[.t 0], [.t 1]], 1⟩
  obtain ⟨ts, hts⟩ : ∃ ts, tsaTransitions g = some ts := ⟨_, rfl⟩
  refine ⟨ts, hts, ?_, ?_⟩
  · rintro ⟨run, s, u, ⟨h1, h2⟩, h3⟩
    rw [exec_iff] at h1
    obtain ⟨h4, h5, _⟩ := h1
    simp only [List.append_nil] at h4
    have hR := storages_closed (R := [TreeStack.new .initial, ⟨[⟨0, .initial, .vac .nil⟩], .position r.key 0 0, .nil⟩,
      ⟨[⟨0, .position r.key 0 0, .vac .nil⟩, ⟨0, .initial, .vac .nil⟩], .position r'.key 1 0, .nil⟩]) (all := ts.map Transition.instruction)
      (fun i hi => by
        obtain ⟨t, ht, rfl⟩ := List.mem_map.1 hi
        exact List.mem_map.2 ⟨t, h2 t ht, rfl⟩)
      (by cases hts; decide) (s := TreeStack.new .initial) (by simp) s h5
    have hs : s = TreeStack.new .initial := by
      simp only [List.mem_cons, List.not_mem_nil, or_false] at hR
      rcases hR with rfl | rfl | rfl
      · rfl
      · simp [TSA.device, TreeStack.isAtBottom] at h3
      · simp [TSA.device, TreeStack.isAtBottom] at h3
    -- no transition leads to the initial tree stack
    have hno : ∀ t ∈ ts, ∀ s, TreeStack.new .initial ∉ t.instruction.apply s := by
      intro t ht s hs
      have hi : ∀ t ∈ ts, (match t.instruction with
          | .push _ _ _ => true | .up _ _ _ _ => true | .down _ _ n => decide (n ≠ PosState.initial)) = true := by
        cases hts; decide
      refine apply_not_initial (fun c o he => ?_) s hs
      have := hi t ht
      rw [he] at this
      simp at this
    rcases List.eq_nil_or_concat run with rfl | ⟨run', t, rfl⟩
    · simp [wordOf] at h4
    · rw [List.concat_eq_append, List.map_append, storages_append, List.mem_flatMap] at h5
      obtain ⟨s₁, _, h6⟩ := h5
      simp only [List.map_cons, List.map_nil, storages, List.flatMap_singleton'] at h6
      rw [hs] at h6
      exact hno t (h2 t (by simp)) s₁ h6
  · refine ⟨0, by simp [g], .node r [.node r' [.node r'' []]], ?_, rfl⟩
    exact .node (r := r) (args := [[[0], [1]]]) (.head _) (.cons (.node (r := r') (args := [[[0], [1]]]) (.tail _ (.head _)) (.cons
      (.node (r := r'') (args := []) (.tail _ (.tail _ (.head _))) .nil rfl) .nil) rfl) .nil) rfl

section
variable [CommMonoid W] [DecidableEq N] [DecidableEq T]

/-- **C28, partial**: soundness. If the grammar is ordered, has short trails, each rule has a component and rules for initial nonterminals
have exactly one, then each accepting run of the automaton is empty, or reads a word that the grammar generates by a derivation of the same
weight, which is the abstract syntax tree of the tree stack (C53). Compared to the claim, the hypotheses and the empty run are in addition. -/
theorem C28_sound_partial (g : PMCFG N T W) (ts : List (TsaTransition N T W)) (hts : tsaTransitions g = some ts) (ho : Ordered g.rules)
    (hs : ∀ r ∈ g.rules, ShortTrails r.composition) (hne : ∀ r ∈ g.rules, r.composition ≠ [])
    (hinit : ∀ r ∈ g.rules, r.head ∈ g.initial → r.composition.length = 1) {w : List T} {run : List (TsaTransition N T W)}
    {s : TreeStack (TsaSymbol N T)} {u : W} (h : (TSA.device ts (TreeStack.new .initial)).Accepting w run s u) :
    (run = [] ∧ w = [] ∧ u = 1) ∨ ∃ S ∈ g.initial, ∃ d, Derives g.rules S d [w] ∧ d.weight = u ∧
      ∃ m, toAbstractSyntaxTree s.toTree.1 = some m ∧ ∀ p, GornTree.get m p = (d.at? p).map PMCFGRule.key := by
  obtain ⟨⟨h1, h2⟩, h3⟩ := h
  rw [exec_iff] at h1
  obtain ⟨h4, h5, h6⟩ := h1
  simp only [List.append_nil, one_mul] at h4 h6
  simp only [TSA.device, TreeStack.isAtBottom, List.isEmpty_iff] at h2 h3 h5
  obtain ⟨m1, m2⟩ := tsaTransitions_mem hts ho hs
  have hruns : Runs g (TreeStack.new .initial) w u s := ⟨run, fun t ht => (m1 t).1 (h2 t ht), h5, h4.symm, h6.symm⟩
  rcases tsa_sound ho hinit (fun r hr => (m2 r hr).1) (fun r hr => (m2 r hr).2) hne hruns h3 with h7 | ⟨S, hS, d, d1, d2, d3⟩
  · refine Or.inl ⟨?_, h7.2⟩
    -- the initial tree stack is only reached by the empty run
    rcases List.eq_nil_or_concat run with h8 | ⟨run', t, rfl⟩
    · exact h8
    · exfalso
      rw [List.concat_eq_append, List.map_append, storages_append, List.mem_flatMap] at h5
      obtain ⟨s₁, _, h8⟩ := h5
      simp only [List.map_cons, List.map_nil, storages, List.flatMap_singleton'] at h8
      rw [h7.1] at h8
      exact isTrans_not_initial ((m1 t).1 (h2 t (by simp))) h8
  · exact Or.inr ⟨S, hS, d, d1, d2, d3.ast⟩

/-- **C28, partial**: completeness. Under the same hypotheses, each derivation of a word from an initial nonterminal is the abstract syntax
tree of an accepting run of the automaton for this word with the derivation's weight. -/
theorem C28_complete_partial (g : PMCFG N T W) (ts : List (TsaTransition N T W)) (hts : tsaTransitions g = some ts) (ho : Ordered g.rules)
    (hs : ∀ r ∈ g.rules, ShortTrails r.composition) (hne : ∀ r ∈ g.rules, r.composition ≠ []) {S : N} (hS : S ∈ g.initial)
    {d : DTree (PMCFGRule N T W)} {w : List T} (hd : Derives g.rules S d [w]) :
    ∃ run s, run ≠ [] ∧ (TSA.device ts (TreeStack.new .initial)).Accepting w run s d.weight ∧
      ∃ m, toAbstractSyntaxTree s.toTree.1 = some m ∧ ∀ p, GornTree.get m p = (d.at? p).map PMCFGRule.key := by
  obtain ⟨m1, m2⟩ := tsaTransitions_mem hts ho hs
  obtain ⟨s, ⟨run, r1, r2, r3, r4⟩, hst⟩ := tsa_complete ho (fun r hr => (m2 r hr).1) hne hS hd
  refine ⟨run, s, ?_, ⟨⟨?_, fun t ht => (m1 t).2 (r1 t ht)⟩, ?_⟩, hst.ast⟩
  · rintro rfl
    simp only [List.map_nil, storages, List.mem_singleton] at r2
    subst r2
    have := hst.2.1
    simp [TreeStack.new] at this
  · rw [exec_iff]
    exact ⟨by simp [r3], r2, by simp [r4]⟩
  · simp only [TSA.device, TreeStack.isAtBottom, hst.1, List.isEmpty_nil]

/-- **C28, partial**: under the same hypotheses, the automaton accepts the words that the grammar generates and the empty word. -/
theorem C28_language_partial (g : PMCFG N T W) (ts : List (TsaTransition N T W)) (hts : tsaTransitions g = some ts) (ho : Ordered g.rules)
    (hs : ∀ r ∈ g.rules, ShortTrails r.composition) (hne : ∀ r ∈ g.rules, r.composition ≠ [])
    (hinit : ∀ r ∈ g.rules, r.head ∈ g.initial → r.composition.length = 1) (w : List T) :
    (TSA.device ts (TreeStack.new .initial)).Language w ↔ w = [] ∨ ∃ u, PGenerates g.initial g.rules w u := by
  constructor
  · rintro ⟨run, s, u, h⟩
    rcases C28_sound_partial g ts hts ho hs hne hinit h with h | ⟨S, hS, d, d1, d2, _⟩
    · exact Or.inl h.2.1
    · exact Or.inr ⟨u, S, hS, d, d1, d2⟩
  · rintro (rfl | ⟨u, S, hS, d, d1, rfl⟩)
    · exact C28_empty_word ts
    · obtain ⟨run, s, _, h, _⟩ := C28_complete_partial g ts hts ho hs hne hS d1
      exact ⟨run, s, _, h⟩

/-- **C28, partial**: under the same hypotheses, `recognise` of the automaton returns, until it ends, parses with non-empty runs for exactly the
weights with which the grammar generates the word. -/
theorem C28_recognise_partial [DecidableEq W] (g : PMCFG N T W) (a : TSA (TsaSymbol N T) T W) (ha : TSA.ofPmcfg g = some a) (ho : Ordered g.rules)
    (hs : ∀ r ∈ g.rules, ShortTrails r.composition) (hne : ∀ r ∈ g.rules, r.composition ≠ [])
    (hinit : ∀ r ∈ g.rules, r.head ∈ g.initial → r.composition.length = 1)
    {G : Agenda H (Item (TreeStack Nat) (TsInstr Nat) Nat W)} {content : H → Multiset (Item (TreeStack Nat) (TsInstr Nat) Nat W)} (hG : G.Lossless content)
    {empty : H} (hempty : content empty = 0) {w : List T} {n : Nat} {out : List (Item (TreeStack (TsaSymbol N T)) (TsInstr (TsaSymbol N T)) T W)} {b : H}
    (hrun : a.recognise G empty w n = some (out, b)) (hend : G.pop b = none) (u : W) :
    (∃ i ∈ out, i.run.toVec ≠ [] ∧ i.conf.weight = u) ↔ PGenerates g.initial g.rules w u := by
  unfold TSA.ofPmcfg at ha
  obtain ⟨ts, hts, rfl⟩ := Option.map_eq_some_iff.1 ha
  constructor
  · rintro ⟨i, hi, hr, rfl⟩
    obtain ⟨_, h⟩ := (C17_tsa_exact ts _ hG hempty hrun hend i).1.1 hi
    rcases C28_sound_partial g ts hts ho hs hne hinit h with h | ⟨S, hS, d, d1, d2, _⟩
    · exact absurd h.1 hr
    · exact ⟨S, hS, d, d1, d2⟩
  · rintro ⟨S, hS, d, d1, rfl⟩
    obtain ⟨run, s, hr, h, _⟩ := C28_complete_partial g ts hts ho hs hne hS d1
    have hv : (Pushdown.ofSlice run).toVec = run := by unfold Pushdown.ofSlice; rw [Pushdown.toVec_foldl]; simp
    refine ⟨⟨⟨[], s, d.weight⟩, Pushdown.ofSlice run⟩, ?_, by rw [hv]; exact hr, rfl⟩
    rw [(C17_tsa_exact ts _ hG hempty hrun hend _).1]
    exact ⟨rfl, by rw [hv]; exact h⟩

/-! ### C53 -/

/-- The full claim **C53**: for every grammar and every accepting non-empty run of its automaton, the abstract syntax tree of the final tree
stack exists and is (up to the weights of rules) a derivation of the word with the weight of the run; and each derivation is obtained. -/
def C53_claim : Prop :=
  ∀ (g : PMCFG Nat Nat Nat) (ts : List (TsaTransition Nat Nat Nat)), tsaTransitions g = some ts → ∀ w : List Nat,
    (∀ run s u, (TSA.device ts (TreeStack.new .initial)).Accepting w run s u → run ≠ [] →
      ∃ m, toAbstractSyntaxTree s.toTree.1 = some m ∧ ∃ S ∈ g.initial, ∃ d, Derives g.rules S d [w] ∧ d.weight = u ∧
        ∀ p, GornTree.get m p = (d.at? p).map PMCFGRule.key) ∧
    ∀ S ∈ g.initial, ∀ d, Derives g.rules S d [w] → ∃ run s, (TSA.device ts (TreeStack.new .initial)).Accepting w run s d.weight ∧
      ∃ m, toAbstractSyntaxTree s.toTree.1 = some m ∧ ∀ p, GornTree.get m p = (d.at? p).map PMCFGRule.key

/-- **C53 is violated**: for `S → [0 1] ()` the automaton accepts `1` with a non-empty run, but this word has no derivation. -/
theorem C53_sound_violated : ¬ C53_claim := by
  intro h
  obtain ⟨ts, h1, ⟨run, s, u, h2⟩, h3⟩ := C28_trailing_terminals_violated
  have hr : run ≠ [] := by
    rintro rfl
    have h4 := h2.1.1
    rw [exec_iff] at h4
    simp [wordOf] at h4
  obtain ⟨m, _, S, hS, d, d1, d2, _⟩ := (h _ ts h1 [1]).1 run s u h2 hr
  exact h3 ⟨u, S, hS, d, d1, d2⟩

/-- **C53 is violated** in the other direction too: for a grammar whose components are used out of order, `1 0` has a derivation, but no run
accepts it, so the derivation is not obtained. -/
theorem C53_complete_violated : ∃ (g : PMCFG Nat Nat Nat) (ts : List (TsaTransition Nat Nat Nat)) (w : List Nat),
    tsaTransitions g = some ts ∧ (∃ S ∈ g.initial, ∃ d, Derives g.rules S d [w]) ∧
      ¬ ∃ run s u, (TSA.device ts (TreeStack.new .initial)).Accepting w run s u := by
  obtain ⟨ts, h1, h2, S, hS, d, hd, _⟩ := C28_unordered_violated
  exact ⟨_, ts, [1, 0], h1, ⟨S, hS, d, hd⟩, h2⟩

/-- **C53, partial**: for an ordered grammar with short trails (the hypotheses of C28), `to_abstract_syntax_tree` applied to a parse returned by
`recognise` with a non-empty run does not panic and gives the rules of a derivation of the word whose weight is the weight of the parse. Since
stack symbols do not distinguish rules that differ only in their weight, the tree is compared up to the weights of rules. -/
theorem C53_ast_sound_partial (g : PMCFG N T W) (a : TSA (TsaSymbol N T) T W) (ha : TSA.ofPmcfg g = some a) (ho : Ordered g.rules)
    (hs : ∀ r ∈ g.rules, ShortTrails r.composition) (hne : ∀ r ∈ g.rules, r.composition ≠ [])
    (hinit : ∀ r ∈ g.rules, r.head ∈ g.initial → r.composition.length = 1)
    {G : Agenda H (Item (TreeStack Nat) (TsInstr Nat) Nat W)} {content : H → Multiset (Item (TreeStack Nat) (TsInstr Nat) Nat W)} (hG : G.Sound content)
    {empty : H} (hempty : content empty = 0) {w : List T} {n : Nat} {out : List (Item (TreeStack (TsaSymbol N T)) (TsInstr (TsaSymbol N T)) T W)} {b : H}
    (hrun : a.recognise G empty w n = some (out, b)) : ∀ i ∈ out, i.run.toVec ≠ [] →
      ∃ m, toAbstractSyntaxTree i.conf.storage.toTree.1 = some m ∧ ∃ S ∈ g.initial, ∃ d, Derives g.rules S d [w] ∧ d.weight = i.conf.weight ∧
        ∀ p, GornTree.get m p = (d.at? p).map PMCFGRule.key := by
  unfold TSA.ofPmcfg at ha
  obtain ⟨ts, hts, rfl⟩ := Option.map_eq_some_iff.1 ha
  intro i hi hr
  obtain ⟨_, h⟩ := C16_tsa_sound ts _ hG hempty hrun i hi
  rcases C28_sound_partial g ts hts ho hs hne hinit h with h | ⟨S, hS, d, d1, d2, m, m1, m2⟩
  · exact absurd h.1 hr
  · exact ⟨m, m1, S, hS, d, d1, d2, m2⟩

/-- **C53, partial**: under the same hypotheses, when `recognise` has ended, each derivation of the word is the abstract syntax tree of some
returned parse. -/
theorem C53_ast_complete_partial [DecidableEq W] (g : PMCFG N T W) (a : TSA (TsaSymbol N T) T W) (ha : TSA.ofPmcfg g = some a) (ho : Ordered g.rules)
    (hs : ∀ r ∈ g.rules, ShortTrails r.composition) (hne : ∀ r ∈ g.rules, r.composition ≠ [])
    {G : Agenda H (Item (TreeStack Nat) (TsInstr Nat) Nat W)} {content : H → Multiset (Item (TreeStack Nat) (TsInstr Nat) Nat W)} (hG : G.Lossless content)
    {empty : H} (hempty : content empty = 0) {w : List T} {n : Nat} {out : List (Item (TreeStack (TsaSymbol N T)) (TsInstr (TsaSymbol N T)) T W)} {b : H}
    (hrun : a.recognise G empty w n = some (out, b)) (hend : G.pop b = none) {S : N} (hS : S ∈ g.initial) {d : DTree (PMCFGRule N T W)}
    (hd : Derives g.rules S d [w]) :
    ∃ i ∈ out, i.conf.weight = d.weight ∧ ∃ m, toAbstractSyntaxTree i.conf.storage.toTree.1 = some m ∧
      ∀ p, GornTree.get m p = (d.at? p).map PMCFGRule.key := by
  unfold TSA.ofPmcfg at ha
  obtain ⟨ts, hts, rfl⟩ := Option.map_eq_some_iff.1 ha
  obtain ⟨run, s, hr, h, hm⟩ := C28_complete_partial g ts hts ho hs hne hS hd
  have hv : (Pushdown.ofSlice run).toVec = run := by unfold Pushdown.ofSlice; rw [Pushdown.toVec_foldl]; simp
  refine ⟨⟨⟨[], s, d.weight⟩, Pushdown.ofSlice run⟩, ?_, rfl, hm⟩
  rw [(C17_tsa_exact ts _ hG hempty hrun hend _).1]
  exact ⟨rfl, by rw [hv]; exact h⟩

/-- The hypotheses of the partial theorems hold for `S → [x₀,₀ x₁,₀ x₀,₁] (A, B)`, `A → [0 x₀,₀], [1 x₀,₁] (A)`, `A → [], []`, `B → [2 x₀,₀] (B)`,
`B → []`, and the grammar generates `0 2 1`. -/
example : let g : PMCFG Nat Nat Nat := ⟨[0], [⟨0, [1, 2], [[.var 0 0, .var 1 0, .var 0 1]], 1⟩, ⟨1, [1], [[.t 0, .var 0 0], [.t 1, .var 0 1]], 2⟩,
      ⟨1, [], [[], []], 3⟩, ⟨2, [2], [[.t 2, .var 0 0]], 5⟩, ⟨2, [], [[]], 7⟩]⟩
    (∃ ts, tsaTransitions g = some ts) ∧ Ordered g.rules ∧ (∀ r ∈ g.rules, ShortTrails r.composition) ∧ (∀ r ∈ g.rules, r.composition ≠ []) ∧
    (∀ r ∈ g.rules, r.head ∈ g.initial → r.composition.length = 1) ∧ PGenerates g.initial g.rules [0, 2, 1] 210 := by
  intro g
  refine ⟨⟨_, rfl⟩, ?_, ?_, by decide, by decide, ?_⟩
  · intro r hr i A hA r' hr' hh
    simp only [g, List.mem_cons, List.not_mem_nil, or_false] at hr hr'
    rcases hr with rfl | rfl | rfl | rfl | rfl <;> rcases i with _ | _ | i <;> simp at hA <;> subst hA <;>
      rcases hr' with rfl | rfl | rfl | rfl | rfl <;> simp at hh <;> simp [varsOf, List.range_succ]
  · have h1 : ∀ (l : List (VarT Nat)) (a b : Nat) (comp : List (VarT Nat)), (match comp.reverse with
        | .t _ :: .t _ :: _ => false | _ => true) = true → comp ≠ l ++ [.t a, .t b] := by
      rintro l a b _ h rfl
      simp at h
    intro r hr
    simp only [g, List.mem_cons, List.not_mem_nil, or_false] at hr
    constructor
    · intro comp hc l a b
      refine h1 l a b comp ?_
      rcases hr with rfl | rfl | rfl | rfl | rfl <;> simp at hc <;> (try rcases hc with rfl | rfl) <;> (try subst hc) <;> rfl
    · intro j hj l a hl
      rcases hr with rfl | rfl | rfl | rfl | rfl <;> rcases j with _ | _ | j <;> simp at hj hl
  · exact ⟨0, by simp [g], .node ⟨0, [1, 2], [[.var 0 0, .var 1 0, .var 0 1]], 1⟩ [.node ⟨1, [1], [[.t 0, .var 0 0], [.t 1, .var 0 1]], 2⟩ [.node
      ⟨1, [], [[], []], 3⟩ []], .node ⟨2, [2], [[.t 2, .var 0 0]], 5⟩ [.node ⟨2, [], [[]], 7⟩ []]],
      .node (args := [[[0], [1]], [[2]]]) (.head _) (.cons (.node (args := [[[], []]]) (.tail _ (.head _)) (.cons (.node (args := [])
        (.tail _ (.tail _ (.head _))) .nil rfl) .nil) rfl) (.cons (.node (args := [[[]]]) (.tail _ (.tail _ (.tail _ (.head _)))) (.cons (.node (args := [])
        (.tail _ (.tail _ (.tail _ (.tail _ (.head _))))) .nil rfl) .nil) rfl) .nil)) rfl, rfl⟩

end

end Rustomata.Props
