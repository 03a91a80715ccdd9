import Verif.Model.ApproximationCommand
import Verif.Proofs.ComponentsOver
import Verif.Props.Approximation
import Verif.Props.FromPmcfg
import Verif.Props.Relabel
import Verif.Props.RuleReads

/-!
# Property C75: the pushdown automaton that approximates the automaton of a PMCFG, and the command `approximation tts parse`

Only property theorems, the lemmas that combine them, and the examples that show their hypotheses to be satisfiable.
-/

namespace Rustomata.Props
open Rustomata Rustomata.Spec

section
variable {N T W H : Type _} [DecidableEq N] [DecidableEq T] [DecidableEq W] [Monoid W] [AddMonoid W]

/-- The conditions under which the transitions for a grammar are built. -/
structure TtsBuilt (g : PMCFG N T W) (b : PDA (TsaSymbol N T) T W) (ts L2 : List (Transition (PdInstr (TsaSymbol N T)) T W)) : Prop where
  built : PDA.Built b ts [.initial] L2
  keys : ∀ x, x ∈ L2.map PDA.keyOf ↔ IsTts g x
  init : ∀ r ∈ g.rules, r.head ∈ g.initial → ∃ c, (cutTrails r.composition)[0]? = some c
  comp : ∀ r ∈ g.rules, ∀ (j : Nat) c (k : Nat) b i j₁, (cutTrails r.composition)[j]? = some c → (segs c [])[k]? = some (b, i, j₁) → ∀ ri ∈ g.rules,
    r.tail[i]? = some ri.head → ∃ c₁, (cutTrails ri.composition)[j₁]? = some c₁

theorem tts_exists {g : PMCFG N T W} {a : TSA (TsaSymbol N T) T W} (ha : TSA.ofPmcfg g = some a) :
    ∃ L b m L2, a.listTransitions = some L ∧ a.initialStack = some (TreeStack.new .initial) ∧ approximateAutomaton tts L (TreeStack.new .initial) = some (b, m) ∧
      b.listTransitions = some L2 ∧ TtsBuilt g b (L.map tts.transition) L2 := by
  unfold TSA.ofPmcfg at ha
  obtain ⟨ts, hts, ha'⟩ := Option.map_eq_some_iff.1 ha
  obtain ⟨a', ha'', ⟨L, h1, h2⟩, h3⟩ := C28_automaton g ts hts
  obtain rfl : a' = a := by
    have := ha''.symm.trans ha
    simpa using this
  obtain ⟨b, m, hb⟩ := approximateAutomaton_isSome (Z := tts) L (by intro t _; cases t.instruction <;> simp [tts]) (TreeStack.new .initial)
  obtain ⟨L2, h4, h5, _⟩ := approximateAutomaton_built hb
  obtain ⟨h6, h7, h8⟩ := tsaTransitions_keys hts
  refine ⟨L, b, m, L2, h1, h3, hb, h4, h5, fun x => ?_, h7, h8⟩
  rw [h5.mem, ← h6]
  have : (L.map tts.transition).map PDA.keyOf = L.map ttsKey := by simp [List.map_map, Function.comp_def, ttsKey, PDA.keyOf, ApproximationStrategy.transition]
  rw [this]
  exact (h2.map ttsKey).mem_iff

/-- There is only one result. -/
theorem tts_unique {g : PMCFG N T W} {a : TSA (TsaSymbol N T) T W} (ha : TSA.ofPmcfg g = some a) {L : List (TsaTransition N T W)} (hL : a.listTransitions = some L)
    {b : PDA (TsaSymbol N T) T W} {m : ReverseMap (TsInstr (TsaSymbol N T)) (PdInstr (TsaSymbol N T)) T W}
    (hb : approximateAutomaton tts L (TreeStack.new .initial) = some (b, m)) : ∃ L2, b.listTransitions = some L2 ∧ TtsBuilt g b (L.map tts.transition) L2 := by
  obtain ⟨L', b', m', L2, h1, _, h3, h4, h5⟩ := tts_exists ha
  obtain rfl : L' = L := by rw [h1] at hL; exact Option.some.inj hL
  have := h3.symm.trans hb
  simp only [Option.some.injEq, Prod.mk.injEq] at this
  obtain ⟨rfl, _⟩ := this
  exact ⟨L2, h4, h5⟩

namespace TtsBuilt
variable {g : PMCFG N T W} {b : PDA (TsaSymbol N T) T W} {ts L2 : List (Transition (PdInstr (TsaSymbol N T)) T W)} (h : TtsBuilt g b ts L2)
  {ag : Agenda H (Item (PushDown Nat) (PdInstr Nat) Nat W)} {content : H → Multiset (Item (PushDown Nat) (PdInstr Nat) Nat W)} {empty : H}
include h

omit [DecidableEq W] in
theorem isTts : ∀ t ∈ L2, IsTts g (PDA.keyOf t) := fun _ ht => (h.keys _).1 (List.mem_map.2 ⟨_, ht, rfl⟩)

omit [DecidableEq W] in
theorem language (w : List T) : (PDA.device L2 [.initial]).Language w ↔ w = [] ∨ Generates (componentCfgWith cutTrails g) w := by
  constructor
  · rintro ⟨us, s, u, hr, hacc⟩
    rcases tts_run h.isTts h.init h.comp hr with ⟨_, hc⟩ | ⟨us', s', u', hr', _, hs⟩
    · simp only [Configuration.mk.injEq] at hc
      exact .inl hc.1.symm
    · right
      have hs' := hs (by simpa [PDA.device] using hacc)
      subst hs'
      obtain ⟨_, S, hS, rs, h3, _⟩ := CFG.accepting_iff.1 (show (PDA.device (cutCfg g).pdaTransitions cfgStart).Accepting w us' [.designated] u' from ⟨hr', rfl⟩)
      exact generates_iff.2 ⟨S, hS, rs, h3⟩
  · rintro (rfl | hg)
    · exact ⟨[], [.initial], 1, ⟨.nil _, by simp⟩, rfl⟩
    · obtain ⟨us, u', h1, h2, _⟩ := generates_reach (fun x hx => (h.keys x).2 hx) hg 1
      exact ⟨us, _, u', ⟨h1, h2⟩, rfl⟩

omit [DecidableEq W] in
theorem no_panic (hG : ag.Sound content) (hempty : content empty = 0) (w : List T) (n : Nat) : ∃ r, b.recognise ag empty w n = some r := by
  have R := h.built.represents
  have hne : ∀ w ts c, IsRun PdInstr.apply L2 [.initial] w ts c → c.storage ≠ [] := by
    intro w ts c ⟨he, hm⟩
    have key : ∀ (ts : List (Transition (PdInstr (TsaSymbol N T)) T W)) (c c' : Configuration (PushDown (TsaSymbol N T)) T W),
        Exec PdInstr.apply c ts c' → (∀ t ∈ ts, t ∈ L2) → c.storage ≠ [] → c'.storage ≠ [] := by
      intro ts c c' he
      induction he with
      | nil => intro _ h; exact h
      | @cons c t c1 ts c2 hst _ ih =>
        intro hm hc
        refine ih (fun t ht => hm t (by simp [ht])) ?_
        obtain ⟨below, h3, h4⟩ := PdInstr.mem_apply.1 hst.storage
        rw [h4]
        have := h.isTts t (hm t (by simp))
        generalize hk : PDA.keyOf t = k at this
        have hi : t.instruction = k.2 := by rw [← hk]; rfl
        rw [hi]
        cases this <;> simp
    exact key ts _ _ he hm (by simp)
  obtain ⟨out, a, h3⟩ := Automaton.recognise_no_panic hG hempty b.automaton (w.mapM b.terminalToInt) (by
    intro w0 ts' c hw hr
    obtain ⟨ts'', c', h4, h5, h6⟩ := R.isRun_outer (R.mapM_toInt.1 hw) hr
    have h7 := hne w ts'' c' h6
    have h8 : c.storage ≠ [] := by
      intro e
      have := h5.storage
      rw [e] at this
      exact h7 (List.forall₂_nil_left_iff.1 this)
    exact ⟨c.storage.getLast h8, List.getLast?_eq_some_getLast h8⟩) n
  obtain ⟨out', h4⟩ := R.recogniseOuter_no_panic hG hempty h3
  exact ⟨_, h4⟩

omit [DecidableEq W] in
theorem ends (hG : ag.Sound content) (hempty : content empty = 0) {w : List T} (hl : ∀ v A, v <+: w → Exposed (cutCfg g) v A → ¬ CfgLeftRecursive (cutCfg g) A) :
    ∃ n₀, ∀ n ≥ n₀, ∃ out a, b.recognise ag empty w n = some (out, a) ∧ ag.pop a = none := by
  obtain ⟨l, hl⟩ := CFG.run_bounded (G := cutCfg g) (w := w) hl
  obtain ⟨n₀, hn⟩ := h.built.represents.ends hG hempty w (L := 2 * l) (fun us c hc => by
    rcases tts_run h.isTts h.init h.comp hc with ⟨rfl, _⟩ | ⟨us', s', u', hr', hlen, _⟩
    · simp
    · have := hl us' _ hr'
      omega)
  refine ⟨n₀, fun n hn' => ?_⟩
  obtain ⟨⟨out, a⟩, hrun⟩ := h.no_panic hG hempty w n
  exact ⟨out, a, hrun, hn n hn' out a hrun⟩

omit [DecidableEq W] in
theorem ends_iff (hG : ag.Lossless content) (hempty : content empty = 0) {w : List T} (hw : ∀ x ∈ w, ∃ t ∈ L2, x ∈ t.word) :
    (∃ n out a, b.recognise ag empty w n = some (out, a) ∧ ag.pop a = none) ↔ ¬ ∃ v A, v <+: w ∧ Exposed (cutCfg g) v A ∧ CfgLeftRecursive (cutCfg g) A := by
  constructor
  · intro he ⟨v, A, hv, hA, hrec⟩
    obtain ⟨l, hl⟩ := (h.built.represents.ends_iff h.built.coherent hG hempty w (h.no_panic hG.sound hempty w) hw).1 he
    obtain ⟨us, c, h3, h4⟩ := tts_unbounded (L := L2) (fun x hx => (h.keys x).2 hx) hv hA hrec (l + 1)
    have := hl us c h3
    omega
  · intro hl
    obtain ⟨n, hn⟩ := h.ends hG.sound hempty (w := w) fun v A hv hA hrec => hl ⟨v, A, hv, hA, hrec⟩
    obtain ⟨out, a, h1, h2⟩ := hn n (le_refl _)
    exact ⟨n, out, a, h1, h2⟩

end TtsBuilt

/-- The first item is the best one. -/
theorem first_run {A : Type _} [DecidableEq A] [LinearOrder W] {b : PDA A T W} {ts L : List (Transition (PdInstr A) T W)} {initial : PushDown A}
    (hB : PDA.Built b ts initial L) (hle : ∀ t ∈ L, ∀ u : W, u * t.weight ≤ u) {ag : Agenda H (Item (PushDown Nat) (PdInstr Nat) Nat W)}
    {content : H → Multiset (Item (PushDown Nat) (PdInstr Nat) Nat W)} {empty : H} (hG : HeapLaws ag content fun i => i.conf.weight) (hempty : content empty = 0)
    {w : List T} {m : Nat} {out : List (Item (PushDown A) (PdInstr A) T W)} {a : H} (hrun : b.recognise ag empty w m = some (out, a))
    (hfin : 1 ≤ out.length ∨ ag.pop a = none) : FirstRun (PDA.device L initial) w out.head? := by
  cases out with
  | nil =>
    replace hfin := hfin.resolve_left (by simp)
    rintro ⟨us, s, u, hacc⟩
    have := (hB.represents.exact_runs hB.coherent hG.lossless hempty hrun hfin ⟨⟨[], s, u⟩, Pushdown.ofSlice us⟩).2 ⟨rfl, by rw [toVec_ofSlice]; exact hacc⟩
    simp at this
  | cons i out =>
    obtain ⟨h1, h2⟩ := hB.represents.sound hG.lossless.sound hempty hrun i (by simp)
    refine ⟨h1, h2, fun us s u hacc => ?_⟩
    by_contra hlt
    rw [not_le] at hlt
    obtain ⟨m', b', hrun'⟩ := Automaton.recogniseOuter_prefix hrun (l := [i]) ⟨out, by simp⟩
    have := hB.represents.best_first hB.coherent hG hempty hle (ys := []) hrun' ⟨⟨[], s, u⟩, Pushdown.ofSlice us⟩ rfl (by rw [toVec_ofSlice]; exact hacc) hlt
    simp at this

/-- **C75** The approximation of the automaton of a PMCFG by a pushdown automaton never panics. For all grammars that have an automaton, the pushdown automaton accepts exactly
the empty word and the words of the context-free grammar of the components, in which only the last of several terminals at the end of a component is kept. -/
theorem C75_automaton {g : PMCFG N T W} {a : TSA (TsaSymbol N T) T W} (ha : TSA.ofPmcfg g = some a) :
    ∃ L b m L2, a.listTransitions = some L ∧ a.initialStack = some (TreeStack.new .initial) ∧ approximateAutomaton tts L (TreeStack.new .initial) = some (b, m) ∧
      b.listTransitions = some L2 ∧ b.initialStore = some [.initial] ∧
      ∀ w, (PDA.device L2 [.initial]).Language w ↔ w = [] ∨ Generates (componentCfgWith cutTrails g) w := by
  obtain ⟨L, b, m, L2, h1, h2, h3, h4, h5⟩ := tts_exists ha
  exact ⟨L, b, m, L2, h1, h2, h3, h4, PushDown.integLaws.unInteg.2 h5.built.init, h5.language⟩

omit [DecidableEq N] [DecidableEq T] [DecidableEq W] [Monoid W] [AddMonoid W] in
/-- **C75** Nothing is cut if no component ends in two terminals and no empty component follows a component that ends in a terminal. -/
theorem C75_short {g : PMCFG N T W} (hs : ∀ r ∈ g.rules, ShortTrails r.composition) : componentCfgWith cutTrails g = componentCfg g := by
  unfold componentCfg componentCfgWith
  congr 1
  refine List.flatMap_congr fun r hr => ?_
  rw [cutTrails_short (hs r hr)]
  rfl

omit [DecidableEq N] [DecidableEq T] [DecidableEq W] [AddMonoid W] in
/-- **C75** The context-free grammar of the components generates what the PMCFG generates. -/
theorem C75_over {g : PMCFG N T W} {w : List T} {u : W} (h : PGenerates g.initial g.rules w u) : Generates (componentCfg g) w := by
  obtain ⟨S, hS, d, hd, _⟩ := h
  exact ⟨(some S, 0), List.mem_map.2 ⟨S, hS, rfl⟩, component_yields hd 0 w rfl⟩

variable {g : PMCFG N T W} {a : TSA (TsaSymbol N T) T W} {L : List (TsaTransition N T W)} {b : PDA (TsaSymbol N T) T W}
  {m : ReverseMap (TsInstr (TsaSymbol N T)) (PdInstr (TsaSymbol N T)) T W} {ag : Agenda H (Item (PushDown Nat) (PdInstr Nat) Nat W)}
  {content : H → Multiset (Item (PushDown Nat) (PdInstr Nat) Nat W)} {empty : H}

/-- **C75** Recognition with the pushdown automaton does not panic. It ends if no left recursive nonterminal of the context-free grammar of the components is exposed by the
word, and only then if the automaton reads all symbols of the word. -/
theorem C75_ends (ha : TSA.ofPmcfg g = some a) (hL : a.listTransitions = some L) (hb : approximateAutomaton tts L (TreeStack.new .initial) = some (b, m))
    {L2 : List (Transition (PdInstr (TsaSymbol N T)) T W)} (hL2 : b.listTransitions = some L2) (hG : ag.Lossless content) (hempty : content empty = 0) {w : List T} :
    (∀ n, ∃ r, b.recognise ag empty w n = some r) ∧
    ((∀ v A, v <+: w → Exposed (componentCfgWith cutTrails g) v A → ¬ CfgLeftRecursive (componentCfgWith cutTrails g) A) →
      ∃ n₀, ∀ n ≥ n₀, ∃ out a, b.recognise ag empty w n = some (out, a) ∧ ag.pop a = none) ∧
    ((∀ x ∈ w, ∃ t ∈ L2, x ∈ t.word) → (∃ n out a, b.recognise ag empty w n = some (out, a) ∧ ag.pop a = none) →
      ∀ v A, v <+: w → Exposed (componentCfgWith cutTrails g) v A → ¬ CfgLeftRecursive (componentCfgWith cutTrails g) A) := by
  obtain ⟨L2', h1, h2⟩ := tts_unique ha hL hb
  obtain rfl : L2' = L2 := by rw [h1] at hL2; exact Option.some.inj hL2
  exact ⟨h2.no_panic hG.sound hempty w, h2.ends hG.sound hempty, fun hw h v A hv hA hrec => (h2.ends_iff hG hempty hw).1 h ⟨v, A, hv, hA, hrec⟩⟩

/-- **C75** Each derivation of the PMCFG is at most as good as the first parse of the pushdown automaton, if the automaton of the PMCFG is the one that is expected (the hypotheses of
C28) and a sum is at least as good as its summands. -/
theorem C75_bound [CommMonoid V] [AddMonoid V] [LinearOrder V] {g : PMCFG N T V} {a : TSA (TsaSymbol N T) T V} {L : List (TsaTransition N T V)} {b : PDA (TsaSymbol N T) T V}
    {m : ReverseMap (TsInstr (TsaSymbol N T)) (PdInstr (TsaSymbol N T)) T V}
    (hl : ∀ a b : V, a ≤ a + b) (hr : ∀ a b : V, b ≤ a + b) (hm : ∀ a b c d : V, a ≤ b → c ≤ d → a * c ≤ b * d)
    (ha : TSA.ofPmcfg g = some a) (hL : a.listTransitions = some L)
    (hb : approximateAutomaton tts L (TreeStack.new .initial) = some (b, m)) {L2 : List (Transition (PdInstr (TsaSymbol N T)) T V)} (hL2 : b.listTransitions = some L2)
    (ho : Ordered g.rules) (hs : ∀ r ∈ g.rules, ShortTrails r.composition) (hne : ∀ r ∈ g.rules, r.composition ≠ []) {w : List T} {u : V}
    (hw : PGenerates g.initial g.rules w u) {o : Option (Item (PushDown (TsaSymbol N T)) (PdInstr (TsaSymbol N T)) T V)}
    (hfirst : FirstRun (PDA.device L2 [.initial]) w o) : ∃ i, o = some i ∧ u ≤ i.conf.weight := by
  unfold TSA.ofPmcfg at ha
  obtain ⟨ts, hts, ha'⟩ := Option.map_eq_some_iff.1 ha
  obtain ⟨a', ha'', ⟨L', h1, h2⟩, h3⟩ := C28_automaton g ts hts
  obtain rfl : a' = a := by
    have := ha''.symm.trans ha
    simpa using this
  obtain rfl : L' = L := by rw [h1] at hL; exact Option.some.inj hL
  obtain ⟨S, hS, d, hd, rfl⟩ := hw
  obtain ⟨run, s, _, ⟨⟨he, hmem⟩, hacc⟩, _⟩ := C28_complete_partial g ts hts ho hs hne hS hd
  obtain ⟨run2, h4, h5⟩ := C29_weight hl hr hm hb hL2 (w := w) (run := run) (s := s) (u := d.weight) ⟨⟨he, fun t ht => h2.mem_iff.2 (hmem t ht)⟩, hacc⟩
  cases o with
  | none => exact absurd ⟨_, _, _, h4⟩ hfirst
  | some i => exact ⟨i, rfl, le_trans h5 (hfirst.2.2 _ _ _ h4)⟩

end

/-! ### The command -/

section
variable {W H : Type _} [Monoid W] [AddMonoid W] [LinearOrder W] {ag : Agenda H (Item (PushDown Nat) (PdInstr Nat) Nat W)} {empty : H}
  {dbg : Option (Item (PushDown (TsaSymbol (List Nat) (List Nat))) (PdInstr (TsaSymbol (List Nat) (List Nat))) (List Nat) W) → List Nat} {n : Nat}
  {content : H → Multiset (Item (PushDown Nat) (PdInstr Nat) Nat W)} {cw : Codec W} {g : PMCFG (List Nat) (List Nat) W}
  {a : TSA (TsaSymbol (List Nat) (List Nat)) (List Nat) W} {L : List (TsaTransition (List Nat) (List Nat) W)} {b : PDA (TsaSymbol (List Nat) (List Nat)) (List Nat) W}
  {m : ReverseMap (TsInstr (TsaSymbol (List Nat) (List Nat))) (PdInstr (TsaSymbol (List Nat) (List Nat))) (List Nat) W} {grammar corpus : List Nat}

theorem ttsCommand_lines (hgr : GrammarFile stringCodec (PmcfgRuleReads stringCodec stringCodec cw) g.initial g.rules grammar) (ha : TSA.ofPmcfg g = some a) :
    ∃ L b m L2, a.listTransitions = some L ∧ approximateAutomaton tts L (TreeStack.new .initial) = some (b, m) ∧ b.listTransitions = some L2 ∧
      TtsBuilt g b (L.map tts.transition) L2 ∧ ∀ n, ttsCommand cw dbg ag empty n grammar corpus = firstParses b dbg ag empty n (lines corpus) := by
  obtain ⟨L, b, m, L2, h1, h2, h3, h4, h5⟩ := tts_exists ha
  refine ⟨L, b, m, L2, h1, h3, h4, h5, fun n => ?_⟩
  unfold ttsCommand
  rw [C65_pmcfg.2 hgr]
  simp only
  rw [ha, Option.bind_some, h1, Option.bind_some, h2, Option.bind_some, h3, Option.bind_some]

/-- **C75** The command `approximation tts parse`: there is no panic, and each line is answered by the best run of the pushdown automaton, followed by the line. The answer is
`None` if and only if the line has a word and is not generated by the context-free grammar of the components. -/
theorem C75_command (hgr : GrammarFile stringCodec (PmcfgRuleReads stringCodec stringCodec cw) g.initial g.rules grammar) (ha : TSA.ofPmcfg g = some a)
    (hL : a.listTransitions = some L) (hb : approximateAutomaton tts L (TreeStack.new .initial) = some (b, m))
    {L2 : List (Transition (PdInstr (TsaSymbol (List Nat) (List Nat))) (List Nat) W)} (hL2 : b.listTransitions = some L2) (hle : ∀ t ∈ L2, ∀ u : W, u * t.weight ≤ u)
    (hG : HeapLaws ag content fun i => i.conf.weight) (hempty : content empty = 0) {ls : List (List Nat)} (hls : LinesOf ls corpus) :
    ∃ r, ttsCommand cw dbg ag empty n grammar corpus = some r ∧ ∀ text, r = some text → ∃ answers : List (List Nat),
      List.Forall₂ (fun line answer => ∃ w o, WordsText w line ∧ FirstRun (PDA.device L2 [.initial]) w o ∧
        (o = none ↔ w ≠ [] ∧ ¬ Generates (componentCfgWith cutTrails g) w) ∧ answer = dbg o ++ [58, 32] ++ line ++ [10]) ls answers ∧
      text = answers.flatten := by
  obtain ⟨L', b', m', L2', h1, h3, h4, h5, h6⟩ := ttsCommand_lines (dbg := dbg) (ag := ag) (empty := empty) (corpus := corpus) hgr ha
  obtain rfl : L' = L := by rw [h1] at hL; exact Option.some.inj hL
  obtain ⟨rfl, _⟩ : b' = b ∧ m' = m := by
    have := h3.symm.trans hb
    simpa only [Option.some.injEq, Prod.mk.injEq] using this
  obtain rfl : L2' = L2 := by rw [h4] at hL2; exact Option.some.inj hL2
  rw [h6, lines_iff.2 hls]
  obtain ⟨r, hr⟩ := firstParses_no_panic (b := b') (dbg := dbg) (ag := ag) (empty := empty) (m := n) (ls := ls) fun x _ => h5.no_panic hG.lossless.sound hempty _ n
  refine ⟨r, hr, ?_⟩
  rintro text rfl
  obtain ⟨answers, h7, rfl⟩ := firstParses_some hr
  refine ⟨answers, h7.imp fun line answer h => ?_, rfl⟩
  obtain ⟨out, a, hrun, hfin, rfl⟩ := firstParse_some h
  have hf := first_run h5.built hle hG hempty hrun hfin
  refine ⟨_, _, splitWhite_iff.1 rfl, hf, ?_, rfl⟩
  have hlang := h5.language (splitWhite line)
  cases ho : out.head? with
  | none =>
    rw [ho] at hf
    have := mt hlang.2 hf
    rw [not_or] at this
    exact ⟨fun _ => this, fun _ => rfl⟩
  | some i =>
    rw [ho] at hf
    refine ⟨by simp, fun h => ?_⟩
    rcases hlang.1 ⟨_, _, _, hf.2.1⟩ with h' | h'
    · exact absurd h' h.1
    · exact absurd h' h.2

/-- **C75** Total correctness: the command finishes if no line exposes a left recursive nonterminal of the context-free grammar of the components. -/
theorem C75_command_total (hgr : GrammarFile stringCodec (PmcfgRuleReads stringCodec stringCodec cw) g.initial g.rules grammar) (ha : TSA.ofPmcfg g = some a)
    (hL : a.listTransitions = some L) (hb : approximateAutomaton tts L (TreeStack.new .initial) = some (b, m))
    {L2 : List (Transition (PdInstr (TsaSymbol (List Nat) (List Nat))) (List Nat) W)} (hL2 : b.listTransitions = some L2) (hle : ∀ t ∈ L2, ∀ u : W, u * t.weight ≤ u)
    (hG : HeapLaws ag content fun i => i.conf.weight) (hempty : content empty = 0) {ls : List (List Nat)} (hls : LinesOf ls corpus)
    (hl : ∀ line ∈ ls, ∀ w, WordsText w line → ∀ v A, v <+: w → Exposed (componentCfgWith cutTrails g) v A → ¬ CfgLeftRecursive (componentCfgWith cutTrails g) A) :
    ∃ answers : List (List Nat),
      List.Forall₂ (fun line answer => ∃ w o, WordsText w line ∧ FirstRun (PDA.device L2 [.initial]) w o ∧
        (o = none ↔ w ≠ [] ∧ ¬ Generates (componentCfgWith cutTrails g) w) ∧ answer = dbg o ++ [58, 32] ++ line ++ [10]) ls answers ∧
      ∃ m₀, ∀ n ≥ m₀, ttsCommand cw dbg ag empty n grammar corpus = some (some answers.flatten) := by
  obtain ⟨L', b', m', L2', h1, h3, h4, h5, h6⟩ := ttsCommand_lines (dbg := dbg) (ag := ag) (empty := empty) (corpus := corpus) hgr ha
  obtain ⟨text, m₀, hm⟩ := firstParses_finishes (b := b') (dbg := dbg) (ag := ag) (empty := empty) (ls := ls) fun x hx => by
    refine firstParse_finishes (fun n => h5.no_panic hG.lossless.sound hempty _ n) ?_
    obtain ⟨n, hn⟩ := h5.ends hG.lossless.sound hempty (hl x hx _ (splitWhite_iff.1 rfl))
    obtain ⟨out, a, h6, h7⟩ := hn n (le_refl _)
    exact ⟨n, out, a, h6, .inr h7⟩
  have hm' : ∀ n ≥ m₀, ttsCommand cw dbg ag empty n grammar corpus = some (some text) := by
    intro n hn
    rw [h6, lines_iff.2 hls]
    exact hm n hn
  obtain ⟨r, hr, hcor⟩ := C75_command (dbg := dbg) (n := m₀) hgr ha hL hb hL2 hle hG hempty hls
  rw [hm' m₀ (le_refl _)] at hr
  obtain ⟨answers, h7, rfl⟩ := hcor text (Option.some.inj hr).symm
  exact ⟨answers, h7, m₀, hm'⟩

/-- **C75** The command panics if and only if the file is not a grammar or the automaton of the grammar cannot be built (C28). -/
theorem C75_panic (hG : ag.Sound content) (hempty : content empty = 0) :
    ttsCommand cw dbg ag empty n grammar corpus = none ↔
      ¬ ∃ g : PMCFG (List Nat) (List Nat) W, GrammarFile stringCodec (PmcfgRuleReads stringCodec stringCodec cw) g.initial g.rules grammar ∧
        (∀ r ∈ g.rules, r.head ∈ g.initial → r.composition ≠ []) ∧ (∀ r ∈ g.rules, ∀ A ∈ r.tail, ∃ r' ∈ g.rules, r'.head = A) ∧ WellFormed g.rules := by
  constructor
  · rintro h ⟨g, hgr, hc⟩
    cases ha : TSA.ofPmcfg g with
    | none => exact (C28_panics g).1 ha hc
    | some a =>
      obtain ⟨L, b, m, L2, h1, h3, h4, h5, h6⟩ := ttsCommand_lines (dbg := dbg) (ag := ag) (empty := empty) (corpus := corpus) hgr ha
      rw [h6] at h
      obtain ⟨r, hr⟩ := firstParses_no_panic (b := b) (dbg := dbg) (ag := ag) (empty := empty) (m := n) (ls := lines corpus) fun x _ => h5.no_panic hG hempty _ n
      rw [h] at hr
      cases hr
  · intro h
    unfold ttsCommand
    split
    · rename_i g hg
      have : TSA.ofPmcfg g = none := (C28_panics g).2 fun hc => h ⟨g, C65_pmcfg.1 hg, hc⟩
      rw [this]
      rfl
    · rfl

end

/-! ### The claim without the cut -/

/-- **C75, the claim** that the pushdown automaton accepts each word that the PMCFG generates. -/
def C75_claim : Prop :=
  ∀ (g : PMCFG Nat Nat Nat) (a : TSA (TsaSymbol Nat Nat) Nat Nat) (L : List (TsaTransition Nat Nat Nat)) (b : PDA (TsaSymbol Nat Nat) Nat Nat)
    (m : ReverseMap (TsInstr (TsaSymbol Nat Nat)) (PdInstr (TsaSymbol Nat Nat)) Nat Nat) (L2 : List (Transition (PdInstr (TsaSymbol Nat Nat)) Nat Nat)),
    TSA.ofPmcfg g = some a → a.listTransitions = some L → approximateAutomaton tts L (TreeStack.new .initial) = some (b, m) → b.listTransitions = some L2 →
    ∀ w u, PGenerates g.initial g.rules w u → (PDA.device L2 [.initial]).Language w

/-- **C75 is violated** by components that end with two terminals: `S → [0 1] ()` generates `0 1`, which the pushdown automaton does not accept. -/
theorem C75_over_violated : ¬ C75_claim := by
  intro h
  let r : PMCFGRule Nat Nat Nat := ⟨0, [], [[.t 0, .t 1]], 1⟩
  let g : PMCFG Nat Nat Nat := ⟨[0], [r]⟩
  obtain ⟨a, ha⟩ : ∃ a, TSA.ofPmcfg g = some a := Option.isSome_iff_exists.1 (by decide)
  obtain ⟨L, b, m, L2, h1, h2, h3, h4, h5, h6⟩ := C75_automaton ha
  rcases (h6 _).1 (h g a L b m L2 ha h1 h3 h4 [0, 1] 1 ⟨0, by simp [g], .node r [], .node (r := r) (args := []) (by simp [g]) .nil rfl, rfl⟩) with h7 | h7
  · cases h7
  · obtain ⟨S, hS, rs, h7⟩ := generates_iff.1 h7
    cases h7 with
    | expand hr h8 =>
      simp only [componentCfgWith, g, r, List.flatMap_cons, List.flatMap_nil, List.append_nil] at hr
      have : cutTrails ([[.t 0, .t 1]] : Composition Nat) = [[.t 1]] := by decide
      rw [this] at hr
      simp only [List.zipIdx_cons, List.zipIdx_nil, List.map_cons, List.map_nil, List.mem_singleton, componentLetter] at hr
      subst hr
      cases h8

/-! ### Examples -/

namespace C75Example
open C48Example C65Example

/-- `S → [x₀,₀ x₀,₁] (A)`, `A → [a], [c] ()`, `A → [b], [d] ()`. -/
def grammar : List Nat := bytes "initial: [S]\nS -> [[Var 0 0, Var 0 1]] (A)\nA -> [[T a], [T c]] ()\nA -> [[T b], [T d]] ()\n"

def S := bytes "S"
def A := bytes "A"
def a := bytes "a"
def b := bytes "b"
def c := bytes "c"
def d := bytes "d"

def g : PMCFG (List Nat) (List Nat) Nat := ⟨[S], [⟨S, [A], [[.var 0 0, .var 0 1]], 1⟩, ⟨A, [], [[.t a], [.t c]], 1⟩, ⟨A, [], [[.t b], [.t d]], 1⟩]⟩

/-- The context-free grammar of the components. -/
def k : CFG (Option (List Nat) × Nat) (List Nat) Nat :=
  ⟨[(some S, 0)], [⟨(some S, 0), [.label (some A, 0), .label (some A, 1)], 1⟩, ⟨(some A, 0), [.value a], 1⟩, ⟨(some A, 1), [.value c], 1⟩, ⟨(some A, 0), [.value b], 1⟩,
    ⟨(some A, 1), [.value d], 1⟩]⟩

theorem reads : GrammarFile stringCodec (PmcfgRuleReads stringCodec stringCodec num) g.initial g.rules grammar := (grammarFromStr_iff fun _ _ => C65_pmcfg_rule).1 (by decide +kernel)

theorem hasAutomaton : ∃ a, TSA.ofPmcfg g = some a := Option.isSome_iff_exists.1 (by decide +kernel)

theorem components : componentCfgWith cutTrails g = k := by
  have h1 : (componentCfgWith cutTrails g).initial = k.initial := by decide +kernel
  have h2 : (componentCfgWith cutTrails g).rules = k.rules := by decide +kernel
  cases hk : componentCfgWith cutTrails g
  rw [hk] at h1 h2
  simp only at h1 h2
  rw [h1, h2]

/-- The inclusion is proper: the pushdown automaton accepts `a d`, which the PMCFG does not generate. -/
example : Generates (componentCfgWith cutTrails g) [a, d] ∧ ¬ ∃ u, PGenerates g.initial g.rules [a, d] u := by
  constructor
  · rw [components]
    refine generates_iff.2 ⟨(some S, 0), by simp [k], [⟨(some S, 0), [.label (some A, 0), .label (some A, 1)], 1⟩, ⟨(some A, 0), [.value a], 1⟩, ⟨(some A, 1), [.value d], 1⟩], ?_⟩
    exact .expand (r := ⟨(some S, 0), [.label (some A, 0), .label (some A, 1)], 1⟩) (γ := []) (by simp [k]) (.expand (γ := [.label (some A, 1)]) (r := ⟨(some A, 0), [.value a], 1⟩) (by simp [k])
      (.read (.expand (γ := []) (r := ⟨(some A, 1), [.value d], 1⟩) (by simp [k]) (.read .nil))))
  · rintro ⟨u, S', hS, t, hd, _⟩
    simp only [g, List.mem_singleton] at hS
    subst hS
    have hA : ∀ t v, Derives g.rules A t v → v = [[a], [c]] ∨ v = [[b], [d]] := by
      intro t v h
      generalize hB : A = B at h
      cases h with
      | node hr hds hv =>
        simp only [g, List.mem_cons, List.not_mem_nil, or_false] at hr
        rcases hr with rfl | rfl | rfl
        · exact absurd hB (by decide)
        · exact .inl (by simpa [compose, substAll, subst] using hv.symm)
        · exact .inr (by simpa [compose, substAll, subst] using hv.symm)
    generalize hB : S = B at hd
    cases hd with
    | node hr hds hv =>
      simp only [g, List.mem_cons, List.not_mem_nil, or_false] at hr
      rcases hr with rfl | rfl | rfl
      · cases hds with
        | cons h1 h2 =>
          cases h2
          rcases hA _ _ h1 with rfl | rfl <;> revert hv <;> decide
      · exact absurd hB (by decide)
      · exact absurd hB (by decide)

theorem notLeft (B : Option (List Nat) × Nat) : ¬ CfgLeftRecursive k B := by
  have h1 : ∀ B C, CfgLeftCorner k B C → (B = (some S, 0) ∧ C ≠ (some S, 0)) := by
    rintro B C ⟨r, hr, rfl, α, β, hc, hv⟩
    simp only [k, List.mem_cons, List.not_mem_nil, or_false] at hr
    obtain ⟨rs, hl⟩ := yields_iff.1 hv
    rcases hr with rfl | rfl | rfl | rfl | rfl
    · refine ⟨rfl, ?_⟩
      rintro rfl
      have : ∀ x ∈ ([.label (some A, 0), .label (some A, 1)] : List (LetterT (Option (List Nat) × Nat) (List Nat))), x ≠ .label (some S, 0) := by decide +kernel
      simp only at hc
      exact this (.label (some S, 0)) (by rw [hc]; simp) rfl
    all_goals
      cases α with
      | nil => simp at hc
      | cons x α => simp at hc
  intro h
  obtain ⟨C, h2, h3⟩ := Relation.TransGen.head'_iff.1 h
  obtain ⟨h4, h5⟩ := h1 _ _ h2
  obtain rfl | ⟨D, h6, _⟩ := Relation.ReflTransGen.cases_head h3
  · exact h5 h4
  · exact h5 (h1 _ _ h6).1

/-- The command finishes for each input, and each line is answered by a best run. -/
example (dbg : Option (Item (PushDown (TsaSymbol (List Nat) (List Nat))) (PdInstr (TsaSymbol (List Nat) (List Nat))) (List Nat) Nat) → List Nat)
    {ls : List (List Nat)} {corpus : List Nat} (hls : LinesOf ls corpus) : ∃ L2, ∃ answers : List (List Nat),
      List.Forall₂ (fun line answer => ∃ w o, WordsText w line ∧ FirstRun (PDA.device L2 [.initial]) w o ∧
        (o = none ↔ w ≠ [] ∧ ¬ Generates k w) ∧ answer = dbg o ++ [58, 32] ++ line ++ [10]) ls answers ∧
      ∃ m₀, ∀ n ≥ m₀, ttsCommand num dbg (listHeap fun i => i.conf.weight) [] n grammar corpus = some (some answers.flatten) := by
  obtain ⟨aut, ha⟩ := hasAutomaton
  obtain ⟨L, P, m, L2, h1, h2, h3, h4, h5, _⟩ := C75_automaton ha
  have hle : ∀ t ∈ L2, ∀ u, u * t.weight ≤ u := by
    have : ∀ t ∈ L2, t.weight = 1 := by
      have h : (do let a ← TSA.ofPmcfg g; let L ← a.listTransitions; let r ← approximateAutomaton tts L (TreeStack.new .initial); let l ← r.1.listTransitions
                   some (l.all fun t => t.weight == 1)) = some true := by decide +kernel
      simp only [Option.bind_eq_bind] at h
      rw [ha, Option.bind_some, h1, Option.bind_some, h3, Option.bind_some, h4, Option.bind_some, Option.some.injEq] at h
      simpa using h
    intro t ht u
    rw [this t ht, Nat.mul_one]
  have := C75_command_total (dbg := dbg) reads ha h1 h3 h4 hle (listHeap_laws _) rfl hls (by rw [components]; exact fun _ _ _ _ _ A _ _ => notLeft A)
  rw [components] at this
  exact ⟨L2, this⟩

/-- Test: `a d` is accepted although the PMCFG does not generate it; a blank line is always accepted. -/
example : ttsCommand num (fun o => o.elim (bytes "None") fun i => natText i.conf.weight) (listHeap fun i => i.conf.weight) [] 30 grammar (bytes "a c\na  d\nc a\n\n") =
    some (some (bytes "1: a c\n1: a  d\nNone: c a\n1: \n")) := by decide +kernel

end C75Example

end Rustomata.Props
