import Verif.Model.ApproximationCommand
import Verif.Proofs.Relabel
import Verif.Props.Approximation
import Verif.Props.CfgCommand
import Verif.Props.ClassText

/-!
# Property C74: relabelling the automaton of a context-free grammar, and the command `approximation relabel parse`

Only property theorems, the lemmas that combine them, and the examples that show their hypotheses to be satisfiable.
-/

namespace Rustomata.Props
open Rustomata Rustomata.Spec

section
variable {N N' T W H : Type _} [DecidableEq N] [DecidableEq N'] [DecidableEq T] [DecidableEq W]

/-- **C74** Relabelling the automaton of a context-free grammar gives the automaton of the relabelled grammar: the same transitions with the same weights, up to their order,
and the same initial store. There is no panic. For all grammars and all functions, also if rules become equal, whose weights are then added. -/
theorem C74_automaton [Monoid W] [AddCommMonoid W] (G : CFG N T W) (f : N → N') :
    ∃ P L b m Q L2 L3, G.toPda = some P ∧ P.listTransitions = some L ∧ P.initialStore = some [.designated, .initial] ∧
      approximateAutomaton (relabel (PushState.map f)) L [.designated, .initial] = some (b, m) ∧ (relabelCfg f G).toPda = some Q ∧
      b.listTransitions = some L2 ∧ Q.listTransitions = some L3 ∧ L2.Perm L3 ∧ b.initialStore = some [.designated, .initial] ∧ Q.initialStore = some [.designated, .initial] := by
  obtain ⟨P, hP⟩ := CFG.toPda_some (W := W) G
  obtain ⟨Q, hQ⟩ := CFG.toPda_some (W := W) (relabelCfg f G)
  obtain ⟨L, b, m, L2, h1, h2, h3, h4, h5⟩ := relabel_built f hP
  obtain ⟨L3, h6, h7⟩ := PDA.new_built hQ
  refine ⟨P, L, b, m, Q, L2, L3, hP, h1, h2, h3, hQ, h4, h6, ?_, PushDown.integLaws.unInteg.2 h5.init, PushDown.integLaws.unInteg.2 h7.init⟩
  refine (List.perm_ext_iff_of_nodup (List.Nodup.of_map _ h5.nodup) (List.Nodup.of_map _ h7.nodup)).2 fun t => ?_
  rw [h5.transitions, h7.transitions]

/-- The automaton that results from relabelling. -/
theorem relabelled_built [Monoid W] [AddCommMonoid W] {G : CFG N T W} {f : N → N'} {P : PDA (PushState N T) T W} {L : List (Transition (PdInstr (PushState N T)) T W)}
    {b : PDA (PushState N' T) T W} {m : ReverseMap (PdInstr (PushState N T)) (PdInstr (PushState N' T)) T W} (hP : G.toPda = some P) (hL : P.listTransitions = some L)
    (hb : approximateAutomaton (relabel (PushState.map f)) L [.designated, .initial] = some (b, m)) :
    ∃ L2, b.listTransitions = some L2 ∧ PDA.Built b (relabelCfg f G).pdaTransitions cfgStart L2 := by
  obtain ⟨L', b', m', L2, h1, h2, h3, h4, h5⟩ := relabel_built f hP
  obtain rfl : L' = L := by rw [h1] at hL; exact Option.some.inj hL
  have := h3.symm.trans hb
  simp only [Option.some.injEq, Prod.mk.injEq] at this
  obtain ⟨rfl, _⟩ := this
  exact ⟨L2, h4, h5⟩

variable {G : CFG N T W} {f : N → N'} {P : PDA (PushState N T) T W} {L : List (Transition (PdInstr (PushState N T)) T W)} {b : PDA (PushState N' T) T W}
  {m : ReverseMap (PdInstr (PushState N T)) (PdInstr (PushState N' T)) T W}

/-- **C74** The relabelled automaton accepts exactly the words of the relabelled grammar, among them all words of the grammar. -/
theorem C74_language [Monoid W] [AddCommMonoid W] (hP : G.toPda = some P) (hL : P.listTransitions = some L)
    (hb : approximateAutomaton (relabel (PushState.map f)) L [.designated, .initial] = some (b, m)) :
    ∃ L2, b.listTransitions = some L2 ∧ (∀ w, (PDA.device L2 [.designated, .initial]).Language w ↔ Generates (relabelCfg f G) w) ∧
      ∀ w, Generates G w → (PDA.device L2 [.designated, .initial]).Language w := by
  obtain ⟨L2, h1, h2⟩ := relabelled_built hP hL hb
  exact ⟨L2, h1, cfg_language h2, fun w hw => (cfg_language h2 w).2 (generates_relabel f hw)⟩

/-- **C74** Recognition with the relabelled automaton does not panic, and it ends if and only if no left recursive nonterminal of the relabelled grammar is exposed by the word. -/
theorem C74_ends [Monoid W] [AddCommMonoid W] (hP : G.toPda = some P) (hL : P.listTransitions = some L)
    (hb : approximateAutomaton (relabel (PushState.map f)) L [.designated, .initial] = some (b, m))
    {ag : Agenda H (Item (PushDown Nat) (PdInstr Nat) Nat W)} {content : H → Multiset (Item (PushDown Nat) (PdInstr Nat) Nat W)} (hG : ag.Lossless content)
    {empty : H} (hempty : content empty = 0) {w : List T} :
    (∀ n, ∃ r, b.recognise ag empty w n = some r) ∧
    ((∀ v A, v <+: w → Exposed (relabelCfg f G) v A → ¬ CfgLeftRecursive (relabelCfg f G) A) →
      ∃ n₀, ∀ n ≥ n₀, ∃ out a, b.recognise ag empty w n = some (out, a) ∧ ag.pop a = none) ∧
    ((∀ x ∈ w, ∃ r ∈ G.rules, .value x ∈ r.composition) → (∃ n out a, b.recognise ag empty w n = some (out, a) ∧ ag.pop a = none) →
      ∀ v A, v <+: w → Exposed (relabelCfg f G) v A → ¬ CfgLeftRecursive (relabelCfg f G) A) := by
  obtain ⟨L2, _, h2⟩ := relabelled_built hP hL hb
  refine ⟨cfg_no_panic h2 hG.sound hempty w, cfg_ends h2 hG.sound hempty, fun hw h v A hv hA hrec => ?_⟩
  refine (cfg_ends_iff h2 hG hempty (fun x hx => ?_)).1 h ⟨v, A, hv, hA, hrec⟩
  obtain ⟨r, hr, hxr⟩ := hw x hx
  exact ⟨relabelRule f r, List.mem_map.2 ⟨r, hr, rfl⟩, List.mem_map.2 ⟨_, hxr, rfl⟩⟩

end

/-! ### The command -/

section
variable {A W H : Type _} [DecidableEq A] [Monoid W] [AddMonoid W] {b : PDA A (List Nat) W} {ag : Agenda H (Item (PushDown Nat) (PdInstr Nat) Nat W)} {empty : H}
  {dbg : Option (Item (PushDown A) (PdInstr A) (List Nat) W) → List Nat} {m : Nat}

omit [AddMonoid W] in
theorem firstParse_some {line text : List Nat} (h : firstParse b dbg ag empty m line = some (some text)) :
    ∃ out a, b.recognise ag empty (splitWhite line) m = some (out, a) ∧ (1 ≤ out.length ∨ ag.pop a = none) ∧ text = dbg out.head? ++ [58, 32] ++ line ++ [10] := by
  unfold firstParse at h
  cases hrun : b.recognise ag empty (splitWhite line) m with
  | none => rw [hrun] at h; cases h
  | some x =>
    obtain ⟨out, a⟩ := x
    rw [hrun] at h
    simp only at h
    split at h
    · rename_i hc
      cases h
      exact ⟨out, a, rfl, by simpa using hc, rfl⟩
    · cases h

omit [AddMonoid W] in
/-- More steps do not change the answer. -/
theorem firstParse_steps (hp : ∀ n, ∃ r, b.recognise ag empty (splitWhite line) n = some r) {m m' : Nat} {text : List Nat} (hm : m ≤ m')
    (h : firstParse b dbg ag empty m line = some (some text)) : firstParse b dbg ag empty m' line = some (some text) := by
  obtain ⟨⟨out', a'⟩, h'⟩ := hp m'
  obtain ⟨out, a, hrun, hfin, rfl⟩ := firstParse_some h
  obtain ⟨out₁, a₁, h1, h2, h3⟩ := Automaton.recogniseOuter_mono h' hm
  have := h1.symm.trans hrun
  simp only [Option.some.injEq, Prod.mk.injEq] at this
  obtain ⟨rfl, rfl⟩ := this
  unfold firstParse
  rw [h']
  simp only
  rcases hfin with hn | hp
  · obtain ⟨l, rfl⟩ := h2
    rw [if_pos (.inl (by simp; omega))]
    cases out₁ with
    | nil => simp at hn
    | cons x xs => rfl
  · obtain ⟨rfl, rfl⟩ := h3 hp
    rw [if_pos (.inr (by rw [hp]; rfl))]

omit [AddMonoid W] in
theorem firstParse_finishes (hp : ∀ n, ∃ r, b.recognise ag empty (splitWhite line) n = some r)
    (h : ∃ m₀ out a, b.recognise ag empty (splitWhite line) m₀ = some (out, a) ∧ (1 ≤ out.length ∨ ag.pop a = none)) :
    ∃ text m₀, ∀ m ≥ m₀, firstParse b dbg ag empty m line = some (some text) := by
  obtain ⟨m₀, out, a, hrun, hend⟩ := h
  refine ⟨dbg out.head? ++ [58, 32] ++ line ++ [10], m₀, fun m hm' => firstParse_steps hp hm' ?_⟩
  unfold firstParse
  rw [hrun]
  simp only
  rw [if_pos (by simpa using hend)]

omit [AddMonoid W] in
theorem firstParses_some {ls : List (List Nat)} {text : List Nat} (h : firstParses b dbg ag empty m ls = some (some text)) :
    ∃ answers, List.Forall₂ (fun x answer => firstParse b dbg ag empty m x = some (some answer)) ls answers ∧ text = answers.flatten := by
  induction ls generalizing text with
  | nil => cases h; exact ⟨[], .nil, rfl⟩
  | cons line ls ih =>
    unfold firstParses at h
    split at h
    · cases h
    · cases h
    · rename_i t ht
      obtain ⟨o, h1, h2⟩ := Option.map_eq_some_iff.1 h
      obtain ⟨rest, rfl, rfl⟩ := Option.map_eq_some_iff.1 h2
      obtain ⟨answers, h3, rfl⟩ := ih h1
      exact ⟨t :: answers, .cons ht h3, by simp⟩

omit [AddMonoid W] in
theorem firstParses_no_panic {ls : List (List Nat)} (h : ∀ x ∈ ls, ∃ r, b.recognise ag empty (splitWhite x) m = some r) :
    ∃ r, firstParses b dbg ag empty m ls = some r := by
  induction ls with
  | nil => exact ⟨_, rfl⟩
  | cons x ls ih =>
    obtain ⟨⟨out, a⟩, hr⟩ := h x (by simp)
    obtain ⟨r', hr'⟩ := ih fun x hx => h x (by simp [hx])
    unfold firstParses firstParse
    rw [hr]
    simp only
    by_cases hc : 1 ≤ out.length ∨ (ag.pop a).isNone = true
    · rw [if_pos hc]
      simp only [hr', Option.map_some]
      exact ⟨_, rfl⟩
    · rw [if_neg hc]
      exact ⟨_, rfl⟩

omit [AddMonoid W] in
theorem firstParses_finishes {ls : List (List Nat)} (h : ∀ x ∈ ls, ∃ text m₀, ∀ m ≥ m₀, firstParse b dbg ag empty m x = some (some text)) :
    ∃ text m₀, ∀ m ≥ m₀, firstParses b dbg ag empty m ls = some (some text) := by
  induction ls with
  | nil => exact ⟨[], 0, fun _ _ => rfl⟩
  | cons x ls ih =>
    obtain ⟨t, m₁, h1⟩ := h x (by simp)
    obtain ⟨ts, m₂, h2⟩ := ih fun x hx => h x (by simp [hx])
    refine ⟨t ++ ts, max m₁ m₂, fun m hm => ?_⟩
    unfold firstParses
    rw [h1 m (le_trans (le_max_left _ _) hm)]
    simp only
    rw [h2 m (le_trans (le_max_right _ _) hm)]
    rfl

/-- The first parse of a context-free grammar. -/
theorem cfg_first {N T : Type _} [DecidableEq N] [DecidableEq T] [LinearOrder W] {K K' : CFG N T W} {b : PDA (PushState N T) T W}
    {L L' : List (Transition (PdInstr (PushState N T)) T W)} (hB : PDA.Built b K.pdaTransitions cfgStart L) {Q : PDA (PushState N T) T W}
    (hQ : PDA.Built Q K.pdaTransitions cfgStart L') (hM : MergedCfg K K')
    (hle : ∀ r ∈ K'.rules, ∀ u : W, u * r.weight ≤ u) (hin : ∀ S ∈ K'.initial, ∀ u : W, u * startTotal K S ≤ u)
    {content : H → Multiset (Item (PushDown Nat) (PdInstr Nat) Nat W)} (hG : HeapLaws ag content fun i => i.conf.weight) (hempty : content empty = 0)
    {w : List T} {m : Nat} {out : List (Item (PushDown (PushState N T)) (PdInstr (PushState N T)) T W)} {a : H} (hrun : b.recognise ag empty w m = some (out, a))
    (hfin : 1 ≤ out.length ∨ ag.pop a = none) : FirstParse K K' L' w out.head? := by
  obtain ⟨ds, h1, h2⟩ := cfg_best hB hM hle hin hG hempty hrun hfin
  cases out with
  | nil =>
    simp only [List.length_nil, Nat.not_succ_le_zero, false_or] at hfin
    show ¬ Generates K w
    intro hw
    obtain ⟨us, s, u, hacc⟩ := (cfg_language hB w).2 hw
    obtain ⟨hs, S, hS, rs, h5, _⟩ := (CFG.accepting_merged (CFG.transitions_merged hM hB.transitions)).1 hacc
    rw [List.take_nil] at h2
    cases h2
    rcases h1.best (S, rs) ⟨hS, h5⟩ with h | h
    · simp at h
    · simp at h
  | cons i out =>
    rw [List.take_succ_cons, List.take_zero] at h2
    cases h2 with
    | @cons _ d _ ds h3 h4 =>
      cases h4
      refine ⟨d, h1.all d (by simp), fun e he => ?_, h3.1, ?_⟩
      · rcases h1.best e he with h | h
        · rw [List.mem_singleton] at h
          rw [h]
        · exact h.2 d (by simp)
      · rw [h3.2]
        exact derivation_accepting hQ hM (h1.all d (by simp))

end

section
variable {W H : Type _} [Monoid W] [AddCommMonoid W] [LinearOrder W] {ag : Agenda H (Item (PushDown Nat) (PdInstr Nat) Nat W)} {empty : H}
  {dbg : Option (Item (PushDown (PushState (List Nat) (List Nat))) (PdInstr (PushState (List Nat) (List Nat))) (List Nat) W) → List Nat} {m : Nat}
  {content : H → Multiset (Item (PushDown Nat) (PdInstr Nat) Nat W)} {cw : Codec W} {G K' : CFG (List Nat) (List Nat) W} {e : EquivalenceRelation (List Nat) (List Nat)}
  {grammar classes corpus : List Nat}

omit [LinearOrder W] in
theorem relabelCommand_lines [DecidableEq W] (hgr : GrammarFile stringCodec (CfgRuleReads stringCodec stringCodec cw) G.initial G.rules grammar)
    (he : EquivalenceRelation.fromStr stringCodec stringCodec classes = some (some e)) :
    ∃ P L b mp L2, G.toPda = some P ∧ P.listTransitions = some L ∧ approximateAutomaton (relabel (PushState.map e.project)) L [.designated, .initial] = some (b, mp) ∧
      b.listTransitions = some L2 ∧ PDA.Built b (relabelCfg e.project G).pdaTransitions cfgStart L2 ∧
      ∀ m, relabelCommand cw dbg ag empty m grammar classes corpus = firstParses b dbg ag empty m (lines corpus) := by
  obtain ⟨P, hP⟩ := CFG.toPda_some (W := W) G
  obtain ⟨L, b, mp, L2, h1, h2, h3, h4, h5⟩ := relabel_built e.project hP
  refine ⟨P, L, b, mp, L2, hP, h1, h3, h4, h5, fun m => ?_⟩
  unfold relabelCommand
  rw [C65_cfg.2 hgr]
  simp only
  rw [hP, Option.bind_some, he]
  simp only
  rw [h1, Option.bind_some, h2, Option.bind_some, h3, Option.bind_some]

/-- **C74** The command `approximation relabel parse`: there is no panic, and each line is answered by the best parse of the relabelled grammar, followed by the line. The
answer is `None` if and only if the relabelled grammar does not generate the line. -/
theorem C74_command (hgr : GrammarFile stringCodec (CfgRuleReads stringCodec stringCodec cw) G.initial G.rules grammar)
    (he : EquivalenceRelation.fromStr stringCodec stringCodec classes = some (some e)) (hM : MergedCfg (relabelCfg e.project G) K')
    (hle : ∀ r ∈ K'.rules, ∀ u : W, u * r.weight ≤ u) (hin : ∀ S ∈ K'.initial, ∀ u : W, u * startTotal (relabelCfg e.project G) S ≤ u)
    (hG : HeapLaws ag content fun i => i.conf.weight) (hempty : content empty = 0) {Q : PDA (PushState (List Nat) (List Nat)) (List Nat) W}
    (hQ : (relabelCfg e.project G).toPda = some Q) {L : List (Transition (PdInstr (PushState (List Nat) (List Nat))) (List Nat) W)} (hL : Q.listTransitions = some L)
    {ls : List (List Nat)} (hls : LinesOf ls corpus) :
    ∃ r, relabelCommand cw dbg ag empty m grammar classes corpus = some r ∧ ∀ text, r = some text → ∃ answers : List (List Nat),
      List.Forall₂ (fun line answer => ∃ w o, WordsText w line ∧ FirstParse (relabelCfg e.project G) K' L w o ∧ answer = dbg o ++ [58, 32] ++ line ++ [10]) ls answers ∧
      text = answers.flatten := by
  obtain ⟨P, L1, b, mp, L2, h1, h2, h3, h4, hB, h5⟩ := relabelCommand_lines (dbg := dbg) (ag := ag) (empty := empty) (corpus := corpus) hgr he
  obtain ⟨L', h6, hB'⟩ := PDA.new_built hQ
  obtain rfl : L' = L := by rw [h6] at hL; exact Option.some.inj hL
  rw [h5, lines_iff.2 hls]
  obtain ⟨r, hr⟩ := firstParses_no_panic (b := b) (dbg := dbg) (ag := ag) (empty := empty) (m := m) (ls := ls) fun x _ => cfg_no_panic hB hG.lossless.sound hempty _ m
  refine ⟨r, hr, ?_⟩
  rintro text rfl
  obtain ⟨answers, h7, rfl⟩ := firstParses_some hr
  refine ⟨answers, h7.imp fun line answer h => ?_, rfl⟩
  obtain ⟨out, a, hrun, hfin, rfl⟩ := firstParse_some h
  exact ⟨_, _, splitWhite_iff.1 rfl, cfg_first hB hB' hM hle hin hG hempty hrun hfin, rfl⟩

/-- **C74** Total correctness: the command finishes if no line exposes a left recursive nonterminal of the relabelled grammar. -/
theorem C74_command_total (hgr : GrammarFile stringCodec (CfgRuleReads stringCodec stringCodec cw) G.initial G.rules grammar)
    (he : EquivalenceRelation.fromStr stringCodec stringCodec classes = some (some e)) (hM : MergedCfg (relabelCfg e.project G) K')
    (hle : ∀ r ∈ K'.rules, ∀ u : W, u * r.weight ≤ u) (hin : ∀ S ∈ K'.initial, ∀ u : W, u * startTotal (relabelCfg e.project G) S ≤ u)
    (hG : HeapLaws ag content fun i => i.conf.weight) (hempty : content empty = 0) {Q : PDA (PushState (List Nat) (List Nat)) (List Nat) W}
    (hQ : (relabelCfg e.project G).toPda = some Q) {L : List (Transition (PdInstr (PushState (List Nat) (List Nat))) (List Nat) W)} (hL : Q.listTransitions = some L)
    {ls : List (List Nat)} (hls : LinesOf ls corpus)
    (hl : ∀ line ∈ ls, ∀ w, WordsText w line → ∀ v A, v <+: w → Exposed (relabelCfg e.project G) v A → ¬ CfgLeftRecursive (relabelCfg e.project G) A) :
    ∃ answers : List (List Nat),
      List.Forall₂ (fun line answer => ∃ w o, WordsText w line ∧ FirstParse (relabelCfg e.project G) K' L w o ∧ answer = dbg o ++ [58, 32] ++ line ++ [10]) ls answers ∧
      ∃ m₀, ∀ m ≥ m₀, relabelCommand cw dbg ag empty m grammar classes corpus = some (some answers.flatten) := by
  obtain ⟨P, L1, b, mp, L2, h1, h2, h3, h4, hB, h5⟩ := relabelCommand_lines (dbg := dbg) (ag := ag) (empty := empty) (corpus := corpus) hgr he
  obtain ⟨text, m₀, hm⟩ := firstParses_finishes (b := b) (dbg := dbg) (ag := ag) (empty := empty) (ls := ls) fun x hx => by
    refine firstParse_finishes (fun n => cfg_no_panic hB hG.lossless.sound hempty _ n) ?_
    obtain ⟨n, hn⟩ := cfg_ends hB hG.lossless.sound hempty (hl x hx _ (splitWhite_iff.1 rfl))
    obtain ⟨out, a, h6, h7⟩ := hn n (le_refl _)
    exact ⟨n, out, a, h6, .inr h7⟩
  have hm' : ∀ m ≥ m₀, relabelCommand cw dbg ag empty m grammar classes corpus = some (some text) := by
    intro m hm'
    rw [h5, lines_iff.2 hls]
    exact hm m hm'
  obtain ⟨r, hr, hcor⟩ := C74_command (dbg := dbg) (m := m₀) hgr he hM hle hin hG hempty hQ hL hls
  rw [hm' m₀ (le_refl _)] at hr
  obtain ⟨answers, h6, rfl⟩ := hcor text (Option.some.inj hr).symm
  exact ⟨answers, h6, m₀, hm'⟩

omit [LinearOrder W] in
/-- **C74** The command panics if and only if the first file is not a grammar or the second file is not an equivalence relation. -/
theorem C74_panic [DecidableEq W] (hG : ag.Sound content) (hempty : content empty = 0) :
    relabelCommand cw dbg ag empty m grammar classes corpus = none ↔
      (¬ ∃ G : CFG (List Nat) (List Nat) W, GrammarFile stringCodec (CfgRuleReads stringCodec stringCodec cw) G.initial G.rules grammar) ∨
      ¬ ∃ e, EquivalenceRelation.fromStr stringCodec stringCodec classes = some (some e) := by
  constructor
  · intro h
    by_contra hc
    rw [not_or, not_not, not_not] at hc
    obtain ⟨⟨G, hgr⟩, e, he⟩ := hc
    obtain ⟨P, L1, b, mp, L2, h1, h2, h3, h4, hB, h5⟩ := relabelCommand_lines (dbg := dbg) (ag := ag) (empty := empty) (corpus := corpus) hgr he
    rw [h5] at h
    obtain ⟨r, hr⟩ := firstParses_no_panic (b := b) (dbg := dbg) (ag := ag) (empty := empty) (m := m) (ls := lines corpus) fun x _ => cfg_no_panic hB hG hempty _ m
    rw [h] at hr
    cases hr
  · intro h
    unfold relabelCommand
    split
    · rename_i G hg
      have hgr := C65_cfg.1 hg
      obtain ⟨P, hP⟩ := CFG.toPda_some (W := W) G
      rw [hP, Option.bind_some]
      split
      · rename_i e he
        rcases h with h | h
        · exact absurd ⟨G, hgr⟩ h
        · exact absurd ⟨e, he⟩ h
      · rfl
    · rfl

end

/-! ### Examples -/

namespace C74Example
open C48Example C65Example

/-- `S → a A`, `S → b B`, `S → a B` with weight 0, `A → a`, `B → b`. -/
def grammar : List Nat := bytes "initial: [S]\nS -> [T a, Nt A] # 1\nS -> [T b, Nt B] # 1\nS -> [T a, Nt B] # 0\nA -> [T a] # 1\nB -> [T b] # 1\n"

/-- `A` and `B` are put into the class `X`, and all others into the class `D`. -/
def classes : List Nat := bytes "X [A, B]\nD *\n"

def S := bytes "S"
def A := bytes "A"
def B := bytes "B"
def D := bytes "D"
def X := bytes "X"
def a := bytes "a"
def b := bytes "b"

def g : CFG (List Nat) (List Nat) Nat :=
  ⟨[S], [⟨S, [.value a, .label A], 1⟩, ⟨S, [.value b, .label B], 1⟩, ⟨S, [.value a, .label B], 0⟩, ⟨A, [.value a], 1⟩, ⟨B, [.value b], 1⟩]⟩

def e : EquivalenceRelation (List Nat) (List Nat) := ⟨[(A, X), (B, X)], D⟩

/-- The rules `S → a A` and `S → a B` become equal. -/
def k : CFG (List Nat) (List Nat) Nat :=
  ⟨[D], [⟨D, [.value a, .label X], 1⟩, ⟨D, [.value b, .label X], 1⟩, ⟨D, [.value a, .label X], 0⟩, ⟨X, [.value a], 1⟩, ⟨X, [.value b], 1⟩]⟩

def k' : CFG (List Nat) (List Nat) Nat :=
  ⟨[D], [⟨D, [.value a, .label X], 1⟩, ⟨D, [.value b, .label X], 1⟩, ⟨X, [.value a], 1⟩, ⟨X, [.value b], 1⟩]⟩

theorem reads : GrammarFile stringCodec (CfgRuleReads stringCodec stringCodec num) g.initial g.rules grammar := (grammarFromStr_iff fun _ _ => C65_cfg_rule).1 (by decide +kernel)

theorem relation : EquivalenceRelation.fromStr stringCodec stringCodec classes = some (some e) := by
  have h : (EquivalenceRelation.fromStr stringCodec stringCodec classes).map (Option.map fun r => (r.map, r.default)) = some (some (e.map, e.default)) := by decide +kernel
  cases h1 : EquivalenceRelation.fromStr stringCodec stringCodec classes with
  | none => rw [h1] at h; cases h
  | some o =>
    rw [h1] at h
    cases o with
    | none => cases h
    | some r =>
      obtain ⟨m, d⟩ := r
      simp only [Option.map_some, Option.some.injEq, Prod.mk.injEq] at h
      rw [h.1, h.2]

theorem relabelled : relabelCfg e.project g = k := by
  have h1 : (relabelCfg e.project g).initial = k.initial := by decide +kernel
  have h2 : (relabelCfg e.project g).rules = k.rules := by decide +kernel
  cases hk : relabelCfg e.project g
  rw [hk] at h1 h2
  simp only at h1 h2
  rw [h1, h2]

theorem merged : MergedCfg k k' where
  initial_nodup := by decide +kernel
  initial_mem _ := Iff.rfl
  nodup := by decide +kernel
  mem r := by
    obtain ⟨A, γ, v⟩ := r
    simp only [k, k', List.mem_cons, List.not_mem_nil, or_false, CFGRule.mk.injEq, exists_eq_or_imp, exists_eq_left]
    constructor
    · rintro (⟨rfl, rfl, rfl⟩ | ⟨rfl, rfl, rfl⟩ | ⟨rfl, rfl, rfl⟩ | ⟨rfl, rfl, rfl⟩)
      all_goals exact ⟨by simp, by decide +kernel⟩
    · rintro ⟨⟨rfl, rfl⟩ | ⟨rfl, rfl⟩ | ⟨rfl, rfl⟩ | ⟨rfl, rfl⟩ | ⟨rfl, rfl⟩, rfl⟩
      · exact .inl ⟨rfl, rfl, by decide +kernel⟩
      · exact .inr (.inl ⟨rfl, rfl, by decide +kernel⟩)
      · exact .inl ⟨rfl, rfl, by decide +kernel⟩
      · exact .inr (.inr (.inl ⟨rfl, rfl, by decide +kernel⟩))
      · exact .inr (.inr (.inr ⟨rfl, rfl, by decide +kernel⟩))

theorem notLeft (A : List Nat) : ¬ CfgLeftRecursive k A := by
  intro h
  obtain ⟨B, ⟨r, hr, _, α, β, hc, hv⟩, _⟩ := Relation.TransGen.head'_iff.1 h
  simp only [k, List.mem_cons, List.not_mem_nil, or_false] at hr
  obtain ⟨rs, hl⟩ := yields_iff.1 hv
  cases α with
  | nil => rcases hr with rfl | rfl | rfl | rfl | rfl <;> simp at hc
  | cons x α =>
    rcases hr with rfl | rfl | rfl | rfl | rfl <;> simp only [List.cons_append, List.cons.injEq] at hc <;> obtain ⟨rfl, _⟩ := hc <;> cases hl

/-- The command finishes for each input, and each line is answered by its first parse. -/
example (dbg : Option (Item (PushDown (PushState (List Nat) (List Nat))) (PdInstr (PushState (List Nat) (List Nat))) (List Nat) Nat) → List Nat)
    {Q : PDA (PushState (List Nat) (List Nat)) (List Nat) Nat} (hQ : k.toPda = some Q) {L : List (Transition (PdInstr (PushState (List Nat) (List Nat))) (List Nat) Nat)}
    (hL : Q.listTransitions = some L) {ls : List (List Nat)} {corpus : List Nat} (hls : LinesOf ls corpus) : ∃ answers : List (List Nat),
      List.Forall₂ (fun line answer => ∃ w o, WordsText w line ∧ FirstParse k k' L w o ∧ answer = dbg o ++ [58, 32] ++ line ++ [10]) ls answers ∧
      ∃ m₀, ∀ m ≥ m₀, relabelCommand num dbg (listHeap fun i => i.conf.weight) [] m grammar classes corpus = some (some answers.flatten) := by
  have := C74_command_total (dbg := dbg) (K' := k') reads relation (by rw [relabelled]; exact merged)
    (fun r hr u => by rw [(by decide +kernel : ∀ r ∈ k'.rules, r.weight = 1) r hr, Nat.mul_one])
    (fun S hS u => by rw [relabelled, startTotal_of_nodup (G := k) (by decide +kernel) hS, Nat.mul_one]) (listHeap_laws _) rfl (by rw [relabelled]; exact hQ) hL hls
    (by rw [relabelled]; exact fun _ _ _ _ _ A _ _ => notLeft A)
  rwa [relabelled] at this

/-- Test: the relabelled grammar generates `b a`, which the grammar does not generate, and it does not generate `a`. -/
example : relabelCommand num (fun o => o.elim (bytes "None") fun i => natText i.conf.weight) (listHeap fun i => i.conf.weight) [] 20 grammar classes (bytes "a a\nb  a\na\n") =
    some (some (bytes "1: a a\n1: b  a\nNone: a\n")) := by decide +kernel

end C74Example

end Rustomata.Props
