import Verif.Props.Fair

/-!
# Property C71: when recognition and `mcfg parse` end

Only property theorems, the lemmas that combine them, and the examples that show their hypotheses to be satisfiable.
-/

namespace Rustomata.Props
open Rustomata Rustomata.Spec
variable {A Q N T W H : Type _} [DecidableEq A] [DecidableEq Q] [DecidableEq N] [DecidableEq T]

/-! ### The end of the recognition -/

/-- **C71** Recognition with a finite state automaton ends if and only if the lengths of its runs on the word are bounded (for a word whose symbols occur in
transitions). -/
theorem C71_fsa [Mul W] [One W] (ts : List (Transition (FsInstr Q) T W)) (initial : Q) (finals : List Q)
    {G : Agenda H (Item Nat (FsInstr Nat) Nat W)} {content : H → Multiset (Item Nat (FsInstr Nat) Nat W)} (hG : G.Lossless content)
    {empty : H} (hempty : content empty = 0) {w : List T} (hw : ∀ x ∈ w, ∃ t ∈ ts, x ∈ t.word) :
    (∃ n out a, (FSA.new ts initial finals).recognise G empty w n = some (out, a) ∧ G.pop a = none) ↔
      ∃ l, ∀ us c, IsRun (FSA.device ts initial finals).apply ts initial w us c → us.length ≤ l := by
  obtain ⟨L, h1, h2, h3, h4⟩ := FSA.new_represents (W := W) ts initial finals
  have := h4.ends_iff (FSA.new_coherent ts initial finals) hG hempty w (C51_fsa_no_panic ts initial finals hG.sound hempty w) (fun x hx => by
    obtain ⟨t, ht, hxt⟩ := hw x hx
    exact ⟨t, h2.mem_iff.2 ht, hxt⟩)
  refine Iff.trans this ⟨?_, ?_⟩
  · rintro ⟨l, hl⟩
    exact ⟨l, fun us c hc => hl us c ⟨hc.1, fun t ht => h2.mem_iff.2 (hc.2 t ht)⟩⟩
  · rintro ⟨l, hl⟩
    exact ⟨l, fun us c hc => hl us c ⟨hc.1, fun t ht => h2.mem_iff.1 (hc.2 t ht)⟩⟩

/-- **C71** The same for push-down automata that do not panic (C51). -/
theorem C71_pda [Mul W] [One W] [Zero W] [Add W] {ts : List (Transition (PdInstr A) T W)} {initial : PushDown A} {P : PDA A T W}
    (hP : PDA.new ts initial = some P) {L : List (Transition (PdInstr A) T W)} (hL : P.listTransitions = some L)
    {G : Agenda H (Item (PushDown Nat) (PdInstr Nat) Nat W)} {content : H → Multiset (Item (PushDown Nat) (PdInstr Nat) Nat W)} (hG : G.Lossless content)
    {empty : H} (hempty : content empty = 0) {w : List T} (hp : ∀ n, ∃ r, P.recognise G empty w n = some r) (hw : ∀ x ∈ w, ∃ t ∈ L, x ∈ t.word) :
    (∃ n out a, P.recognise G empty w n = some (out, a) ∧ G.pop a = none) ↔
      ∃ l, ∀ us c, IsRun (PDA.device L initial).apply L initial w us c → us.length ≤ l := by
  obtain ⟨L', h1, h2⟩ := PDA.new_built hP
  obtain rfl : L' = L := by rw [hL] at h1; exact (Option.some.inj h1).symm
  exact h2.represents.ends_iff h2.coherent hG hempty w hp hw

/-- **C71** The same for tree stack automata. -/
theorem C71_tsa [Mul W] [One W] (ts : List (Transition (TsInstr A) T W)) (initial : TreeStack A) (hi : Reachable initial)
    {G : Agenda H (Item (TreeStack Nat) (TsInstr Nat) Nat W)} {content : H → Multiset (Item (TreeStack Nat) (TsInstr Nat) Nat W)} (hG : G.Lossless content)
    {empty : H} (hempty : content empty = 0) {w : List T} (hw : ∀ x ∈ w, ∃ t ∈ ts, x ∈ t.word) :
    (∃ n out a, (TSA.new ts initial).recognise G empty w n = some (out, a) ∧ G.pop a = none) ↔
      ∃ l, ∀ us c, IsRun TsInstr.apply ts initial w us c → us.length ≤ l := by
  obtain ⟨L, h1, h2, h3, h4⟩ := TSA.new_represents (W := W) ts initial
  have := h4.ends_iff (TSA.new_coherent ts initial) hG hempty w (fun n => (C51_tsa_no_panic ts initial hi hG.sound hempty w n).1) (fun x hx => by
    obtain ⟨t, ht, hxt⟩ := hw x hx
    exact ⟨t, h2.mem_iff.2 ht, hxt⟩)
  refine Iff.trans this ⟨?_, ?_⟩
  · rintro ⟨l, hl⟩
    exact ⟨l, fun us c hc => hl us c ⟨hc.1, fun t ht => h2.mem_iff.2 (hc.2 t ht)⟩⟩
  · rintro ⟨l, hl⟩
    exact ⟨l, fun us c hc => hl us c ⟨hc.1, fun t ht => h2.mem_iff.1 (hc.2 t ht)⟩⟩

/-! ### Grammars -/

section
variable [CommMonoid W]

/-- **C71, partial** The automaton of a grammar without left recursion: recognition of each word ends, if the first components of the rules are not empty. (For grammars
as in C28.) -/
theorem C71_pmcfg_partial (g : PMCFG N T W) (a : TSA (TsaSymbol N T) T W) (ha : TSA.ofPmcfg g = some a) (ho : Ordered g.rules)
    (hs : ∀ r ∈ g.rules, ShortTrails r.composition) (hl : ¬ LeftRecursive g.rules) (hne : ∀ r ∈ g.rules, ∀ c, r.composition[0]? = some c → c ≠ [])
    {G : Agenda H (Item (TreeStack Nat) (TsInstr Nat) Nat W)} {content : H → Multiset (Item (TreeStack Nat) (TsInstr Nat) Nat W)} (hG : G.Sound content)
    {empty : H} (hempty : content empty = 0) (w : List T) : ∃ m₀, ∀ m ≥ m₀, ∃ out b, a.recognise G empty w m = some (out, b) ∧ G.pop b = none := by
  unfold TSA.ofPmcfg at ha
  obtain ⟨ts, hts, rfl⟩ := Option.map_eq_some_iff.1 ha
  obtain ⟨l, hl'⟩ := runs_bounded hts ho hs hl hne w
  obtain ⟨L, h1, h2, h3, h4⟩ := TSA.new_represents (W := W) ts (TreeStack.new .initial)
  obtain ⟨m₀, hm⟩ := h4.ends hG hempty w (L := l) (fun us c hc => hl' us c ⟨hc.1, fun t ht => h2.mem_iff.1 (hc.2 t ht)⟩)
  refine ⟨m₀, fun m hm' => ?_⟩
  obtain ⟨⟨out, b⟩, hrun⟩ := (C51_tsa_no_panic ts _ (.new _) hG hempty w m).1
  exact ⟨out, b, hrun, hm m hm' out b hrun⟩

/-- **C71, partial** Conversely, if there are paths of left corners of each length, recognition never ends, whatever the agenda is, for words whose symbols occur in the
grammar. -/
theorem C71_left_recursion_partial (g : PMCFG N T W) (a : TSA (TsaSymbol N T) T W) (ha : TSA.ofPmcfg g = some a) (ho : Ordered g.rules)
    (hs : ∀ r ∈ g.rules, ShortTrails r.composition) (hl : ∀ n, ∃ rs r, LeftPath g rs r ∧ rs.length = n + 1)
    {G : Agenda H (Item (TreeStack Nat) (TsInstr Nat) Nat W)} {content : H → Multiset (Item (TreeStack Nat) (TsInstr Nat) Nat W)} (hG : G.Lossless content)
    {empty : H} (hempty : content empty = 0) {w : List T} (hw : ∀ ts, tsaTransitions g = some ts → ∀ x ∈ w, ∃ t ∈ ts, x ∈ t.word) {m : Nat}
    {out : List (Item (TreeStack (TsaSymbol N T)) (TsInstr (TsaSymbol N T)) T W)} {b : H} (hrun : a.recognise G empty w m = some (out, b)) : G.pop b ≠ none := by
  intro hend
  unfold TSA.ofPmcfg at ha
  obtain ⟨ts, hts, rfl⟩ := Option.map_eq_some_iff.1 ha
  obtain ⟨l, hl'⟩ := (C71_tsa ts _ (.new _) hG hempty (hw ts hts)).1 ⟨m, out, b, hrun, hend⟩
  obtain ⟨rs, r, h1, h2⟩ := hl l
  obtain ⟨us, c, h3, h4, _⟩ := leftPath_run hts ho hs w h1
  have := hl' us c h3
  omega

end

/-! ### The command -/

section
variable [CommMonoid W] {g : PMCFG (List Nat) (List Nat) W} {a : TSA (TsaSymbol (List Nat) (List Nat)) (List Nat) W}
  {G : Agenda H (Item (TreeStack Nat) (TsInstr Nat) Nat W)} {content : H → Multiset (Item (TreeStack Nat) (TsInstr Nat) Nat W)} {empty : H}

/-- **C71, partial** `mcfg parse` finishes for each sentence if the grammar is not left recursive, for each number of parses. -/
theorem C71_sentence_partial (ha : TSA.ofPmcfg g = some a) (hg : McfgOk g) (hl : ¬ LeftRecursive g.rules)
    (hne : ∀ r ∈ g.rules, ∀ c, r.composition[0]? = some c → c ≠ []) (hG : G.Sound content) (hempty : content empty = 0) {w : List (List Nat)} (hw : w ≠ [])
    (n id : Nat) : ∃ text m₀, ∀ m ≥ m₀, mcfgSentence a G empty n m id w = some (some text) := by
  obtain ⟨m₀, hm⟩ := C71_pmcfg_partial g a ha hg.ordered hg.short hl hne hG hempty w
  have hfin : ∀ m ≥ m₀, ∃ text, mcfgSentence a G empty n m id w = some (some text) := by
    intro m hm'
    obtain ⟨out, b, hrun, hend⟩ := hm m hm'
    obtain ⟨r, hr⟩ := C69_no_panic_partial ha hg hG hempty hw n m id
    rw [hr]
    unfold mcfgSentence at hr
    rw [hrun] at hr
    simp only at hr
    split at hr
    · cases hr
    · rw [if_pos (.inr (by rw [hend]; rfl))] at hr
      exact ⟨_, congrArg some (Option.some.inj hr).symm⟩
  obtain ⟨text, ht⟩ := hfin m₀ (le_refl _)
  refine ⟨text, m₀, fun m hm' => C69_steps hm' ht ?_⟩
  obtain ⟨out, b, hrun, _⟩ := hm m hm'
  exact ⟨_, hrun⟩

/-- If the command finishes for each line, it finishes. -/
theorem mcfgLines_finishes {n : Nat} {ls : List (List Nat × Nat)}
    (h : ∀ x ∈ ls, ∃ text m₀, ∀ m ≥ m₀, mcfgSentence a G empty n m (x.2 + 1) (splitWhite x.1) = some (some text)) :
    ∃ text m₀, ∀ m ≥ m₀, mcfgLines a G empty n m ls = some (some text) := by
  induction ls with
  | nil => exact ⟨[], 0, fun _ _ => rfl⟩
  | cons x ls ih =>
    obtain ⟨line, i⟩ := x
    obtain ⟨t, m₁, h1⟩ := h (line, i) (by simp)
    obtain ⟨ts, m₂, h2⟩ := ih fun x hx => h x (by simp [hx])
    refine ⟨t ++ [10] ++ ts, max m₁ m₂, fun m hm => ?_⟩
    unfold mcfgLines
    have := h1 m (le_trans (le_max_left _ _) hm)
    simp only at this
    rw [this]
    simp only
    rw [h2 m (le_trans (le_max_right _ _) hm)]
    rfl

/-- **C71, partial** The command `mcfg parse` is totally correct for grammars without left recursion: it finishes, and the answer to the `i`-th line are the `n` best
derivations. -/
theorem C71_command_partial [LinearOrder W] {cw : Codec W} {grammar corpus : List Nat}
    (hgr : GrammarFile stringCodec (PmcfgRuleReads stringCodec stringCodec cw) g.initial g.rules grammar) (ha : TSA.ofPmcfg g = some a) (hg : McfgOk g)
    (hl : ¬ LeftRecursive g.rules) (hne : ∀ r ∈ g.rules, ∀ c, r.composition[0]? = some c → c ≠ []) (hle : ∀ r ∈ g.rules, ∀ u : W, u * r.weight ≤ u)
    (hG : HeapLaws G content fun i => i.conf.weight) (hempty : content empty = 0) {ls : List (List Nat)} (hls : LinesOf ls corpus)
    (hblank : ∀ line ∈ ls, ¬ WordsText [] line) (n : Nat) :
    ∃ answers : List (List Nat), answers.length = ls.length ∧
      (∀ (i : Nat) line answer, ls[i]? = some line → answers[i]? = some answer →
        ∃ w, WordsText w line ∧ ∃ ds, BestDerivations g w n ds ∧ ExportsOf ds w (i + 1) answer) ∧
      ∃ m₀, ∀ m ≥ m₀, mcfgCommand cw G empty n m grammar corpus = some (some (answers.map fun t => t ++ [10]).flatten) := by
  obtain ⟨text, m₀, hm⟩ := mcfgLines_finishes (a := a) (G := G) (empty := empty) (n := n) (ls := ls.zipIdx) (fun x hx => by
    obtain ⟨line, i⟩ := x
    have h1 := List.mem_of_getElem? (List.mem_zipIdx_iff_getElem?.1 hx)
    refine C71_sentence_partial ha hg hl hne hG.lossless.sound hempty (fun he => hblank line h1 ?_) n _
    rw [← he]
    exact splitWhite_iff.1 rfl)
  have hm' : ∀ m ≥ m₀, mcfgCommand cw G empty n m grammar corpus = some (some text) := by
    intro m hm'
    rw [mcfgCommand_lines hgr ha, lines_iff.2 hls]
    exact hm m hm'
  obtain ⟨r, hr, hcor⟩ := C69_command_best_partial (n := n) (m := m₀) hgr ha hg hle hG hempty hls hblank
  rw [hm' m₀ (le_refl _)] at hr
  obtain ⟨answers, h1, h2, rfl⟩ := hcor text (Option.some.inj hr).symm
  exact ⟨answers, h1, h2, m₀, hm'⟩

end

/-- The full claim **C71** for the grammars with `P`: `mcfg parse` finishes for each sentence and each number of parses. -/
def C71_claim_for (P : PMCFG (List Nat) (List Nat) ℚ≥0 → Prop) : Prop :=
  ∀ (g : PMCFG (List Nat) (List Nat) ℚ≥0) (a : TSA (TsaSymbol (List Nat) (List Nat)) (List Nat) ℚ≥0), TSA.ofPmcfg g = some a → McfgOk g →
    (∀ r ∈ g.rules, 0 < r.weight ∧ r.weight < 1) → P g → ∀ w ≠ [], ∀ n id, ∃ text m₀, ∀ m ≥ m₀, mcfgSentence a (listHeap fun i => i.conf.weight) [] n m id w = some (some text)

/-- The full claim **C71**. -/
def C71_claim : Prop := C71_claim_for fun _ => True

/-- **C71, partial** The claim for the grammars without left recursion and without empty components. -/
theorem C71_claim_partial : C71_claim_for fun g => ¬ LeftRecursive g.rules ∧ ∀ r ∈ g.rules, ∀ c ∈ r.composition, c ≠ [] := fun _ _ ha hg _ hP _ hw n id =>
  C71_sentence_partial ha hg hP.1 (fun r hr c hc => hP.2 r hr c (List.mem_of_getElem? hc)) (listHeap_laws _).lossless.sound rfl hw n id

open C70Example in
/-- The only derivation of `a`. -/
theorem C70Example.only {p : ℚ≥0} {es : List (DTree (PMCFGRule (List Nat) (List Nat) ℚ≥0))} (h : ∀ e ∈ es, ∃ S ∈ (g p).initial, Derives (g p).rules S e [[a]]) (hn : es.Nodup) :
    es.length ≤ 1 := by
  have hlen : ∀ {B : List Nat} {e : DTree (PMCFGRule (List Nat) (List Nat) ℚ≥0)} {v : List (List (List Nat))}, Derives (g p).rules B e v → ∃ x, v = [x] ∧ 1 ≤ x.length := by
    intro B e v hd
    refine derives_induct (P := fun _ _ v => ∃ x, v = [x] ∧ 1 ≤ x.length) ?_ hd
    intro r ds args v hr hl hl' hch hv
    simp only [g, List.mem_cons, List.not_mem_nil, or_false] at hr
    rcases hr with rfl | rfl | rfl
    · match ds, args, hl, hl' with
      | [d1, d2], [v1, v2], _, _ =>
        obtain ⟨x, rfl, hx⟩ := (hch 0 S d1 v1 rfl rfl rfl).2
        obtain ⟨y, rfl, hy⟩ := (hch 1 X d2 v2 rfl rfl rfl).2
        cases hv
        exact ⟨_, rfl, by simp; omega⟩
    · match ds, args, hl, hl' with
      | [d1], [v1], _, _ =>
        obtain ⟨x, rfl, hx⟩ := (hch 0 X d1 v1 rfl rfl rfl).2
        cases hv
        exact ⟨_, rfl, by simpa using hx⟩
    · cases hv
      exact ⟨_, rfl, by simp⟩
  have hX : ∀ {e : DTree (PMCFGRule (List Nat) (List Nat) ℚ≥0)} {v : List (List (List Nat))}, Derives (g p).rules X e v → e = .node ⟨X, [], [[.t a]], 1 / 2⟩ [] := by
    intro e v hd
    generalize hB : X = B at hd
    cases hd with
    | @node r ds args v hr hch hv =>
      simp only [g, List.mem_cons, List.not_mem_nil, or_false] at hr
      rcases hr with rfl | rfl | rfl
      · exact absurd (show X = S from hB) (by decide)
      · exact absurd (show X = S from hB) (by decide)
      · cases hch; rfl
  have huniq : ∀ e ∈ es, e = d := by
    intro e he
    obtain ⟨B, hB, hd⟩ := h e he
    rw [List.mem_singleton.1 hB] at hd
    generalize hB : S = B at hd
    generalize hv' : [[a]] = v at hd
    cases hd with
    | @node r ds args v hr hch hv =>
      simp only [g, List.mem_cons, List.not_mem_nil, or_false] at hr
      rcases hr with rfl | rfl | rfl
      · exfalso
        cases hch with
        | cons h1 h2 => cases h2 with
          | cons h2 h3 =>
            cases h3
            obtain ⟨x, rfl, hx⟩ := hlen h1
            obtain ⟨y, rfl, hy⟩ := hlen h2
            cases hv
            have := congrArg (fun l : List (List (List Nat)) => l.flatten.length) hv'
            simp at this
            omega
      · cases hch with
        | cons h1 h2 =>
          cases h2
          rw [hX h1]
          rfl
      · exact absurd (show S = X from hB) (by decide)
  match es, huniq, hn with
  | [], _, _ => simp
  | [_], _, _ => simp
  | x :: y :: l, hu, hn =>
    rw [hu x (by simp), hu y (by simp)] at hn
    simp at hn

open C70Example in
/-- **C71** is violated by left recursion: with `S → S A`, `S → A` and `A → a`, the search for a second derivation of `a` never ends, whatever the weights are. -/
theorem C71_violated : ¬ C71_claim := by
  intro h
  obtain ⟨b, hb⟩ := hasAutomaton (1 / 2)
  have hlaws := listHeap_laws fun i : Item (TreeStack Nat) (TsInstr Nat) Nat ℚ≥0 => i.conf.weight
  obtain ⟨text, m, hm⟩ := h (g (1 / 2)) b hb (ok _) (by
    intro r hr
    simp only [g, List.mem_cons, List.not_mem_nil, or_false] at hr
    have : (0 : ℚ≥0) < 1 / 2 ∧ (1 / 2 : ℚ≥0) < 1 := by norm_num
    rcases hr with rfl | rfl | rfl <;> exact this) trivial [a] (by simp) 2 1
  have ht := hm m (le_refl _)
  unfold mcfgSentence at ht
  cases hrun : b.recognise (listHeap fun i => i.conf.weight) [] [a] m with
  | none => rw [hrun] at ht; cases ht
  | some x =>
    obtain ⟨out, c⟩ := x
    rw [hrun] at ht
    simp only at ht
    split at ht
    · cases ht
    · split at ht
      · rename_i hfin
        rcases hfin with hn | hp
        · obtain ⟨es, hnd, hes⟩ := shown_derivations hb (ok _) hlaws.lossless.sound rfl (by simp) hrun
          have h1 := hes.length_eq
          have h2 := only (p := 1 / 2) (es := es) (fun e he => by
            obtain ⟨i, _, hi⟩ := forall₂_exists_left hes he
            exact hi.2.2) hnd
          omega
        · refine C71_left_recursion_partial (g (1 / 2)) b hb (ok _).ordered (ok _).short (fun n => ⟨_, _, left _ n, by simp⟩) hlaws.lossless rfl ?_ hrun (by simpa using hp)
          intro ts hts x hx
          rw [List.mem_singleton.1 hx]
          exact ⟨_, ((tsaTransitions_mem hts (ok _).ordered (ok _).short).1 _).2 (.down (r := ⟨S, [X], [[.var 0 0]], 1 / 2⟩) (j := 0) (k := 0) (ri := ⟨X, [], [[.t a]], 1 / 2⟩) (j₁ := 0)
            (c := [.var 0 0]) (c₁ := [.t a]) (b := []) (i := 0) (by simp [g]) rfl rfl (by simp [g]) rfl rfl), by simp [trail]⟩
      · cases ht

open C69Example in
theorem C69Example.notLeft : ¬ LeftRecursive g.rules := by
  refine not_leftRecursive (fun x : List Nat => if x = S then 2 else if x = B then 1 else 0) fun r hr i c cs D h1 h2 => ?_
  simp only [g, List.mem_cons, List.not_mem_nil, or_false] at hr
  rcases hr with rfl | rfl | rfl | rfl | rfl <;> simp only [List.cons.injEq, VarT.var.injEq, reduceCtorEq, false_and, and_true] at h1 <;>
    (obtain ⟨⟨rfl, _⟩, _⟩ := h1; cases h2; decide)

open C69Example in
/-- The command finishes for the grammar of C69. -/
example (n : Nat) : ∃ answers : List (List Nat), answers.length = 2 ∧ ∃ m₀, ∀ m ≥ m₀,
    mcfgCommand C48Example.num (listHeap fun i => i.conf.weight) [] n m grammar (C65Example.bytes "a b\na\n") = some (some (answers.map fun t => t ++ [10]).flatten) := by
  obtain ⟨a, ha⟩ := hasAutomaton
  obtain ⟨answers, h1, _, h3⟩ := C71_command_partial (ls := [C65Example.bytes "a b", C65Example.bytes "a"]) (corpus := C65Example.bytes "a b\na\n") reads ha ok notLeft
    (by decide +kernel) (fun r hr u => by rw [(by decide +kernel : ∀ r ∈ g.rules, r.weight = 1) r hr, Nat.mul_one])
    (listHeap_laws _) rfl (lines_iff.1 (by decide)) (by
      intro line hl hw
      have := splitWhite_iff.2 hw
      simp only [List.mem_cons, List.not_mem_nil, or_false] at hl
      rcases hl with rfl | rfl <;> (revert this; decide)) n
  exact ⟨answers, h1, h3⟩

end Rustomata.Props
