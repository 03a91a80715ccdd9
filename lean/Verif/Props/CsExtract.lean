import Verif.Proofs.CsExtract

/-!
# C86: from grammar files to printed parse trees
-/

namespace Rustomata.Props
open Spec

/-- Each line is answered, and the text that is printed in the end consists of the answers. -/
def Answers (ans : List (List Nat) → List (List Nat) → Nat → List Nat → Prop) (a : ParseArgs) (ls : List (List Nat)) (run : Nat → Nat → Option (List Nat)) : Prop :=
  ∃ answers : List (List Nat), answers.length = ls.length ∧
    (∀ (i : Nat) line answer, ls[i]? = some line → answers[i]? = some answer → ∃ id ws sentence names, LineOf a.withLines i line id ws ∧
      TagsOf a.withPos ws sentence names ∧ ans sentence names id answer) ∧
    ∃ m₀ fuel₀, ∀ m ≥ m₀, ∀ fuel ≥ fuel₀, run fuel m = some answers.flatten

section
variable {order : Nat → List Nat → List Nat} {cs cd : Codec (List Nat)} {cw : Codec NNReal}
  {lexOrder : DiscoLexer (List Nat) (List Nat) NNReal → DiscoLexer (List Nat) (List Nat) NNReal} {sxlen : Nat}

/-- The grammar that `extract` makes from rules of disco-dop, and what the parser needs to know about it. -/
theorem disco_setup (hlo : ∀ l, (lexOrder l).Perm l) {lines : List (List Nat)} {l : List (DiscoDeriv (List Nat) × List (List Bool) × NNReal)}
    (h : List.Forall₂ (fun s y => ConstituentText cd cw y.1 y.2.1 y.2.2 s) lines l) {s : List Nat} (hs : FileText lines s) {root : List Nat}
    (hi : cd.read (ascii ['R', 'O', 'O', 'T']) = some root) (hroot : ∃ x ∈ l, x.1.lhs = root) (hf : SameFanout l (OnlyRight l) root) (hl : ∀ x ∈ l, x.2.2 ≠ 0)
    (hsx : sxlen ≤ 255) :
    ∃ (lex : DiscoLexer (List Nat) (List Nat) NNReal) (G : Lcfrs (List Nat) (List Nat) NNReal) (R : CsRep (List Nat) (List Nat) NNReal),
      lex.Nodup ∧ (∀ x, x ∈ lex ↔ ∃ A, x = (A, A, 1) ∧ OnlyRight l A) ∧ DescribedBy l lex root G ∧ Probabilities G.rules ∧
      ParserGrammar G.rules G.init ∧ Preterminals G.rules ∧ NoTerminalRoot G.rules G.init ∧ CsRep.new logFactorize order G sxlen = some R ∧
      extract logFactorize order cs cd cw lexOrder (.disco s) sxlen = some R := by
  have hread := constituents_read h hs
  have hgood := constituents_good h
  generalize hge : (⟨l.map fun y => (y.1, y.2.1.map (fun b => (b.length, bitVal b)), y.2.2), none⟩ : DiscoDopGrammar (List Nat) Unit NNReal) = g at hread
  obtain ⟨lex, hlex, hnd, hmem⟩ := C59_default_lexer g
  have hmem' : ∀ x, x ∈ lexOrder lex ↔ ∃ A, x = (A, A, 1) ∧ OnlyRight l A := by
    intro x
    rw [(hlo lex).mem_iff, hmem, ← hge]
    have e : ∀ A, (∃ c ∈ l.map fun y => (y.1, y.2.1.map (fun b => (b.length, bitVal b)), y.2.2), A ∈ discoRhs c.1) ↔ ∃ c ∈ l, A ∈ discoRhs c.1 := fun A =>
      ⟨fun ⟨c, hc, hA⟩ => by obtain ⟨y, hy, rfl⟩ := List.mem_map.1 hc; exact ⟨y, hy, hA⟩, fun ⟨y, hy, hA⟩ => ⟨_, List.mem_map.2 ⟨y, hy, rfl⟩, hA⟩⟩
    simp only [OnlyRight, e, List.forall_mem_map]
  obtain ⟨G, hG, hd⟩ := fromDiscodop_described (cd := cd) (l := l) (lex := lexOrder lex) hgood hi
  have hgram : extractGrammar cs cd cw lexOrder (.disco s) = some G := by
    rw [extractGrammar, hread, ← hG]
    simp only [expectOk, Option.bind_some, id]
    rw [hlex, ← hge]
    rfl
  have hclosed : ∀ x ∈ l, ∀ A ∈ discoRhs x.1, (∃ y ∈ l, y.1.lhs = A) ∨ ∃ y ∈ lexOrder lex, y.2.1 = A := by
    intro x hx A hA
    by_cases hA' : ∃ y ∈ l, y.1.lhs = A
    · exact Or.inl hA'
    · exact Or.inr ⟨(A, A, 1), (hmem' _).2 ⟨A, rfl, ⟨x, hx, hA⟩, fun y hy e => hA' ⟨y, hy, e⟩⟩, rfl⟩
  have hpg := described_grammar hd hgood (by
    obtain ⟨f, f1, f2, f3⟩ := hf
    refine ⟨f, f1, ?_, f3⟩
    rintro A ⟨x, hx, rfl⟩
    obtain ⟨A, rfl, hA⟩ := (hmem' _).1 hx
    exact f2 A hA) (Or.inl hroot) hclosed
  have hp := described_probabilities hd hl (fun x hx => by
    obtain ⟨A, rfl, _⟩ := (hmem' _).1 hx
    exact one_ne_zero)
  obtain ⟨R, hR⟩ := C67_new (order := order) hpg hp hsx
  have hex : extract logFactorize order cs cd cw lexOrder (.disco s) sxlen = some R := by rw [extract, hgram]; exact hR
  obtain ⟨d1, R₁, R₂, d2, d3, d4⟩ := hd
  have hlexrule : ∀ r ∈ G.rules, ∀ a, r.composition = [[.t a]] → r.head = a ∧ OnlyRight l a := by
    intro r hr a ha
    rw [d2] at hr
    rcases List.mem_append.1 hr with hr | hr
    · obtain ⟨x, _, _, _, e3, _⟩ := forall₂_mem_right d3 hr
      exact absurd (List.mem_singleton.2 rfl) ((C47_linear e3).1 [.t a] (by rw [ha]; simp) a)
    · obtain ⟨x, hx, e1, _, e3, _⟩ := forall₂_mem_right d4 hr
      obtain ⟨A, rfl, hA⟩ := (hmem' _).1 hx
      rw [e3] at ha
      cases ha
      exact ⟨e1, hA⟩
  have honly : ∀ r ∈ G.rules, OnlyRight l r.head → r.composition = [[.t r.head]] := by
    intro r hr hA
    rw [d2] at hr
    rcases List.mem_append.1 hr with hr | hr
    · obtain ⟨x, hx, e1, _⟩ := forall₂_mem_right d3 hr
      exact absurd e1.symm (hA.2 x hx)
    · obtain ⟨x, hx, e1, _, e3, _⟩ := forall₂_mem_right d4 hr
      obtain ⟨A, rfl, _⟩ := (hmem' _).1 hx
      rw [e3, e1]
  have hpre : Preterminals G.rules := by
    intro r hr a ha r' hr' he
    obtain ⟨e1, e2⟩ := hlexrule r hr a ha
    have := honly r' hr' (by rw [he, e1]; exact e2)
    rw [this, he, e1]
  have hnt : NoTerminalRoot G.rules G.init := by
    intro r hr he a ha
    obtain ⟨e1, e2⟩ := hlexrule r hr a ha
    obtain ⟨x, hx, hx'⟩ := hroot
    exact e2.2 x hx (by rw [hx', ← e1, he, d1])
  exact ⟨lexOrder lex, G, R, (hlo lex).nodup_iff.2 hnd, hmem', ⟨d1, R₁, R₂, d2, d3, d4⟩, hp, hpg, hpre, hnt, hR, hex⟩

/-- **C86** `extract` with rules of disco-dop, and `parse` with the result: the grammar is the one that the file describes, where the words of the lexicon are the
nonterminals without rules; the construction does not panic; for each sentence the derivations with the highest probabilities are printed. -/
theorem C86_disco (ho : HashOrder order) (hlo : ∀ l, (lexOrder l).Perm l) {lines : List (List Nat)} {l : List (DiscoDeriv (List Nat) × List (List Bool) × NNReal)}
    (h : List.Forall₂ (fun s y => ConstituentText cd cw y.1 y.2.1 y.2.2 s) lines l) {s : List Nat} (hs : FileText lines s) {root : List Nat}
    (hi : cd.read (ascii ['R', 'O', 'O', 'T']) = some root) (hroot : ∃ x ∈ l, x.1.lhs = root) (hf : SameFanout l (OnlyRight l) root) (hl : ∀ x ∈ l, x.2.2 ≠ 0)
    (hcyc : NoBitCycle l) (hsx : sxlen ≤ 255) :
    ∃ (lex : DiscoLexer (List Nat) (List Nat) NNReal) (G : Lcfrs (List Nat) (List Nat) NNReal) (R : CsRep (List Nat) (List Nat) NNReal),
      lex.Nodup ∧ (∀ x, x ∈ lex ↔ ∃ A, x = (A, A, 1) ∧ OnlyRight l A) ∧ DescribedBy l lex root G ∧ FactorsNeZero logFactorize G.rules ∧
      extract logFactorize order cs cd cw lexOrder (.disco s) sxlen = some R ∧
      ∀ (o : CsOptions NNReal) (a : ParseArgs) (text : List Nat) (ls : List (List Nat)), 0 < o.beam.getD R.generator.states → o.beam.getD R.generator.states ≤ 65535 →
        LinesOf ls text →
        (∀ i line, ls[i]? = some line → ∃ id ws sentence names, LineOf a.withLines i line id ws ∧ TagsOf a.withPos ws sentence names ∧ sentence.length ≤ 255) →
        Answers (LineAnswer logFactorize G R o a fun A => A) a ls fun fuel m => extractParse logFactorize order cs cd cw lexOrder (.disco s) sxlen o a fuel m text := by
  obtain ⟨lex, G, R, h1, h2, hd, hp, hpg, hpre, hnt, hR, hex⟩ := disco_setup (order := order) (cs := cs) hlo h hs hi hroot hf hl hsx
  refine ⟨lex, G, R, h1, h2, hd, (probabilities_factors hp).2, hex, fun o a text ls hb0 hb hls hform => ?_⟩
  have hrun : (fun fuel m => extractParse logFactorize order cs cd cw lexOrder (.disco s) sxlen o a fuel m text) = fun fuel m => R.parseCommand o a (fun A => A) fuel m text := by
    funext fuel m
    rw [extractParse, hex]
    rfl
  rw [hrun]
  exact C67_command_partial hR ho hpg hp hpre (described_noVariableCycle hd hcyc) hnt hb0 hb a _ hls hform

/-- **C86** `extract` with rules and a lexicon of disco-dop, and `parse` with the result. Since a tag may have several words, the trees may be trees of other sentences with
the same number of words (see C84). -/
theorem C86_lexer (ho : HashOrder order) {lines lexLines : List (List Nat)} {l : List (DiscoDeriv (List Nat) × List (List Bool) × NNReal)}
    {ll : List (List Nat × List (List Nat × NNReal))} (h : List.Forall₂ (fun s y => ConstituentText cd cw y.1 y.2.1 y.2.2 s) lines l)
    (hlx : List.Forall₂ (fun s y => LexiconText cd cd cw y.1 y.2 s) lexLines ll) {s t : List Nat} (hs : FileText lines s) (ht : FileText lexLines t) {root : List Nat}
    (hi : cd.read (ascii ['R', 'O', 'O', 'T']) = some root)
    {lex : List (List Nat × List Nat × NNReal)} (hlex : lex = ll.flatMap fun y => y.2.map fun z => (y.1, z.1, z.2))
    (hroot : (∃ x ∈ l, x.1.lhs = root) ∨ ∃ x ∈ lex, x.2.1 = root)
    (hclosed : ∀ x ∈ l, ∀ A ∈ discoRhs x.1, (∃ y ∈ l, y.1.lhs = A) ∨ ∃ y ∈ lex, y.2.1 = A) (hf : SameFanout l (fun A => ∃ x ∈ lex, x.2.1 = A) root)
    (hl : ∀ x ∈ l, x.2.2 ≠ 0) (hl' : ∀ x ∈ lex, x.2.2 ≠ 0) (hcyc : NoBitCycle l) (hsx : sxlen ≤ 255) :
    ∃ (G : Lcfrs (List Nat) (List Nat) NNReal) (R : CsRep (List Nat) (List Nat) NNReal),
      DescribedBy l lex root G ∧ FactorsNeZero logFactorize G.rules ∧ extract logFactorize order cs cd cw lexOrder (.lexer s t) sxlen = some R ∧
      ∀ (o : CsOptions NNReal) (a : ParseArgs) (text : List Nat) (ls : List (List Nat)), 0 < o.beam.getD R.generator.states → o.beam.getD R.generator.states ≤ 65535 →
        LinesOf ls text →
        (∀ i line, ls[i]? = some line → ∃ id ws sentence names, LineOf a.withLines i line id ws ∧ TagsOf a.withPos ws sentence names ∧ sentence.length ≤ 255 ∧
          (sentence.length = 1 → ∀ x ∈ lex, x.2.1 ≠ root)) →
        Answers (LineAnswerEach logFactorize G R o a fun A => A) a ls fun fuel m => extractParse logFactorize order cs cd cw lexOrder (.lexer s t) sxlen o a fuel m text := by
  have hread := constituents_read h hs
  have hgood := constituents_good h
  have hread' := lexicon_read hlx ht
  rw [← hlex] at hread'
  obtain ⟨G, hG, hd⟩ := fromDiscodop_described (cd := cd) (l := l) (lex := lex) hgood hi
  have hgram : extractGrammar cs cd cw lexOrder (.lexer s t) = some G := by
    rw [extractGrammar, hread, hread', ← hG]
    rfl
  have hpg := described_grammar hd hgood hf hroot hclosed
  have hp := described_probabilities hd hl hl'
  obtain ⟨R, hR⟩ := C67_new (order := order) hpg hp hsx
  have hex : extract logFactorize order cs cd cw lexOrder (.lexer s t) sxlen = some R := by rw [extract, hgram]; exact hR
  refine ⟨G, R, hd, (probabilities_factors hp).2, hex, fun o a text ls hb0 hb hls hform => ?_⟩
  have hrun : (fun fuel m => extractParse logFactorize order cs cd cw lexOrder (.lexer s t) sxlen o a fuel m text) = fun fuel m => R.parseCommand o a (fun A => A) fuel m text := by
    funext fuel m
    rw [extractParse, hex]
    rfl
  rw [hrun]
  refine C84_probabilities hR ho hpg hp (described_noVariableCycle hd hcyc) hb0 hb a _ hls fun i line hl => ?_
  obtain ⟨id, ws, sentence, names, k1, k2, k3, k4⟩ := hform i line hl
  refine ⟨id, ws, sentence, names, k1, k2, k3, fun hlen r hr he a ha => ?_⟩
  obtain ⟨d1, R₁, R₂, d2, d3, d4⟩ := hd
  rw [d2] at hr
  rcases List.mem_append.1 hr with hr | hr
  · obtain ⟨x, _, _, _, e3, _⟩ := forall₂_mem_right d3 hr
    exact (C47_linear e3).1 [.t a] (by rw [ha]; simp) a (List.mem_singleton.2 rfl)
  · obtain ⟨x, hx, e1, _⟩ := forall₂_mem_right d4 hr
    exact k4 hlen x hx (by rw [← e1, he, d1])

/-- **C86** `extract` with the text of an LCFRS in normal form with probabilities, and `parse` with the result. -/
theorem C86_plain (ho : HashOrder order) {G : Lcfrs (List Nat) (List Nat) NNReal} {s : List Nat} (hs : GrammarFile cs (PmcfgRuleReads cs cs cw) [G.init] G.rules s)
    (hg : ParserGrammar G.rules G.init) (hp : Probabilities G.rules) (hcyc : NoVariableCycle G.rules) (hsx : sxlen ≤ 255) :
    ∃ R : CsRep (List Nat) (List Nat) NNReal, extract logFactorize order cs cd cw lexOrder (.plain s) sxlen = some R ∧
      ∀ (o : CsOptions NNReal) (a : ParseArgs) (text : List Nat) (ls : List (List Nat)), 0 < o.beam.getD R.generator.states → o.beam.getD R.generator.states ≤ 65535 →
        LinesOf ls text →
        (∀ i line, ls[i]? = some line → ∃ id ws sentence names, LineOf a.withLines i line id ws ∧ TagsOf a.withPos ws sentence names ∧ sentence.length ≤ 255 ∧
          (sentence.length = 1 → NoTerminalRoot G.rules G.init)) →
        Answers (LineAnswerEach logFactorize G R o a fun A => A) a ls (fun fuel m => extractParse logFactorize order cs cd cw lexOrder (.plain s) sxlen o a fuel m text) ∧
        (Preterminals G.rules → NoTerminalRoot G.rules G.init →
          Answers (LineAnswer logFactorize G R o a fun A => A) a ls fun fuel m => extractParse logFactorize order cs cd cw lexOrder (.plain s) sxlen o a fuel m text) := by
  have hgram : extractGrammar cs cd cw lexOrder (.plain s) = some G := by
    rw [extractGrammar, C65_lcfrs.2 hs]
    rfl
  obtain ⟨R, hR⟩ := C67_new (order := order) hg hp hsx
  have hex : extract logFactorize order cs cd cw lexOrder (.plain s) sxlen = some R := by rw [extract, hgram]; exact hR
  refine ⟨R, hex, fun o a text ls hb0 hb hls hform => ?_⟩
  have hrun : (fun fuel m => extractParse logFactorize order cs cd cw lexOrder (.plain s) sxlen o a fuel m text) = fun fuel m => R.parseCommand o a (fun A => A) fuel m text := by
    funext fuel m
    rw [extractParse, hex]
    rfl
  rw [hrun]
  refine ⟨C84_probabilities hR ho hg hp hcyc hb0 hb a _ hls hform, fun hpre hnt => C67_command_partial hR ho hg hp hpre hcyc hnt hb0 hb a _ hls fun i line hl => ?_⟩
  obtain ⟨id, ws, sentence, names, k1, k2, k3, _⟩ := hform i line hl
  exact ⟨id, ws, sentence, names, k1, k2, k3⟩

end

section
variable {W : Type _} [Zero W] [One W] [Mul W] [Add W] [Div W] [LinearOrder W] {factorize : W → Nat → List W} {order : Nat → List Nat → List Nat} {cs cd : Codec (List Nat)}
  {cw : Codec W} {lexOrder : DiscoLexer (List Nat) (List Nat) W → DiscoLexer (List Nat) (List Nat) W}

omit [Zero W] [Mul W] [LinearOrder W] in
/-- **C86** Which grammar is extracted from a text: exactly the one that the lines of the text declare. -/
theorem C86_plain_grammar {s : List Nat} {G : Lcfrs (List Nat) (List Nat) W} :
    extractGrammar cs cd cw lexOrder (.plain s) = some G ↔ GrammarFile cs (PmcfgRuleReads cs cs cw) [G.init] G.rules s := by
  rw [← C65_lcfrs, extractGrammar, expectOk, Option.bind_eq_some_iff]
  simp

/-- **C86** `extract` writes a file only for grammars in normal form, and if the length for the estimates is at most 255; in all other cases it panics. The file
contains the rules of the grammar in their order. -/
theorem C86_panics {input : ExtractInput} {sxlen : Nat} {R : CsRep (List Nat) (List Nat) W} (h : extract factorize order cs cd cw lexOrder input sxlen = some R) :
    sxlen ≤ 255 ∧ ∃ G, extractGrammar cs cd cw lexOrder input = some G ∧ G.inNormalForm = true ∧ R.rules = G.rules := by
  obtain ⟨G, hG, hR⟩ := Option.bind_eq_some_iff.1 h
  unfold CsRep.new at hR
  split at hR
  · rename_i h1
    split at hR
    · rename_i h2
      refine ⟨h1, G, hG, h2, ?_⟩
      split at hR
      · obtain ⟨_, _, rfl⟩ := Option.map_eq_some_iff.1 hR
        rfl
      · cases hR
    · cases hR
  · cases hR

end

namespace C86Example

/-- `String` of a text, where all characters are in ASCII. -/
def str : Codec (List Nat) := ⟨id, some⟩

/-- Numbers. -/
noncomputable def num : Codec NNReal := ⟨fun _ => [], fun s => some (digitsValue s : NNReal)⟩

def root : List Nat := ascii "ROOT".toList

/-- `ROOT X A 010 1`, `X A B 0,1 3`, `X X B 1,00 1`. -/
noncomputable def rules : List (DiscoDeriv (List Nat) × List (List Bool) × NNReal) :=
  [(.binary root [88] [65], [[false, true, false]], ((1 : Nat) : NNReal)), (.binary [88] [65] [66], [[false], [true]], ((3 : Nat) : NNReal)),
    (.binary [88] [88] [66], [[true], [false, false]], ((1 : Nat) : NNReal))]

def ruleLines : List (List Nat) := [ascii "ROOT X A 010 1".toList, ascii "X A B 0,1 3".toList, ascii "X X B 1,00 1".toList]

theorem gap : Gap [32] := ⟨by decide, by decide⟩

theorem text : List.Forall₂ (fun s y => ConstituentText str num y.1 y.2.1 y.2.2 s) ruleLines rules := by
  have hn : ∀ n s, Digits s → digitsValue s = n → CountText num (n : NNReal) s := fun n s h1 h2 => .number h1 (by rw [← h2]; rfl)
  have ht : ∀ s, Bare s → Token str s s := fun s h => ⟨h, rfl⟩
  exact .cons (.binary (ht root ⟨by decide, by decide⟩) (ht [88] ⟨by decide, by decide⟩) (ht [65] ⟨by decide, by decide⟩)
      (hn 1 [49] ⟨by decide, by decide⟩ (by decide)) gap gap gap gap ⟨by decide, by decide⟩)
    (.cons (.binary (ht [88] ⟨by decide, by decide⟩) (ht [65] ⟨by decide, by decide⟩) (ht [66] ⟨by decide, by decide⟩)
      (hn 3 [51] ⟨by decide, by decide⟩ (by decide)) gap gap gap gap ⟨by decide, by decide⟩)
    (.cons (.binary (ht [88] ⟨by decide, by decide⟩) (ht [88] ⟨by decide, by decide⟩) (ht [66] ⟨by decide, by decide⟩)
      (hn 1 [49] ⟨by decide, by decide⟩ (by decide)) gap gap gap gap ⟨by decide, by decide⟩) .nil))

/-- `X` has two components. -/
theorem fanout (tags : List Nat → Prop) (h : ¬ tags [88]) : SameFanout rules tags root := by
  refine ⟨fun A => if A = [88] then 2 else 1, by decide, fun A hA => if_neg (by rintro rfl; exact h hA), fun x hx => ?_⟩
  simp only [rules, List.mem_cons, List.not_mem_nil, or_false] at hx
  rcases hx with rfl | rfl | rfl <;> exact ⟨by decide, by decide, by decide⟩

theorem noCycle : NoBitCycle rules := by
  refine ⟨fun A _ => if A = [88] then 1 else 0, fun x hx c b B h1 h2 => ?_⟩
  simp only [rules, List.mem_cons, List.not_mem_nil, or_false] at hx
  rcases hx with rfl | rfl | rfl
  · match c with
    | 0 => simp at h1
    | c + 1 => simp at h1
  · match c with
    | 0 => simp at h1; subst h1; simp [discoRhs] at h2; subst h2; simp [DiscoDeriv.lhs]
    | 1 => simp at h1; subst h1; simp [discoRhs] at h2; subst h2; simp [DiscoDeriv.lhs]
    | c + 2 => simp at h1
  · match c with
    | 0 => simp at h1; subst h1; simp [discoRhs] at h2; subst h2; simp [DiscoDeriv.lhs]
    | 1 => simp at h1
    | c + 2 => simp at h1

/-- `a A 2 B 1`. -/
noncomputable def lexicon : List (List Nat × List (List Nat × NNReal)) := [([97], [([65], ((2 : Nat) : NNReal)), ([66], ((1 : Nat) : NNReal))])]

theorem lexText : List.Forall₂ (fun s y => LexiconText str str num y.1 y.2 s) [ascii "a A 2 B 1".toList] lexicon := by
  have hn : ∀ n s, Digits s → digitsValue s = n → CountText num (n : NNReal) s := fun n s h1 h2 => .number h1 (by rw [← h2]; rfl)
  have ht : ∀ s, Bare s → Token str s s := fun s h => ⟨h, rfl⟩
  exact .cons (.line (ht [97] ⟨by decide, by decide⟩) gap (.cons (ht [65] ⟨by decide, by decide⟩) gap (hn 2 [50] ⟨by decide, by decide⟩ (by decide)) gap
    (.last (ht [66] ⟨by decide, by decide⟩) gap (hn 1 [49] ⟨by decide, by decide⟩ (by decide))))) .nil

end C86Example

open C86Example in
/-- The hypotheses of `C86_disco` can be fulfilled. -/
example : ∃ R, extract logFactorize (fun _ l => l.dedup) str str num id (.disco ([10].intercalate ruleLines)) 5 = some R := by
  obtain ⟨_, _, R, _, _, _, _, h, _⟩ := C86_disco (cs := str) (order := fun _ l => l.dedup) (lexOrder := id) (sxlen := 5) C54Witness.hashOrder (fun _ => .refl _) text (Or.inl rfl)
    (root := root) rfl ⟨_, by simp [rules]; exact Or.inl rfl, rfl⟩ (fanout _ fun h => h.2 _ (by simp [rules]; exact Or.inr (Or.inl rfl)) rfl)
    (by simp [rules]) noCycle (by decide)
  exact ⟨R, h⟩

open C86Example in
/-- The hypotheses of `C86_lexer` can be fulfilled. -/
example : ∃ R, extract logFactorize (fun _ l => l.dedup) str str num id (.lexer ([10].intercalate ruleLines) ([10].intercalate [ascii "a A 2 B 1".toList])) 5 = some R := by
  obtain ⟨_, R, _, _, h, _⟩ := C86_lexer (cs := str) (order := fun _ l => l.dedup) (lexOrder := id) (sxlen := 5) C54Witness.hashOrder text lexText (Or.inl rfl) (Or.inl rfl)
    (root := root) rfl rfl (Or.inl ⟨_, by simp [rules]; exact Or.inl rfl, rfl⟩) (by
      simp only [rules, lexicon]
      simp [discoRhs, DiscoDeriv.lhs]) (fanout _ (by simp [lexicon])) (by simp [rules]) (by simp [lexicon]) noCycle (by decide)
  exact ⟨R, h⟩

/-- All factors but the first one are one. -/
def C86Example.factorize (w : ℚ) (n : Nat) : List ℚ := (List.range n).map fun i => if i = 0 then w else 1

/-- The commands with rational numbers as weights: `ROOT A B 01 1`, `ROOT A ROOT 01 3`. -/
example : extractParse C86Example.factorize (fun _ l => l.dedup) C86Example.str C86Example.str ImportExample.num id
    (.disco (ascii "ROOT A B 01 1\nROOT A ROOT 01 3\n".toList)) 5 .default ⟨1, false, false, false, false⟩ 30 20 (ascii "A A B".toList) =
    some (ascii "#BOS 0\nA\tA\t--\t--\t0\nA\tA\t--\t--\t500\nB\tB\t--\t--\t500\n#500\tROOT\t--\t--\t0\n#EOS 0\n".toList) := by
  decide +kernel

end Rustomata.Props
