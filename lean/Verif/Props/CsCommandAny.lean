import Verif.Proofs.CsCommandAny
import Verif.Props.CsCommand
import Verif.Props.CsAny
import Verif.Spec.CsCommandAny

/-!
# C84: the command `csparsing parse` for grammars with arbitrary terminal rules
-/

namespace Rustomata.Props
open Spec

/-- The export of a tree whose sentence may differ from the one that was read. -/
theorem export_same {N W : Type _} (showN : N → List Nat) {m : GornTree (PMCFGRule N (List Nat) W)} {withPos : Bool} {n : Nat} {names u : List (List Nat)}
    (hnames : names.length = n) (id : Nat) (hu : u.length = n)
    (h : ∀ names', names'.length = u.length → (withPos = false → names' = u) → ∃ s, toNegra showN (fun w => w) m id (if withPos then some names' else none) = some s ∧
      ExportOf showN m.get u names' id (s ++ [10])) :
    ∃ s, toNegra showN (fun w => w) m id (if withPos then some names else none) = some s ∧ ExportSame showN m.get withPos n names id (s ++ [10]) := by
  obtain ⟨s, h1, h2⟩ := h (if withPos then names else u) (by split <;> omega) (fun h => by rw [h]; rfl)
  refine ⟨s, ?_, u, hu, h2⟩
  rw [← h1]
  cases withPos <;> rfl

section
variable {N W : Type _} [DecidableEq N] [RoundedWeight W] [NoZeroDivisors W] {factorize : W → Nat → List W}
  {order : Nat → List Nat → List Nat} {g : Lcfrs N (List Nat) W} {width : Nat} {R : CsRep N (List Nat) W}

/-- The text for a line: `all` are derivations of sentences with the same number of words, without pruning all derivations of the sentence are among them; the results of
`parses` are the first ones of them, all of them unless there is a limit of the number of candidates; the fallback is a derivation with merged rules and exists, without pruning, if the
sentence has a derivation. -/
def LineAnswerEach (factorize : W → Nat → List W) (g : Lcfrs N (List Nat) W) (R : CsRep N (List Nat) W) (o : CsOptions W) (a : ParseArgs) (showN : N → List Nat)
    (sentence names : List (List Nat)) (id : Nat) (text : List Nat) : Prop :=
  ∃ ds all out fb, ParsedLength g.rules g.init sentence ds all ∧ out <+: all ∧ (o.candidates = none → out = all) ∧
    (∃ m fuel, R.parses o sentence fuel m = some out) ∧ (∀ t, fb = some t → ∃ u, FallbackOf g.rules g.init u t ∧ u.length = sentence.length) ∧
    (FactorsNeZero factorize g.rules → R.generator.states ≤ o.beam.getD R.generator.states → o.delta = 0 →
      (∀ e d, Numbers g.rules e d ∧ Derives g.rules g.init d [sentence] → (e, d) ∈ ds) ∧
        (¬ (a.debug ∧ o.candidates = some 0) → (∃ d, Derives g.rules g.init d [sentence]) → fb.isSome)) ∧
    AnswerTextEach showN a out fb sentence names id text

/-- **C84** for grammars without cycles of components that consist of one variable: the command does not panic for a line of the right form with at most 255
words (for lines of one word: if there are no terminal rules for the initial nonterminal), and it prints trees for sentences with the same number of words. -/
theorem C84_line (hR : CsRep.new factorize order g width = some R) (ho : HashOrder order) (hlen : ∀ w n, (factorize w n).length = n)
    (hg : ParserGrammar g.rules g.init) (hw : FactorsLeOne factorize (indexed g.rules)) (hcyc : NoVariableCycle g.rules)
    {o : CsOptions W} (hb0 : 0 < o.beam.getD R.generator.states) (hb : o.beam.getD R.generator.states ≤ 65535)
    (a : ParseArgs) (showN : N → List Nat) {i : Nat} {line : List Nat} {id : Nat} {ws sentence names : List (List Nat)} (hl : LineOf a.withLines i line id ws)
    (ht : TagsOf a.withPos ws sentence names) (hn : sentence.length ≤ 255)
    (hroot : sentence.length = 1 → NoTerminalRoot g.rules g.init) :
    ∃ text, LineAnswerEach factorize g R o a showN sentence names id text ∧
      ∃ m₀ fuel₀, ∀ m ≥ m₀, ∀ fuel ≥ fuel₀, R.lineOutput o a showN fuel m line i = some text := by
  obtain ⟨ds, all, out, fb, res, p1, p2, p3, p4, p5, p6, m₀, fuel₀, p7⟩ := parser_results_each hR ho hlen hg hw hcyc hn hb0 hb
  have p8 : ∃ m fuel, R.parses o sentence fuel m = some out := ⟨m₀, fuel₀, (p7 _ le_rfl _ le_rfl).1⟩
  have hline : ∀ fuel m, R.lineOutput o a showN fuel m line i =
      (R.sentenceOutput o a showN fuel m id sentence (if a.withPos then some names else none)).map List.flatten := fun fuel m => by
    unfold CsRep.lineOutput
    rw [splitLine_iff.2 hl]
    simp only
    rw [splitPos_iff.2 ⟨names, ht, rfl⟩]
  simp only [hline]
  -- the export of the results
  have hout : ∀ t ∈ out, ∃ s, toNegra showN (fun w => w) t id (if a.withPos then some names else none) = some s ∧
      ExportSame showN t.get a.withPos sentence.length names id (s ++ [10]) := fun t ht' => by
    obtain ⟨q1, q2⟩ := p1
    obtain ⟨⟨e, d⟩, hx, q3, q4⟩ := forall₂_mem_right q2 (p2.subset ht')
    obtain ⟨_, u, q5, q6⟩ := q1 e d hx
    exact export_same showN (tagsOf_names ht).1 id q6 fun _ hl he => export_of_derivation_names showN hg q3 q4 q5 (fun h => hroot (q6.symm.trans h)) hl he id
  have hfb : ∀ t, fb = some t → ∃ s, toNegra showN (fun w => w) t id (if a.withPos then some names else none) = some s ∧
      ExportSame showN t.get a.withPos sentence.length names id (s ++ [10]) := fun t ht' => by
    obtain ⟨u, q5, q6⟩ := p4 t ht'
    exact export_same showN (tagsOf_names ht).1 id q6 fun _ hl he => export_of_fallback_names showN hg q5 (fun h => hroot (q6.symm.trans h)) hl he id
  have hno := noparse_text ht id
  by_cases hd : a.debug = true
  · -- the debug mode
    have hrun : ∀ m ≥ m₀, ∀ fuel ≥ fuel₀, R.sentenceOutput o a showN fuel m id sentence (if a.withPos then some names else none) = match (generalizing := false) some res with
        | none => none
        | some (.parse t _) => (toNegra showN (fun w => w) t id (if a.withPos then some names else none)).map fun s => [s ++ [10]]
        | some (.fallback t _) => (toNegra showN (fun w => w) t id (if a.withPos then some names else none)).map fun s => [s ++ [10]]
        | some .noparse => some [noparse (fun w => w) sentence id (if a.withPos then some names else none) ++ [10]] := fun m hm fuel hf => by
      unfold CsRep.sentenceOutput
      rw [if_pos hd, (p7 m hm fuel hf).2.2]
      cases res <;> rfl
    have htake : out.take (if a.debug then 1 else a.k) = out.take 1 := by rw [if_pos hd]
    cases res with
    | parse t n =>
      obtain ⟨out', rfl⟩ : ∃ out', out = t :: out' := by
        cases out with
        | nil => cases p5
        | cons t' out' => cases p5; exact ⟨out', rfl⟩
      obtain ⟨s, e1, e2⟩ := hout t List.mem_cons_self
      refine ⟨s ++ [10], ⟨ds, all, _, fb, p1, p2, p3, p8, p4, fun g1 g2 g3 => ⟨(p6 g1 g2 g3).1, fun _ => (p6 g1 g2 g3).2⟩, ?_⟩, m₀, fuel₀, fun m hm fuel hf => ?_⟩
      · unfold AnswerTextEach
        rw [htake]
        exact .inl ⟨by simp, [s ++ [10]], .cons e2 .nil, by simp⟩
      · rw [hrun m hm fuel hf]
        simp [e1]
    | fallback t n =>
      obtain ⟨rfl, h1, _⟩ := p5
      obtain ⟨s, e1, e2⟩ := hfb t h1
      refine ⟨s ++ [10], ⟨ds, all, _, fb, p1, p2, p3, p8, p4, fun g1 g2 g3 => ⟨(p6 g1 g2 g3).1, fun _ => (p6 g1 g2 g3).2⟩, ?_⟩, m₀, fuel₀, fun m hm fuel hf => ?_⟩
      · exact .inr (.inl ⟨List.take_nil, .inr hd, t, h1, e2⟩)
      · rw [hrun m hm fuel hf]
        simp [e1]
    | noparse =>
      obtain ⟨rfl, h1⟩ := p5
      refine ⟨noparseText a.withPos sentence names id, ⟨ds, all, _, none, p1, p2, p3, p8, fun t h => (by cases h), fun g1 g2 g3 => ⟨(p6 g1 g2 g3).1, fun h hd' => ?_⟩, ?_⟩, m₀, fuel₀, fun m hm fuel hf => ?_⟩
      · rcases h1 with h1 | h1
        · rw [← h1]
          exact (p6 g1 g2 g3).2 hd'
        · exact absurd ⟨hd, by simpa using h1⟩ h
      · exact .inr (.inr ⟨List.take_nil, .inr rfl, rfl⟩)
      · rw [hrun m hm fuel hf]
        simp [hno]
  · -- the k best trees
    have htake : out.take (if a.debug then 1 else a.k) = out.take a.k := by rw [if_neg hd]
    obtain ⟨bs, hbs⟩ : ∃ bs, List.Forall₂ (fun t b => (toNegra showN (fun w => w) t id (if a.withPos then some names else none)).map (fun s => s ++ [10]) = some b ∧
        ExportSame showN t.get a.withPos sentence.length names id b) (out.take a.k) bs := by
      refine exists_forall₂ _ fun t ht' => ?_
      obtain ⟨s, e1, e2⟩ := hout t (List.mem_of_mem_take ht')
      exact ⟨s ++ [10], by rw [e1]; rfl, e2⟩
    have hmap : ((out.take a.k).mapM fun t => (toNegra showN (fun w => w) t id (if a.withPos then some names else none)).map fun s => s ++ [10]) = some bs := by
      rw [mapM_some_iff]
      exact hbs.imp fun t b h => h.1
    have hrun : ∀ m ≥ m₀, ∀ fuel ≥ fuel₀, R.sentenceOutput o a showN fuel m id sentence (if a.withPos then some names else none) = match (generalizing := false) bs with
        | s :: ss => some (s :: ss)
        | [] =>
          if a.fallback then
            match (generalizing := false) fb with
            | some t => (toNegra showN (fun w => w) t id (if a.withPos then some names else none)).map fun s => [s ++ [10]]
            | none => some [noparse (fun w => w) sentence id (if a.withPos then some names else none) ++ [10]]
          else some [noparse (fun w => w) sentence id (if a.withPos then some names else none) ++ [10]] := fun m hm fuel hf => by
      unfold CsRep.sentenceOutput
      rw [if_neg hd, (p7 m hm fuel hf).2.1, (p7 m hm fuel hf).1]
      simp only [hmap]
      cases bs <;> rfl
    cases bs with
    | cons s ss =>
      refine ⟨(s :: ss).flatten, ⟨ds, all, _, fb, p1, p2, p3, p8, p4, fun g1 g2 g3 => ⟨(p6 g1 g2 g3).1, fun _ => (p6 g1 g2 g3).2⟩, ?_⟩, m₀, fuel₀, fun m hm fuel hf => ?_⟩
      · unfold AnswerTextEach
        rw [htake]
        refine .inl ⟨fun h => ?_, s :: ss, hbs.imp fun t b h => h.2, rfl⟩
        rw [h] at hbs
        cases hbs
      · rw [hrun m hm fuel hf]
        rfl
    | nil =>
      rw [List.forall₂_nil_right_iff] at hbs
      by_cases hf' : a.fallback = true
      · cases hfbt : fb with
        | some t =>
          obtain ⟨s, e1, e2⟩ := hfb t hfbt
          refine ⟨s ++ [10], ⟨ds, all, _, fb, p1, p2, p3, p8, p4, fun g1 g2 g3 => ⟨(p6 g1 g2 g3).1, fun _ => (p6 g1 g2 g3).2⟩, ?_⟩, m₀, fuel₀, fun m hm fuel hf => ?_⟩
          · unfold AnswerTextEach
            rw [htake]
            exact .inr (.inl ⟨hbs, .inl hf', t, hfbt, e2⟩)
          · rw [hrun m hm fuel hf]
            simp [hf', hfbt, e1]
        | none =>
          refine ⟨noparseText a.withPos sentence names id, ⟨ds, all, _, fb, p1, p2, p3, p8, p4, fun g1 g2 g3 => ⟨(p6 g1 g2 g3).1, fun _ => (p6 g1 g2 g3).2⟩, ?_⟩, m₀, fuel₀,
            fun m hm fuel hf => ?_⟩
          · unfold AnswerTextEach
            rw [htake]
            exact .inr (.inr ⟨hbs, .inr hfbt, rfl⟩)
          · rw [hrun m hm fuel hf]
            simp [hf', hfbt, hno]
      · refine ⟨noparseText a.withPos sentence names id, ⟨ds, all, _, fb, p1, p2, p3, p8, p4, fun g1 g2 g3 => ⟨(p6 g1 g2 g3).1, fun _ => (p6 g1 g2 g3).2⟩, ?_⟩, m₀, fuel₀,
          fun m hm fuel hf => ?_⟩
        · unfold AnswerTextEach
          rw [htake]
          exact .inr (.inr ⟨hbs, .inl (fun h => h.elim hf' hd), rfl⟩)
        · rw [hrun m hm fuel hf]
          simp [hf', hno]

/-- **C84** for whole texts: if all lines have the right form as in `C84_line`, then the output consists of the answers for the lines, in their order. -/
theorem C84_command (hR : CsRep.new factorize order g width = some R) (ho : HashOrder order) (hlen : ∀ w n, (factorize w n).length = n)
    (hg : ParserGrammar g.rules g.init) (hw : FactorsLeOne factorize (indexed g.rules)) (hcyc : NoVariableCycle g.rules)
    {o : CsOptions W} (hb0 : 0 < o.beam.getD R.generator.states) (hb : o.beam.getD R.generator.states ≤ 65535)
    (a : ParseArgs) (showN : N → List Nat) {text : List Nat} {ls : List (List Nat)} (hls : LinesOf ls text)
    (hform : ∀ i line, ls[i]? = some line → ∃ id ws sentence names, LineOf a.withLines i line id ws ∧ TagsOf a.withPos ws sentence names ∧ sentence.length ≤ 255 ∧
      (sentence.length = 1 → NoTerminalRoot g.rules g.init)) :
    ∃ answers : List (List Nat), answers.length = ls.length ∧
      (∀ (i : Nat) line answer, ls[i]? = some line → answers[i]? = some answer → ∃ id ws sentence names, LineOf a.withLines i line id ws ∧
        TagsOf a.withPos ws sentence names ∧ LineAnswerEach factorize g R o a showN sentence names id answer) ∧
      ∃ m₀ fuel₀, ∀ m ≥ m₀, ∀ fuel ≥ fuel₀, R.parseCommand o a showN fuel m text = some answers.flatten := by
  have hmem : ∀ x ∈ ls.zipIdx, ∃ y, (∃ id ws sentence names, LineOf a.withLines x.2 x.1 id ws ∧ TagsOf a.withPos ws sentence names ∧
      LineAnswerEach factorize g R o a showN sentence names id y) ∧
      ∃ m₀ fuel₀, ∀ m ≥ m₀, ∀ fuel ≥ fuel₀, R.lineOutput o a showN fuel m x.1 x.2 = some y := by
    rintro ⟨line, i⟩ hx
    have hx := List.mem_zipIdx_iff_getElem?.1 hx
    obtain ⟨id, ws, sentence, names, h1, h2, h3, hroot⟩ := hform i line hx
    obtain ⟨y, h4, h5⟩ := C84_line hR ho hlen hg hw hcyc hb0 hb a showN h1 h2 h3 hroot
    exact ⟨y, ⟨id, ws, sentence, names, h1, h2, h4⟩, h5⟩
  obtain ⟨answers, hans⟩ := exists_forall₂ _ hmem
  refine ⟨answers, ?_, ?_, ?_⟩
  · rw [← hans.length_eq, List.length_zipIdx]
  · intro i line answer h1 h2
    obtain ⟨hlt, h2⟩ := List.getElem?_eq_some_iff.1 h2
    have hlt' : i < ls.zipIdx.length := hans.length_eq ▸ hlt
    have h3 := (List.forall₂_iff_get.1 hans).2 i hlt' hlt
    obtain ⟨hlt'', h1⟩ := List.getElem?_eq_some_iff.1 h1
    simp only [List.get_eq_getElem, List.getElem_zipIdx, h1, h2, Nat.zero_add] at h3
    exact h3.1
  · have hbound : ∃ m₀ fuel₀, ∀ m ≥ m₀, ∀ fuel ≥ fuel₀, List.Forall₂ (fun x y => R.lineOutput o a showN fuel m x.1 x.2 = some y) ls.zipIdx answers := by
      generalize ls.zipIdx = l at hans
      clear hmem hform hls
      induction hans with
      | nil => exact ⟨0, 0, fun _ _ _ _ => .nil⟩
      | cons h _ ih =>
        obtain ⟨_, m₁, f₁, h1⟩ := h
        obtain ⟨m₂, f₂, h2⟩ := ih
        exact ⟨max m₁ m₂, max f₁ f₂, fun m hm fuel hf => .cons (h1 m (le_trans (le_max_left _ _) hm) fuel (le_trans (le_max_left _ _) hf))
          (h2 m (le_trans (le_max_right _ _) hm) fuel (le_trans (le_max_right _ _) hf))⟩
    obtain ⟨m₀, fuel₀, h⟩ := hbound
    refine ⟨m₀, fuel₀, fun m hm fuel hf => ?_⟩
    unfold CsRep.parseCommand
    rw [lines_iff.2 hls, mapM_some_iff.2 (h m hm fuel hf)]
    rfl

end

/-- **C84** for grammars with probabilities. -/
theorem C84_probabilities {N : Type _} [DecidableEq N] {order : Nat → List Nat → List Nat} {width : Nat} {g : Lcfrs N (List Nat) NNReal} {R : CsRep N (List Nat) NNReal}
    (hR : CsRep.new logFactorize order g width = some R) (ho : HashOrder order) (hg : ParserGrammar g.rules g.init) (hp : Probabilities g.rules)
    (hcyc : NoVariableCycle g.rules) {o : CsOptions NNReal} (hb0 : 0 < o.beam.getD R.generator.states) (hb : o.beam.getD R.generator.states ≤ 65535)
    (a : ParseArgs) (showN : N → List Nat) {text : List Nat} {ls : List (List Nat)} (hls : LinesOf ls text)
    (hform : ∀ i line, ls[i]? = some line → ∃ id ws sentence names, LineOf a.withLines i line id ws ∧ TagsOf a.withPos ws sentence names ∧ sentence.length ≤ 255 ∧
      (sentence.length = 1 → NoTerminalRoot g.rules g.init)) :
    ∃ answers : List (List Nat), answers.length = ls.length ∧
      (∀ (i : Nat) line answer, ls[i]? = some line → answers[i]? = some answer → ∃ id ws sentence names, LineOf a.withLines i line id ws ∧
        TagsOf a.withPos ws sentence names ∧ LineAnswerEach logFactorize g R o a showN sentence names id answer) ∧
      ∃ m₀ fuel₀, ∀ m ≥ m₀, ∀ fuel ≥ fuel₀, R.parseCommand o a showN fuel m text = some answers.flatten :=
  C84_command hR ho (fun w n => (C67_factorize w n).1) hg (probabilities_factors hp).1 hcyc hb0 hb a showN hls hform

namespace C84Example
open C81Example (Z half factorize)

/-- `S → Y Y`, `Y → a` with weight 1/2, `Y → b`. -/
def g : Lcfrs Nat (List Nat) Z := ⟨[⟨0, [1, 1], [[.var 0 0, .var 1 0]], 1⟩, ⟨1, [], [[.t [97]]], half⟩, ⟨1, [], [[.t [98]]], 1⟩], 0⟩

theorem grammar : ParserGrammar g.rules g.init where
  lcfrs := ⟨fun A => if A = 0 ∨ A = 1 then some 1 else none, by
    refine ⟨fun A f => ?_, rfl, fun r hr => ?_⟩
    · match A with
      | 0 => simp [g, eq_comm]
      | 1 => simp [g, eq_comm]
      | A + 2 => simp [g]
    · simp only [g, List.mem_cons, List.not_mem_nil, or_false] at hr
      rcases hr with rfl | rfl | rfl
      · refine ⟨by decide, fun i j => ?_⟩
        match i with
        | 0 => simp [varsOf]
        | 1 => simp [varsOf]
        | i + 2 => simp [varsOf]
      · exact ⟨by decide, fun i j => by simp [varsOf]⟩
      · exact ⟨by decide, fun i j => by simp [varsOf]⟩⟩
  normal := by simp [NormalForm, g]
  closed := by simp [g]

theorem noVariableCycle : NoVariableCycle g.rules := by
  refine ⟨fun _ _ => 0, fun r hr c i j B h1 h2 => ?_⟩
  simp only [g, List.mem_cons, List.not_mem_nil, or_false] at hr
  rcases hr with rfl | rfl | rfl <;> cases c <;> simp at h1

theorem leOne : FactorsLeOne factorize (indexed g.rules) := by unfold FactorsLeOne; decide
theorem neZero : FactorsNeZero factorize g.rules := by unfold FactorsNeZero; decide
theorem noTerminalRoot : NoTerminalRoot g.rules g.init := by simp [NoTerminalRoot, g]

def showN : Nat → List Nat := fun n => if n = 0 then ascii ['S'] else ascii ['Y']

/-- The tree for the words `b b`. -/
def text : List Nat := ascii "#BOS 0\nb\tY\t--\t--\t0\nb\tY\t--\t--\t0\n#EOS 0\n".toList

/-- The command prints a tree with the words `b b` for the line `a a`. -/
example : ((CsRep.new factorize (fun _ l => l.dedup) g 5).bind fun R => R.parseCommand .default ⟨1, false, false, false, false⟩ showN 30 20 [97, 32, 97]) = some text := by
  decide +kernel

theorem first : ((CsRep.new factorize (fun _ l => l.dedup) g 5).bind fun R => (R.parses .default [[97], [97]] 30 20).map fun out =>
    decide (0 < R.generator.states ∧ R.generator.states ≤ 65535 ∧
      (out.head?.bind fun t => (toNegra showN (fun w => w) t 0 none).map fun s => s ++ [10]) = some text)) = some true := by
  decide +kernel

theorem sentenceText_begins (id : Nat) (w label : List Nat) (parent : Nat) (ls : List (List Nat)) :
    ∃ rest, sentenceText id (columns w label parent :: ls) = ascii ['#', 'B', 'O', 'S', ' '] ++ natText id ++ ascii ['\n'] ++ w ++ ascii ['\t'] ++ rest :=
  ⟨label ++ (ascii ['\t', '-', '-', '\t', '-', '-', '\t'] ++ (natText parent ++ (ascii ['\n'] ++ (ls.flatten ++ (ascii ['#', 'E', 'O', 'S', ' '] ++ (natText id ++ ascii ['\n'])))))),
    by simp only [sentenceText, columns, List.flatten_cons, List.append_assoc]⟩

/-- The export of a sentence begins with its first word. -/
theorem answer_begins {N W : Type _} {showN : N → List Nat} {a : ParseArgs} {trees : List (GornTree (PMCFGRule N (List Nat) W))}
    {fb : Option (GornTree (PMCFGRule N (List Nat) W))} {sentence names : List (List Nat)} {id : Nat} {text : List Nat}
    (h : AnswerText showN a trees fb sentence names id text) {w : List Nat} (hw : sentence[0]? = some w) (hnames : names[0]? = some w) :
    ∃ rest, text = ascii ['#', 'B', 'O', 'S', ' '] ++ natText id ++ ascii ['\n'] ++ w ++ ascii ['\t'] ++ rest := by
  have hexp : ∀ {t : GornTree (PMCFGRule N (List Nat) W)} {text}, ExportOf showN t.get sentence names id text →
      ∃ rest, text = ascii ['#', 'B', 'O', 'S', ' '] ++ natText id ++ ascii ['\n'] ++ w ++ ascii ['\t'] ++ rest := by
    rintro t text ⟨v, nodes, ls, ns, _, h1, _, _, _, h2, _, rfl⟩
    cases names with
    | nil => cases hnames
    | cons n names =>
      cases v with
      | nil => rw [← h1] at hw; cases hw
      | cons x v =>
        cases h2 with
        | @cons _ l _ ls h2 _ =>
          obtain ⟨r, _, rfl⟩ := h2
          simp only [List.getElem?_cons_zero, Option.some.injEq] at hnames
          subst hnames
          exact sentenceText_begins ..
  unfold AnswerText at h
  rcases h with ⟨h1, bs, h2, rfl⟩ | ⟨_, _, t, _, h2⟩ | ⟨_, _, rfl⟩
  · generalize trees.take (if a.debug then 1 else a.k) = shown at h1 h2
    cases h2 with
    | nil => exact absurd rfl h1
    | cons h2 _ =>
      obtain ⟨rest, rfl⟩ := hexp h2
      exact ⟨rest ++ _, by rw [List.flatten_cons, ← List.append_assoc]⟩
  · exact hexp h2
  · cases names with
    | nil => cases hnames
    | cons n names =>
      cases sentence with
      | nil => cases hw
      | cons x v =>
        simp only [List.getElem?_cons_zero, Option.some.injEq] at hnames
        subst hnames
        exact sentenceText_begins ..

end C84Example

open C84Example in
/-- **C66** is violated by nonterminals with rules for several terminals, also if there are no terminal rules for the initial nonterminal: the command prints a tree for other
words. For the rules `S → Y Y`, `Y → a` and `Y → b`, where the last rule has the highest weight, the words `b b` are printed for the line `a a`. -/
theorem C84_words_violated : ¬ C66_claim_for fun rules init => NoTerminalRoot rules init := by
  intro h
  have hf := first
  rw [Option.bind_eq_some_iff] at hf
  obtain ⟨R, hR, hf⟩ := hf
  rw [Option.map_eq_some_iff] at hf
  obtain ⟨res, hres, hf⟩ := hf
  rw [decide_eq_true_eq] at hf
  obtain ⟨hs0, hs, ht⟩ := hf
  have hline : LineOf false 0 [97, 32, 97] 0 [[97], [97]] := splitLine_iff.1 (by decide)
  have htags : TagsOf false [[97], [97]] [[97], [97]] [[97], [97]] := ⟨rfl, rfl⟩
  have hlines : LinesOf [[97, 32, 97]] [97, 32, 97] := lines_iff.1 (by decide)
  obtain ⟨answers, hlen, hans, m₀, fuel₀, h1⟩ := h Nat C81Example.Z _ _ g 5 R hR C54Witness.hashOrder C83Example.factorizes grammar leOne noVariableCycle noTerminalRoot .default
    hs0 hs ⟨1, false, false, false, false⟩ showN [97, 32, 97] [[97, 32, 97]] hlines (by
      intro i line hi
      obtain ⟨rfl, rfl⟩ : i = 0 ∧ line = [97, 32, 97] := by
        cases i <;> simp_all
      exact ⟨0, _, _, _, hline, htags, by simp⟩)
  obtain ⟨out, _, m₁, fuel₁, h2⟩ := C83_parses hR C54Witness.hashOrder (fun w n => (C83Example.factorizes w n).1) grammar leOne neZero noVariableCycle hs (word := [[97], [97]]) (by simp) (by simp)
    (o := .default) rfl rfl
  -- the first tree
  obtain ⟨⟨k, h3⟩, _⟩ := h2 20 fuel₁ (le_refl _)
  have h3 := C54_deterministic hres h3
  subst h3
  have h4 := h1 (max m₀ m₁) (le_max_left _ _) (max fuel₀ fuel₁) (le_max_left _ _)
  have h5 := (h2 (max m₀ m₁) (max fuel₀ fuel₁) (le_max_right _ _)).2 rfl (le_max_right _ _)
  obtain ⟨t, out, rfl, ht1⟩ : ∃ t out', out = t :: out' ∧ ((toNegra showN (fun w => w) t 0 none).map fun s => s ++ [10]) = some text := by
    cases out with
    | nil => simp at ht
    | cons t out =>
      cases k with
      | zero => simp at ht
      | succ k => exact ⟨t, out, rfl, by simpa using ht⟩
  unfold CsRep.parseCommand at h4
  rw [lines_iff.2 hlines, Option.map_eq_some_iff] at h4
  obtain ⟨l, h6, h7⟩ := h4
  cases answers with
  | nil => cases hlen
  | cons answer answers =>
    obtain rfl : answers = [] := by cases answers <;> simp_all
    obtain ⟨id, ws, sentence, names, g1, g2, all, out', fb, _, _, _, _, _, g3⟩ := hans 0 _ answer rfl rfl
    have e1 := splitLine_iff.2 g1
    rw [show splitLine [97, 32, 97] false 0 = some (0, [[97], [97]]) from by decide] at e1
    cases e1
    obtain ⟨rfl, rfl⟩ := g2
    obtain ⟨rest, hrest⟩ := answer_begins g3 (w := [97]) rfl rfl
    obtain ⟨y, hy, h9⟩ := forall₂_mem_left (mapM_some_iff.1 h6) (x := ([97, 32, 97], 0)) (by simp)
    have hl : l = [y] := by
      have := (mapM_some_iff.1 h6).length_eq
      cases l with
      | nil => cases hy
      | cons z l =>
        have : l = [] := by cases l <;> simp_all
        subst this
        simp only [List.mem_singleton] at hy
        rw [hy]
    subst hl
    have hy : y = answer := by simpa using h7
    subst hy
    unfold CsRep.lineOutput at h9
    rw [splitLine_iff.2 hline] at h9
    simp only at h9
    rw [splitPos_iff.2 ⟨_, htags, rfl⟩] at h9
    unfold CsRep.sentenceOutput at h9
    simp only [h5] at h9
    cases hfb : R.fallback .default [[97], [97]] (max fuel₀ fuel₁) with
    | none => simp [hfb] at h9
    | some fb =>
      rw [Option.map_eq_some_iff] at ht1
      obtain ⟨s, hs, ht⟩ := ht1
      have h10 : y = text := by
        simp only [hfb, Bool.false_eq_true, if_false, List.take_succ_cons, List.take_zero, List.mapM_cons, List.mapM_nil] at h9
        erw [hs] at h9
        simpa [ht] using h9.symm
      have : ascii ['#', 'B', 'O', 'S', ' '] ++ natText 0 ++ ascii ['\n'] ++ [97] ++ ascii ['\t'] <+: text := ⟨rest, by rw [← hrest, h10]⟩
      revert this
      decide

open C84Example in
/-- The hypotheses of the theorems can be fulfilled by a grammar that is not covered by **C66**. -/
example : ParserGrammar g.rules g.init ∧ ¬ Preterminals g.rules ∧ NoVariableCycle g.rules ∧ NoTerminalRoot g.rules g.init ∧
    FactorsLeOne C81Example.factorize (indexed g.rules) ∧ FactorsNeZero C81Example.factorize g.rules ∧
    ∃ R, CsRep.new C81Example.factorize (fun _ l => l.dedup) g 5 = some R :=
  ⟨grammar, by simp [Preterminals, g], noVariableCycle, noTerminalRoot, leOne, neZero, C54_new_total grammar C83Example.factorizes leOne (by decide)⟩

end Rustomata.Props
