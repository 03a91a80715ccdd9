import Verif.Proofs.CsLong
import Verif.Props.CsCommand
import Verif.Props.CsFallback

/-!
# Property C82: the Chomsky-Schützenberger parser for sentences of 256 and more words
-/

namespace Rustomata.Props
open Spec

section
variable {N T W : Type _} [DecidableEq T] [LinearOrderedCommMonoidWithZero W] {R : CsRep N T W}

/-- **C82** For sentences of at least 256 words, no derivation is returned, whatever the grammar and the options are. -/
theorem C82_no_result {word : List T} (hn : 256 ≤ word.length) (o : CsOptions W) (fuel m : Nat) :
    (∀ out, R.parses o word fuel m = some out → out = []) ∧ (∀ t, R.fallback o word fuel = some t → t = none) ∧
      ∀ r, R.debug o word fuel m = some r → r = .noparse := by
  refine ⟨fun out h => ?_, fun t h => ?_, fun r h => ?_⟩
  · unfold CsRep.parses at h
    rw [Option.bind_eq_some_iff] at h
    obtain ⟨vs, h1, h2⟩ := h
    rw [generate_long hn h1, untilNone_replicate] at h2
    have : o.limit ([] : List (List (Bracket BracketContent))) = [] := by
      unfold CsOptions.limit
      split <;> simp
    rw [this] at h2
    cases h2
    rfl
  · unfold CsRep.fallback at h
    rw [Option.bind_eq_some_iff] at h
    obtain ⟨vs, h1, h2⟩ := h
    rw [generate_long hn h1, untilNone_replicate] at h2
    cases h2
    rfl
  · unfold CsRep.debug at h
    rw [Option.bind_eq_some_iff] at h
    obtain ⟨vs, h1, h2⟩ := h
    rw [generate_long hn h1, untilNone_replicate] at h2
    have : o.limit ([] : List (List (Bracket BracketContent))) = [] := by
      unfold CsOptions.limit
      split <;> simp
    simp only [this, firstDeriv] at h2
    cases h2
    rfl

end

section
variable {N T W : Type _} [DecidableEq N] [DecidableEq T] [LinearOrderedCommMonoidWithZero W] [NoZeroDivisors W] {factorize : W → Nat → List W}
  {order : Nat → List Nat → List Nat} {g : Lcfrs N T W} {width : Nat} {R : CsRep N T W}

theorem generate_none_256 (hR : CsRep.new factorize order g width = some R) (ho : HashOrder order) (hfac : Factorizes factorize)
    (hg : ParserGrammar g.rules g.init) (hw : FactorsLeOne factorize (indexed g.rules)) (h0 : FactorsNeZero factorize g.rules) {word : List T}
    (hn : 256 ≤ word.length) {d : DTree (PMCFGRule N T W)} (hder : Derives g.rules g.init d [word]) (o : CsOptions W) (fuel m : Nat) :
    R.generate o word fuel m = none := by
  rcases Nat.lt_or_ge 256 word.length with h' | h'
  · unfold CsRep.generate
    split
    · rfl
    rw [fillChart_long h']
  unfold CsRep.new at hR
  split at hR
  swap
  · cases hR
  split at hR
  swap
  · cases hR
  split at hR
  swap
  · cases hR
  rename_i A masks hA hmk
  change CsAutomaton.fromGrammar factorize (indexed g.rules) g.init = some A at hA
  rw [Option.map_eq_some_iff] at hR
  obtain ⟨outs, houts, rfl⟩ := hR
  unfold CsRep.generate
  split
  · rfl
  rename_i mask hm1
  obtain ⟨e, hnum⟩ := exists_numbers hder
  obtain ⟨t, _, h1⟩ := derivation_candidate hA hfac ho hg hmk hm1 hnum hder
  rw [fillChart_256 (by omega) (C41_no_parse_lost hA hw houts h1 (derives_ne_zero hA h0 h1))]

/-- **C82** Sentences of at least 256 words that have a derivation lead to a panic, for all options. -/
theorem C82_panic (hR : CsRep.new factorize order g width = some R) (ho : HashOrder order) (hfac : Factorizes factorize)
    (hg : ParserGrammar g.rules g.init) (hw : FactorsLeOne factorize (indexed g.rules)) (h0 : FactorsNeZero factorize g.rules) {word : List T}
    (hn : 256 ≤ word.length) {d : DTree (PMCFGRule N T W)} (hder : Derives g.rules g.init d [word]) (o : CsOptions W) (fuel m : Nat) :
    R.parses o word fuel m = none ∧ R.fallback o word fuel = none ∧ R.debug o word fuel m = none := by
  have h := generate_none_256 hR ho hfac hg hw h0 hn hder o fuel
  unfold CsRep.parses CsRep.fallback CsRep.debug
  rw [h, h]
  exact ⟨rfl, rfl, rfl⟩

end

/-! ### The command -/

section
variable {N W : Type _} [DecidableEq N] [LinearOrderedCommMonoidWithZero W] {factorize : W → Nat → List W}
  {order : Nat → List Nat → List Nat} {g : Lcfrs N (List Nat) W} {width : Nat} {R : CsRep N (List Nat) W}

omit [DecidableEq N] in
/-- **C82** If the command `csparsing parse` prints something for a line with at least 256 words, then it is the message that there is no parse. -/
theorem C82_line (o : CsOptions W) (a : ParseArgs) (showN : N → List Nat) (fuel m : Nat) {i : Nat} {line : List Nat} {id : Nat} {ws sentence names : List (List Nat)}
    (hl : LineOf a.withLines i line id ws) (ht : TagsOf a.withPos ws sentence names) (hn : 256 ≤ sentence.length) {out : List Nat}
    (h : R.lineOutput o a showN fuel m line i = some out) : ∃ mode, out = noparse (fun w => w) sentence id mode ++ [10] := by
  obtain ⟨h1, h2, h3⟩ := C82_no_result (R := R) hn o fuel m
  unfold CsRep.lineOutput at h
  rw [splitLine_iff.2 hl] at h
  simp only at h
  rw [splitPos_iff.2 ⟨names, ht, rfl⟩] at h
  simp only at h
  rw [Option.map_eq_some_iff] at h
  obtain ⟨ss, h, rfl⟩ := h
  unfold CsRep.sentenceOutput at h
  split at h
  · cases hd : R.debug o sentence fuel m with
    | none => rw [hd] at h; cases h
    | some r =>
      have := h3 r hd
      subst this
      rw [hd] at h
      cases h
      exact ⟨_, by rw [List.flatten_cons, List.flatten_nil, List.append_nil]⟩
  · split at h
    swap
    · cases h
    rename_i fb trees e1 e2
    have := h1 _ e2
    subst this
    have := h2 _ e1
    subst this
    simp only [List.take_nil, List.mapM_nil] at h
    split at h
    · cases h
    · rename_i he
      cases he
    · split at h
      all_goals
        cases h
        exact ⟨_, by rw [List.flatten_cons, List.flatten_nil, List.append_nil]⟩

/-- **C82** The command panics if one line has at least 256 words and a derivation. -/
theorem C82_command [NoZeroDivisors W] (hR : CsRep.new factorize order g width = some R) (ho : HashOrder order) (hfac : Factorizes factorize)
    (hg : ParserGrammar g.rules g.init) (hw : FactorsLeOne factorize (indexed g.rules)) (h0 : FactorsNeZero factorize g.rules)
    (o : CsOptions W) (a : ParseArgs) (showN : N → List Nat) (fuel m : Nat) {text : List Nat} {ls : List (List Nat)} (hls : LinesOf ls text)
    {i : Nat} {line : List Nat} (hi : ls[i]? = some line) {id : Nat} {ws sentence names : List (List Nat)} (hl : LineOf a.withLines i line id ws)
    (ht : TagsOf a.withPos ws sentence names) (hn : 256 ≤ sentence.length) {d : DTree (PMCFGRule N (List Nat) W)} (hder : Derives g.rules g.init d [sentence]) :
    R.parseCommand o a showN fuel m text = none := by
  have h1 : R.lineOutput o a showN fuel m line i = none := by
    obtain ⟨h1, h2, h3⟩ := C82_panic hR ho hfac hg hw h0 hn hder o fuel m
    unfold CsRep.lineOutput
    rw [splitLine_iff.2 hl]
    simp only
    rw [splitPos_iff.2 ⟨names, ht, rfl⟩]
    simp only
    unfold CsRep.sentenceOutput
    simp [h1, h2, h3]
  unfold CsRep.parseCommand
  rw [lines_iff.2 hls]
  cases h : ls.zipIdx.mapM fun x => R.lineOutput o a showN fuel m x.1 x.2 with
  | none => rfl
  | some answers =>
    obtain ⟨y, _, h2⟩ := forall₂_mem_left (mapM_some_iff.1 h) (x := (line, i)) (List.mem_zipIdx_iff_getElem?.2 hi)
    simp only [h1] at h2
    cases h2

end

namespace C82Example

/-- `S → B S`, `S → b`, `B → b`. -/
def g : Lcfrs Nat Nat Nat := ⟨[⟨0, [1, 0], [[.var 0 0, .var 1 0]], 1⟩, ⟨0, [], [[.t 7]], 1⟩, ⟨1, [], [[.t 7]], 1⟩], 0⟩

theorem grammar : ParserGrammar g.rules g.init where
  lcfrs := ⟨fun A => if A = 0 ∨ A = 1 then some 1 else none, by
    refine ⟨fun A f => ?_, rfl, fun r hr => ?_⟩
    · match A with
      | 0 => simp [g, eq_comm]
      | 1 => simp [g, eq_comm]
      | A + 2 => simp [g]
    · simp only [g, List.mem_cons, List.not_mem_nil, or_false] at hr
      rcases hr with rfl | rfl | rfl
      · refine ⟨by decide, fun i j => ?_⟩
        match i with
        | 0 => simp [varsOf]
        | 1 => simp [varsOf]
        | i + 2 => simp [varsOf]
      · exact ⟨by decide, fun i j => by simp [varsOf]⟩
      · exact ⟨by decide, fun i j => by simp [varsOf]⟩⟩
  normal := by simp [NormalForm, g]
  closed := by simp [g]

theorem derives (n : Nat) : ∃ d, Derives g.rules 0 d [List.replicate (n + 1) 7] := by
  induction n with
  | zero => exact ⟨_, .node (r := ⟨0, [], [[.t 7]], 1⟩) (by simp [g]) .nil rfl⟩
  | succ n ih =>
    obtain ⟨d, hd⟩ := ih
    refine ⟨_, .node (r := ⟨0, [1, 0], [[.var 0 0, .var 1 0]], 1⟩) (by simp [g]) (.cons (.node (r := ⟨1, [], [[.t 7]], 1⟩) (by simp [g]) .nil rfl) (.cons hd .nil)) ?_⟩
    simp [compose, substAll, subst, List.replicate_succ]

/-- The hypotheses of the theorems can be fulfilled. -/
example : ∃ R, CsRep.new C45Example.factorize (fun _ l => l.dedup) g 5 = some R ∧
    ∀ n ≥ 256, ∀ o fuel m, R.parses o (List.replicate n 7) fuel m = none := by
  have hw : FactorsLeOne C45Example.factorize (indexed g.rules) := by unfold FactorsLeOne; decide
  obtain ⟨R, hR⟩ := C54_new_total (order := fun _ l => l.dedup) grammar C45Example.factorizes hw (show 5 ≤ 255 by decide)
  refine ⟨R, hR, fun n hn o fuel m => ?_⟩
  obtain ⟨d, hd⟩ := derives (n - 1)
  rw [Nat.sub_add_cancel (by omega)] at hd
  exact (C82_panic hR C54Witness.hashOrder C45Example.factorizes grammar hw (by unfold FactorsNeZero; decide) (by rw [List.length_replicate]; exact hn) hd o fuel m).1

end C82Example

end Rustomata.Props
