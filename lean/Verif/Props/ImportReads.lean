import Verif.Proofs.ImportReads

/-!
# Property C94: what the importers read from an arbitrary text

For every text, the results of reading files in the formats of disco-dop and rparse — including errors, panics and the parts of the text that are ignored — are those that are described
by relations on texts. This completes C58, which says that the importers do not always report texts that are not in the format.
-/

namespace Rustomata.Props
open Spec Nom

variable {N T W : Type _} {cn : Codec N} {ct : Codec T} {cw : Codec W}

/-- **C94** for rules in the format of disco-dop: the rules are those of the longest list of lines at the beginning of the text; the rest of the text is ignored. -/
theorem C94_rules [Div W] {s : List Nat} {g : DiscoDopGrammar N Unit W} :
    DiscoDopGrammar.fromStr cn cw s = some (some g) ↔ g.lexer = none ∧ ∃ r, ListReads LineBreak (ConstituentReads cn cw) (ConstituentPanics cn) g.constituents s r := by
  obtain ⟨c, l⟩ := g
  have h := (sepList_iff (constituentsSpec (cn := cn) (cw := cw)) constituent_consumes s).1
  unfold DiscoDopGrammar.fromStr
  simp only [← h]
  have hr : ∀ c, (parseDiscodopConstituents cn cw s).toResult = some (some c) ↔ ∃ r, sepList (tag [10]) (parseConstituent cn cw) s = .done r c := fun c => toResult_iff
  rw [← hr]
  cases (parseDiscodopConstituents cn cw s).toResult with
  | none => simp
  | some o =>
    cases o with
    | none => simp
    | some c' =>
      simp only [Option.some.injEq, DiscoDopGrammar.mk.injEq]
      exact ⟨fun ⟨h1, h2⟩ => ⟨h2.symm, h1⟩, fun ⟨h1, h2⟩ => ⟨h2, h1.symm⟩⟩

/-- **C94** for rules in the format of disco-dop: reading panics iff a line that is reached has a one at a position from 64 on in a component of its yield function. -/
theorem C94_rules_panic [Div W] {s : List Nat} :
    DiscoDopGrammar.fromStr cn cw s = none ↔ ListPanics LineBreak (ConstituentReads cn cw) (ConstituentPanics cn) s := by
  rw [← (sepList_iff (constituentsSpec (cn := cn) (cw := cw)) constituent_consumes s).2, ← toResult_none_iff]
  unfold DiscoDopGrammar.fromStr
  have hr : (parseDiscodopConstituents cn cw s).toResult = (sepList (tag [10]) (parseConstituent cn cw) s).toResult := rfl
  rw [hr]
  cases (sepList (tag [10]) (parseConstituent cn cw) s).toResult with
  | none => simp
  | some o => cases o <;> simp

theorem lexicon_result [Div W] (s : List Nat) : ∃ v, LexiconReads cw v s ∧ DiscoLexer.fromStr cn ct cw s = some (lexerEntries cn ct v) := by
  obtain ⟨h1, h2⟩ := sepList_iff (lexiconSpec (cw := cw)) lexerLine_consumes s
  have hp : sepList (tag [10]) (parseLexerLine cw) s ≠ .panic := fun h => listPanics_false (h2.mp h)
  rcases sepList_result (tag [10]) (lexerLine_consumes (cw := cw)) s with ⟨r, v, h⟩ | h
  · refine ⟨v, ⟨r, (h1 r v).mp h⟩, ?_⟩
    unfold DiscoLexer.fromStr parseDiscodopLexer mapRes
    rw [chain_done h]
    cases lexerEntries cn ct v <;> rfl
  · exact absurd h hp

theorem lexicon_unique [Div W] {s : List Nat} {v v' : List (List Nat × List (List Nat × W))} (h : LexiconReads cw v s) (h' : LexiconReads cw v' s) : v = v' := by
  obtain ⟨r, h⟩ := h
  obtain ⟨r', h'⟩ := h'
  rw [← (sepList_iff (lexiconSpec (cw := cw)) lexerLine_consumes s).1] at h h'
  rw [h, PResult.done.injEq] at h'
  exact h'.2

theorem entries_iff {v : List (List Nat × List (List Nat × W))} {l : DiscoLexer N T W} : lexerEntries cn ct v = some l ↔ List.Forall₂ (EntryOf cn ct) (wordTags v) l := by
  unfold lexerEntries
  rw [mapM_some_iff]
  have : ∀ (x : List Nat × List Nat × W) (e : T × N × W), (match ct.read x.1, cn.read x.2.1 with
    | some w, some p => some (w, p, x.2.2)
    | _, _ => none) = some e ↔ EntryOf cn ct x e := by
    rintro ⟨a, b, w⟩ ⟨e1, e2, e3⟩
    unfold EntryOf
    simp only
    cases ct.read a <;> cases cn.read b <;> simp
  exact ⟨fun h => h.imp fun x e => (this x e).mp, fun h => h.imp fun x e => (this x e).mpr⟩

/-- **C94** for lexicons: the entries are those of the longest list of lines at the beginning of the text; the rest of the text is ignored. -/
theorem C94_lexicon [Div W] {s : List Nat} {l : DiscoLexer N T W} :
    DiscoLexer.fromStr cn ct cw s = some (some l) ↔ ∃ v, LexiconReads cw v s ∧ List.Forall₂ (EntryOf cn ct) (wordTags v) l := by
  obtain ⟨v, h1, h2⟩ := lexicon_result (cn := cn) (ct := ct) (cw := cw) s
  rw [h2, Option.some.injEq, entries_iff]
  exact ⟨fun h => ⟨v, h1, h⟩, fun ⟨v', h, h'⟩ => lexicon_unique h1 h ▸ h'⟩

/-- **C94** for lexicons: there is an error iff one of the words or tags that are reached cannot be read; reading does not panic. -/
theorem C94_lexicon_error [Div W] {s : List Nat} :
    (DiscoLexer.fromStr cn ct cw s = some none ↔ ∃ v, LexiconReads cw v s ∧ ∃ x ∈ wordTags v, ct.read x.1 = none ∨ cn.read x.2.1 = none) ∧
    DiscoLexer.fromStr cn ct cw s ≠ none := by
  obtain ⟨v, h1, h2⟩ := lexicon_result (cn := cn) (ct := ct) (cw := cw) s
  have hv : lexerEntries cn ct v = none ↔ ∃ x ∈ wordTags v, ct.read x.1 = none ∨ cn.read x.2.1 = none := by
    unfold lexerEntries
    rw [mapM_none_iff]
    refine exists_congr fun x => and_congr Iff.rfl ?_
    cases ct.read x.1 <;> cases cn.read x.2.1 <;> simp
  rw [h2, Option.some.injEq, hv]
  exact ⟨⟨fun h => ⟨v, h1, h⟩, fun ⟨v', h, h'⟩ => lexicon_unique h1 h ▸ h'⟩, by simp⟩

/-- **C94** for rparse: the clauses are those of the longest nonempty list of lines at the beginning of the text; the rest of the text is ignored. -/
theorem C94_rparse {s : List Nat} {l : RparseClauses N W} :
    RparseClauses.fromStr cn cw s = some (some l) ↔ ∃ r, List1Reads LineBreak (ClauseReads cn cw) (ClausePanics cn cw) l s r := by
  unfold RparseClauses.fromStr
  rw [toResult_iff]
  exact exists_congr fun r => (sepList1_iff (clausesSpec (cn := cn) (cw := cw)) s).1 r l

/-- **C94** for rparse: reading panics iff a line that is reached is a clause with a weight or a symbol that cannot be read. -/
theorem C94_rparse_panic {s : List Nat} :
    RparseClauses.fromStr cn cw s = none ↔ ListPanics LineBreak (ClauseReads cn cw) (ClausePanics cn cw) s := by
  unfold RparseClauses.fromStr
  rw [toResult_none_iff]
  exact (sepList1_iff (clausesSpec (cn := cn) (cw := cw)) s).2

/-- **C94** for rparse: there is an error iff the text does not start with a clause. -/
theorem C94_rparse_error {s : List Nat} :
    RparseClauses.fromStr cn cw s = some none ↔ ¬ ClausePanics cn cw s ∧ ∀ x r, ¬ ClauseReads cn cw x s r := by
  rw [C58_rparse_error, ← clause_panic]
  simp only [← clause_iff]
  cases parseRparseClause cn cw s <;> simp

deriving instance DecidableEq for DiscoDopGrammar

instance : DecidableEq (RparseClauses (List Nat) ℚ) :=
  @instDecidableEqList _ (inferInstanceAs (DecidableEq (ℚ × List Nat × RparseRhs (List Nat) × List (List Bool))))

open ImportExample in
/-- The first rule of a text whose second line is not a rule is read, with a fraction as its count and with what follows the yield function in its token being ignored. -/
example : ∃ r, ListReads LineBreak (ConstituentReads str num) (ConstituentPanics str) [(.chain [83] [65], [(2, 2)], (1 / 2 : ℚ))]
    (ascii ['S', ' ', 'A', ' ', '0', '1', 'x', ' ', '1', '/', '2', '\n', 'A', ' ', 'B']) r :=
  (C94_rules (g := ⟨_, none⟩).mp (by decide +kernel)).2

open ImportExample in
/-- A one at position 64 of a component makes the program panic. -/
example : ListPanics LineBreak (ConstituentReads str num) (ConstituentPanics str) (ascii (['S', ' ', 'A', ' '] ++ List.replicate 64 '0' ++ ['1', ' ', '1'])) :=
  C94_rules_panic.mp (by decide +kernel)

open ImportExample in
/-- A lexicon of one word with two tags, the second line of which is not read. -/
example : ∃ v, LexiconReads num v (ascii ['a', ' ', 'A', ' ', '1', ' ', 'B', ' ', '2', '\n', 'b']) ∧
    List.Forall₂ (EntryOf str str) (wordTags v) [([97], [65], (1 : ℚ)), ([97], [66], 2)] :=
  C94_lexicon.mp (by decide +kernel)

open ImportExample in
/-- A clause with an empty yield function: the token after the right-hand side is ended by a line break, hence it is the yield function. -/
example : ∃ r, List1Reads LineBreak (ClauseReads str num) (ClausePanics str num) [((1 : ℚ), [83], .chain [65], [])]
    (ascii ['1', ' ', '1', ':', 'S', ' ', '-', '-', '>', ' ', 'A', ' ', '[', '[', ']', ']', '\n']) r :=
  C94_rparse.mp (by decide +kernel)

open ImportExample in
/-- At the end of the text, the same clause is not read. -/
example : ∀ x r, ¬ ClauseReads str num x (ascii ['1', ' ', '1', ':', 'S', ' ', '-', '-', '>', ' ', 'A', ' ', '[', '[', ']', ']']) r :=
  (C94_rparse_error.mp (by decide +kernel)).2

end Rustomata.Props
