import Verif.Proofs.CfgAutomaton
import Verif.Proofs.McfgCommand
import Verif.Proofs.Reading
import Verif.Props.RuleReads

/-!
# Property C69: the command `mcfg parse --negra`

Only property theorems, the lemmas that combine them, and the examples that show their hypotheses to be satisfiable.
-/

namespace Rustomata.Props
open Rustomata Rustomata.Spec
variable {W H : Type _}

/-- The grammars for which the command is shown to be right: the hypotheses of C68 (the automaton returns each derivation once), and the ones of C49 (the trees can
be exported: rules with terminals have no other symbols, and rules for initial nonterminals have no terminals). -/
structure McfgOk (g : PMCFG (List Nat) (List Nat) W) : Prop where
  ordered : Ordered g.rules
  short : ∀ r ∈ g.rules, ShortTrails r.composition
  nonempty : ∀ r ∈ g.rules, r.composition ≠ []
  initial : ∀ r ∈ g.rules, r.head ∈ g.initial → r.composition.length = 1
  keys : (g.rules.map PMCFGRule.key).Nodup
  separated : ∀ r ∈ g.rules, TerminalSeparated r.composition
  root : ∀ r ∈ g.rules, r.head ∈ g.initial → ∀ t, VarT.t t ∉ r.composition.flatten

section
variable [CommMonoid W] {g : PMCFG (List Nat) (List Nat) W} {a : TSA (TsaSymbol (List Nat) (List Nat)) (List Nat) W}
  {G : Agenda H (Item (TreeStack Nat) (TsInstr Nat) Nat W)} {content : H → Multiset (Item (TreeStack Nat) (TsInstr Nat) Nat W)} {empty : H}

/-- The derivations that are shown by the parses of a non-empty word. -/
theorem shown_derivations (ha : TSA.ofPmcfg g = some a) (hg : McfgOk g) (hG : G.Sound content) (hempty : content empty = 0) {w : List (List Nat)} (hw : w ≠ [])
    {m : Nat} {out : List (Item (TreeStack (TsaSymbol (List Nat) (List Nat))) (TsInstr (TsaSymbol (List Nat) (List Nat))) (List Nat) W)} {b : H}
    (hrun : a.recognise G empty w m = some (out, b)) :
    ∃ ds, ds.Nodup ∧ List.Forall₂ (fun i d => C68_shows i.conf.storage d ∧ i.conf.weight = d.weight ∧ ∃ S ∈ g.initial, Derives g.rules S d [w]) out ds := by
  have hpw := (C68_once_partial g a ha hg.ordered hg.short hg.nonempty hg.initial hg.keys hG hempty hrun).2
  have hsound := C53_ast_sound_partial g a ha hg.ordered hg.short hg.nonempty hg.initial hG hempty hrun
  have hr : ∀ i ∈ out, i.run.toVec ≠ [] := by
    unfold TSA.ofPmcfg at ha
    obtain ⟨ts, hts, rfl⟩ := Option.map_eq_some_iff.1 ha
    intro i hi hr
    obtain ⟨_, ⟨h1, _⟩, _⟩ := C16_tsa_sound ts _ hG hempty hrun i hi
    rw [exec_iff, hr] at h1
    exact hw (by simpa [wordOf] using h1.1)
  obtain ⟨ds, hds⟩ : ∃ ds, List.Forall₂ (fun i d => C68_shows i.conf.storage d ∧ i.conf.weight = d.weight ∧ ∃ S ∈ g.initial, Derives g.rules S d [w]) out ds := by
    refine exists_forall₂ _ fun i hi => ?_
    obtain ⟨m, m1, S, hS, d, d1, d2, d3⟩ := hsound i hi (hr i hi)
    exact ⟨d, ⟨m, m1, d3⟩, d2.symm, S, hS, d1⟩
  refine ⟨ds, ?_, hds⟩
  clear hsound hrun
  induction hds with
  | nil => simp
  | @cons i d l ds hh ht ih =>
    rw [List.pairwise_cons] at hpw
    rw [List.nodup_cons]
    refine ⟨fun hm => ?_, ih hpw.2 (fun i hi => hr i (by simp [hi]))⟩
    obtain ⟨j, hj, hjd⟩ := forall₂_exists_left ht hm
    obtain ⟨m, m1, m2⟩ := hh.1
    obtain ⟨m', m1', m2'⟩ := hjd.1
    obtain ⟨p, hp⟩ := hpw.1 j hj (hr i (by simp)) (hr j (by simp [hj])) m m' m1 m1'
    rw [m2, m2'] at hp
    exact hp rfl

theorem shown_exports (hg : McfgOk g) {w : List (List Nat)} (id : Nat)
    {out : List (Item (TreeStack (TsaSymbol (List Nat) (List Nat))) (TsInstr (TsaSymbol (List Nat) (List Nat))) (List Nat) W)} {ds : List (DTree (PMCFGRule (List Nat) (List Nat) W))}
    (hds : List.Forall₂ (fun i d => C68_shows i.conf.storage d ∧ i.conf.weight = d.weight ∧ ∃ S ∈ g.initial, Derives g.rules S d [w]) out ds) :
    ∃ bs, (out.mapM fun i => (toAbstractSyntaxTree i.conf.storage.toTree.1).bind fun ast =>
        (toNegra (fun s => s) (fun s => s) ast id none).map fun s => s ++ [10]) = some bs ∧ List.Forall₂ (fun d b => ExportOf (fun s => s) d.at? w w id b) ds bs := by
  induction hds with
  | nil => exact ⟨[], rfl, .nil⟩
  | @cons i d l ds hh ht ih =>
    obtain ⟨bs, h1, h2⟩ := ih
    obtain ⟨hs, _, S, hS, hd⟩ := hh
    obtain ⟨b, h3, h4⟩ := shown_export hd hg.separated (fun r hr he => hg.root r hr (he ▸ hS)) hs id
    exact ⟨b :: bs, by rw [List.mapM_cons, h3, h1]; rfl, .cons h4 h2⟩

/-- **C69, partial** No panic: for a grammar as above and a non-empty sentence, the loop over the parses does not panic, whatever the agenda is. -/
theorem C69_no_panic_partial (ha : TSA.ofPmcfg g = some a) (hg : McfgOk g) (hG : G.Sound content) (hempty : content empty = 0) {w : List (List Nat)} (hw : w ≠ [])
    (n m id : Nat) : ∃ r, mcfgSentence a G empty n m id w = some r := by
  have hrun : ∃ r, a.recognise G empty w m = some r := by
    unfold TSA.ofPmcfg at ha
    obtain ⟨ts, hts, rfl⟩ := Option.map_eq_some_iff.1 ha
    exact (C51_tsa_no_panic ts _ (.new _) hG hempty w m).1
  obtain ⟨⟨out, b⟩, hrun⟩ := hrun
  obtain ⟨ds, _, hds⟩ := shown_derivations ha hg hG hempty hw hrun
  obtain ⟨bs, h1, _⟩ := shown_exports hg id (forall₂_take hds n)
  unfold mcfgSentence
  rw [hrun]
  simp only
  rw [h1]
  simp only
  split
  · exact ⟨_, rfl⟩
  · exact ⟨_, rfl⟩

/-- **C69, partial** Soundness, whatever the agenda is (e.g. with a beam): what is printed for a sentence are at most `n` derivations of the sentence in the export
format, none of them twice. -/
theorem C69_sentence_sound_partial (ha : TSA.ofPmcfg g = some a) (hg : McfgOk g) (hG : G.Sound content) (hempty : content empty = 0) {w : List (List Nat)} (hw : w ≠ [])
    {n m id : Nat} {text : List Nat} (h : mcfgSentence a G empty n m id w = some (some text)) : ∃ ds, SomeDerivations g w n ds ∧ ExportsOf ds w id text := by
  unfold mcfgSentence at h
  cases hrun : a.recognise G empty w m with
  | none => rw [hrun] at h; cases h
  | some x =>
    obtain ⟨out, b⟩ := x
    rw [hrun] at h
    simp only at h
    obtain ⟨ds, hnd, hds⟩ := shown_derivations ha hg hG hempty hw hrun
    obtain ⟨bs, h1, h2⟩ := shown_exports hg id (forall₂_take hds n)
    rw [h1] at h
    simp only at h
    split at h
    · cases h
      refine ⟨ds.take n, ⟨hnd.sublist (List.take_sublist n ds), by simp, fun d hd => ?_⟩, bs, h2, rfl⟩
      obtain ⟨i, _, hi⟩ := forall₂_exists_left hds (List.mem_of_mem_take hd)
      exact hi.2.2
    · cases h

/-- **C69** More steps do not change what is printed. -/
theorem C69_steps {w : List (List Nat)} {n m m' id : Nat} {text : List Nat} (hm : m ≤ m') (h : mcfgSentence a G empty n m id w = some (some text))
    (h' : ∃ r, a.recognise G empty w m' = some r) : mcfgSentence a G empty n m' id w = some (some text) := by
  obtain ⟨⟨out', b'⟩, h'⟩ := h'
  obtain ⟨out, b, h1, h2, h3⟩ := Automaton.recogniseOuter_mono h' hm
  unfold mcfgSentence at h ⊢
  rw [show a.recognise G empty w m = some (out, b) from h1] at h
  rw [h']
  simp only at h ⊢
  have hout : n ≤ out.length ∨ (G.pop b).isNone → out'.take n = out.take n ∧ (n ≤ out'.length ∨ (G.pop b').isNone) := by
    rintro (hn | hp)
    · obtain ⟨l, rfl⟩ := h2
      exact ⟨by rw [List.take_append_of_le_length hn], .inl (by simp; omega)⟩
    · obtain ⟨h4, h5⟩ := h3 (by simpa using hp)
      rw [h4, ← h5]
      exact ⟨rfl, .inr hp⟩
  cases hq : (out.take n).mapM fun i => (toAbstractSyntaxTree i.conf.storage.toTree.1).bind fun ast =>
      (toNegra (fun s => s) (fun s => s) ast id none).map fun s => s ++ [10] with
  | none => rw [hq] at h; cases h
  | some texts =>
    rw [hq] at h
    simp only at h
    split at h
    · rename_i hc
      obtain ⟨h4, h5⟩ := hout hc
      rw [h4, hq]
      simp only
      rw [if_pos h5]
      exact h
    · cases h

end

section
variable [CommMonoid W] [LinearOrder W] {g : PMCFG (List Nat) (List Nat) W} {a : TSA (TsaSymbol (List Nat) (List Nat)) (List Nat) W}
  {G : Agenda H (Item (TreeStack Nat) (TsInstr Nat) Nat W)} {content : H → Multiset (Item (TreeStack Nat) (TsInstr Nat) Nat W)} {empty : H}

/-- **C69, partial** Without a beam, what is printed for a sentence are the `n` best derivations in the export format. -/
theorem C69_sentence_best_partial (ha : TSA.ofPmcfg g = some a) (hg : McfgOk g) (hle : ∀ r ∈ g.rules, ∀ u : W, u * r.weight ≤ u)
    (hG : HeapLaws G content fun i => i.conf.weight) (hempty : content empty = 0) {w : List (List Nat)} (hw : w ≠ []) {n m id : Nat} {text : List Nat}
    (h : mcfgSentence a G empty n m id w = some (some text)) : ∃ ds, BestDerivations g w n ds ∧ ExportsOf ds w id text := by
  have hGs := hG.lossless.sound
  unfold mcfgSentence at h
  cases hrun : a.recognise G empty w m with
  | none => rw [hrun] at h; cases h
  | some x =>
    obtain ⟨out, b⟩ := x
    rw [hrun] at h
    simp only at h
    obtain ⟨ds, hnd, hds⟩ := shown_derivations ha hg hGs hempty hw hrun
    obtain ⟨bs, h1, h2⟩ := shown_exports hg id (forall₂_take hds n)
    rw [h1] at h
    simp only at h
    split at h
    · rename_i hfin
      cases h
      have hwt : ∀ ts, tsaTransitions g = some ts → ∀ t ∈ ts, ∀ u : W, u * t.weight ≤ u := by
        intro ts hts t ht u
        obtain ⟨m1, _⟩ := tsaTransitions_mem hts hg.ordered hg.short
        cases (m1 t).1 ht with
        | init hr _ => exact hle _ hr u
        | fin => simp
        | push _ _ _ hr _ => exact hle _ hr u
        | up => simp
        | down => simp
      have hsorted : ds.Pairwise fun d e => e.weight ≤ d.weight := by
        have ha' := ha
        unfold TSA.ofPmcfg at ha'
        obtain ⟨ts, hts, rfl⟩ := Option.map_eq_some_iff.1 ha'
        have := (C18_tsa_best_first ts _ (hwt ts hts) hG hempty hrun).1
        clear h1 h2 hnd hrun hfin
        induction hds with
        | nil => simp
        | @cons i d l ds hh ht ih =>
          rw [List.pairwise_cons] at this ⊢
          refine ⟨fun e he => ?_, ih this.2⟩
          obtain ⟨j, hj, hje⟩ := forall₂_exists_left ht he
          rw [← hh.2.1, ← hje.2.1]
          exact this.1 j hj
      refine ⟨ds.take n, ⟨⟨hnd.sublist (List.take_sublist n ds), by simp, fun d hd => ?_⟩, hsorted.sublist (List.take_sublist n ds), ?_⟩, bs, h2, rfl⟩
      · obtain ⟨i, _, hi⟩ := forall₂_exists_left hds (List.mem_of_mem_take hd)
        exact hi.2.2
      · intro S hS d hd
        have huniq : ∀ {i d'}, C68_shows i d → C68_shows i d' → (∃ S ∈ g.initial, Derives g.rules S d' [w]) → d = d' := by
          rintro i d' ⟨m, m1, m2⟩ ⟨m', m1', m2'⟩ ⟨S', _, hd'⟩
          rw [m1, Option.some_inj] at m1'
          subst m1'
          exact C68_derivation hg.keys hd hd' fun p => by rw [← m2, m2']
        have hlen := hds.length_eq
        have hmem : ∀ i ∈ out, C68_shows i.conf.storage d → d ∈ ds := by
          intro i hi hid
          obtain ⟨d', hd', h3⟩ := forall₂_exists_right hds hi
          rwa [huniq hid h3.1 h3.2.2]
        have hkey : d ∈ ds ∨ n ≤ ds.length ∧ ∀ e ∈ ds, d.weight ≤ e.weight := by
          by_cases hdm : d ∈ ds
          · exact .inl hdm
          · refine .inr ?_
            rcases hfin with hn | hp
            · refine ⟨by omega, fun e he => ?_⟩
              by_contra hlt
              rw [not_le] at hlt
              obtain ⟨x, hx, hxe⟩ := forall₂_exists_left hds he
              obtain ⟨l₁, l₂, rfl⟩ := List.append_of_mem hx
              have ha' := ha
              unfold TSA.ofPmcfg at ha'
              obtain ⟨ts, hts, rfl⟩ := Option.map_eq_some_iff.1 ha'
              obtain ⟨m', b', hrun'⟩ := Automaton.recogniseOuter_prefix hrun (l := l₁ ++ [x]) ⟨l₂, by simp⟩
              obtain ⟨run, s, hr, hacc, hm⟩ := C28_complete_partial g ts hts hg.ordered hg.short hg.nonempty hS hd
              have hv : (Pushdown.ofSlice run).toVec = run := by unfold Pushdown.ofSlice; rw [Pushdown.toVec_foldl]; simp
              have := (C18_tsa_best_first ts _ (hwt ts hts) hG hempty hrun').2 l₁ x rfl ⟨⟨[], s, d.weight⟩, Pushdown.ofSlice run⟩ rfl (by rw [hv]; exact hacc)
                (by rw [hxe.2.1]; exact hlt)
              exact hdm (hmem _ (List.mem_append_left _ this) hm)
            · obtain ⟨i, hi, _, hm⟩ := C53_ast_complete_partial g a ha hg.ordered hg.short hg.nonempty hG.lossless hempty hrun (by simpa using hp) hS hd
              exact absurd (hmem i hi hm) hdm
        rcases hkey with hdm | ⟨h3, h4⟩
        · by_cases hdt : d ∈ ds.take n
          · exact .inl hdt
          · right
            have hdd : d ∈ ds.drop n := by
              rw [← List.take_append_drop n ds, List.mem_append] at hdm
              exact hdm.resolve_left hdt
            refine ⟨?_, fun e he => ?_⟩
            · have : n < ds.length := by
                by_contra hn
                rw [List.drop_eq_nil_of_le (by omega)] at hdd
                simp at hdd
              rw [List.length_take]
              omega
            · rw [← List.take_append_drop n ds, List.pairwise_append] at hsorted
              exact hsorted.2.2 e he d hdd
        · exact .inr ⟨by rw [List.length_take]; omega, fun e he => h4 e (List.mem_of_mem_take he)⟩
    · cases h

end

section
variable [CommMonoid W] {a : TSA (TsaSymbol (List Nat) (List Nat)) (List Nat) W} {G : Agenda H (Item (TreeStack Nat) (TsInstr Nat) Nat W)} {empty : H} {n m : Nat}

theorem mcfgLines_some {ls : List (List Nat × Nat)} {text : List Nat} (h : mcfgLines a G empty n m ls = some (some text)) :
    ∃ answers, List.Forall₂ (fun x answer => mcfgSentence a G empty n m (x.2 + 1) (splitWhite x.1) = some (some answer)) ls answers ∧
      text = (answers.map fun t => t ++ [10]).flatten := by
  induction ls generalizing text with
  | nil => cases h; exact ⟨[], .nil, rfl⟩
  | cons x ls ih =>
    obtain ⟨line, i⟩ := x
    unfold mcfgLines at h
    split at h
    · cases h
    · cases h
    · rename_i t ht
      obtain ⟨o, h1, h2⟩ := Option.map_eq_some_iff.1 h
      obtain ⟨rest, rfl, rfl⟩ := Option.map_eq_some_iff.1 h2
      obtain ⟨answers, h3, rfl⟩ := ih h1
      exact ⟨t :: answers, .cons ht h3, by simp⟩

theorem mcfgLines_no_panic {ls : List (List Nat × Nat)} (h : ∀ x ∈ ls, ∃ r, mcfgSentence a G empty n m (x.2 + 1) (splitWhite x.1) = some r) :
    ∃ r, mcfgLines a G empty n m ls = some r := by
  induction ls with
  | nil => exact ⟨_, rfl⟩
  | cons x ls ih =>
    obtain ⟨line, i⟩ := x
    obtain ⟨r, hr⟩ := h (line, i) (by simp)
    obtain ⟨r', hr'⟩ := ih fun x hx => h x (by simp [hx])
    unfold mcfgLines
    simp only at hr
    rw [hr]
    cases r with
    | none => exact ⟨_, rfl⟩
    | some t => simp only [hr', Option.map_some]; exact ⟨_, rfl⟩

theorem mcfgCommand_lines {cw : Codec W} {g : PMCFG (List Nat) (List Nat) W} {grammar corpus : List Nat}
    (hgr : GrammarFile stringCodec (PmcfgRuleReads stringCodec stringCodec cw) g.initial g.rules grammar) (ha : TSA.ofPmcfg g = some a) :
    mcfgCommand cw G empty n m grammar corpus = mcfgLines a G empty n m (lines corpus).zipIdx := by
  unfold mcfgCommand
  rw [C65_pmcfg.2 hgr]
  simp only
  rw [ha, Option.bind_some]

/-- What holds for the output of each sentence holds for the output of the command. -/
theorem mcfgCommand_answers {cw : Codec W} {g : PMCFG (List Nat) (List Nat) W} {grammar corpus : List Nat}
    (hgr : GrammarFile stringCodec (PmcfgRuleReads stringCodec stringCodec cw) g.initial g.rules grammar) (ha : TSA.ofPmcfg g = some a) {ls : List (List Nat)}
    (hls : LinesOf ls corpus) {P : List (List Nat) → Nat → List Nat → Prop}
    (hP : ∀ line ∈ ls, ∀ w id, WordsText w line → (∃ r, mcfgSentence a G empty n m id w = some r) ∧
      ∀ text, mcfgSentence a G empty n m id w = some (some text) → P w id text) :
    ∃ r, mcfgCommand cw G empty n m grammar corpus = some r ∧ ∀ text, r = some text → ∃ answers : List (List Nat), answers.length = ls.length ∧
      (∀ (i : Nat) line answer, ls[i]? = some line → answers[i]? = some answer → ∃ w, WordsText w line ∧ P w (i + 1) answer) ∧
      text = (answers.map fun t => t ++ [10]).flatten := by
  rw [mcfgCommand_lines hgr ha, lines_iff.2 hls]
  obtain ⟨r, hr⟩ := mcfgLines_no_panic (a := a) (G := G) (empty := empty) (n := n) (m := m) (ls := ls.zipIdx) (fun x hx => by
    obtain ⟨line, i⟩ := x
    have := List.mem_zipIdx_iff_getElem?.1 hx
    exact (hP line (List.mem_of_getElem? this) _ _ (splitWhite_iff.1 rfl)).1)
  refine ⟨r, hr, ?_⟩
  rintro text rfl
  obtain ⟨answers, h1, rfl⟩ := mcfgLines_some hr
  refine ⟨answers, by simpa using h1.length_eq.symm, fun i line answer hl ha => ?_, rfl⟩
  have h2 : (ls.zipIdx)[i]? = some (line, i) := by rw [List.getElem?_zipIdx, hl]; simp
  obtain ⟨hi, h3⟩ := List.getElem?_eq_some_iff.1 h2
  obtain ⟨hi', h4⟩ := List.getElem?_eq_some_iff.1 ha
  have h5 := (List.forall₂_iff_get.1 h1).2 i hi hi'
  simp only [List.get_eq_getElem, h3, h4] at h5
  have hw := splitWhite_iff.1 (rfl : splitWhite line = splitWhite line)
  exact ⟨_, hw, (hP line (List.mem_of_getElem? hl) _ _ hw).2 _ h5⟩

/-- **C69, partial** The command with a beam, or with any other agenda: the lines are answered one after the other, each followed by an empty line, and the answer to
the `i`-th line are at most `n` derivations in the export format with the number `i + 1`. There is no panic. -/
theorem C69_command_sound_partial {cw : Codec W} {g : PMCFG (List Nat) (List Nat) W} {grammar corpus : List Nat}
    (hgr : GrammarFile stringCodec (PmcfgRuleReads stringCodec stringCodec cw) g.initial g.rules grammar) (ha : TSA.ofPmcfg g = some a) (hg : McfgOk g)
    {content : H → Multiset (Item (TreeStack Nat) (TsInstr Nat) Nat W)} (hG : G.Sound content) (hempty : content empty = 0) {ls : List (List Nat)}
    (hls : LinesOf ls corpus) (hblank : ∀ line ∈ ls, ¬ WordsText [] line) :
    ∃ r, mcfgCommand cw G empty n m grammar corpus = some r ∧ ∀ text, r = some text → ∃ answers : List (List Nat), answers.length = ls.length ∧
      (∀ (i : Nat) line answer, ls[i]? = some line → answers[i]? = some answer →
        ∃ w, WordsText w line ∧ ∃ ds, SomeDerivations g w n ds ∧ ExportsOf ds w (i + 1) answer) ∧
      text = (answers.map fun t => t ++ [10]).flatten := by
  refine mcfgCommand_answers (P := fun w id answer => ∃ ds, SomeDerivations g w n ds ∧ ExportsOf ds w id answer) hgr ha hls fun line hl w id hw => ?_
  have hne : w ≠ [] := by rintro rfl; exact hblank line hl hw
  exact ⟨C69_no_panic_partial ha hg hG hempty hne n m id, fun text h => C69_sentence_sound_partial ha hg hG hempty hne h⟩

/-- **C69, partial** The command without a beam: the answer to the `i`-th line are the `n` best derivations. -/
theorem C69_command_best_partial [LinearOrder W] {cw : Codec W} {g : PMCFG (List Nat) (List Nat) W} {grammar corpus : List Nat}
    (hgr : GrammarFile stringCodec (PmcfgRuleReads stringCodec stringCodec cw) g.initial g.rules grammar) (ha : TSA.ofPmcfg g = some a) (hg : McfgOk g)
    (hle : ∀ r ∈ g.rules, ∀ u : W, u * r.weight ≤ u)
    {content : H → Multiset (Item (TreeStack Nat) (TsInstr Nat) Nat W)} (hG : HeapLaws G content fun i => i.conf.weight) (hempty : content empty = 0)
    {ls : List (List Nat)} (hls : LinesOf ls corpus) (hblank : ∀ line ∈ ls, ¬ WordsText [] line) :
    ∃ r, mcfgCommand cw G empty n m grammar corpus = some r ∧ ∀ text, r = some text → ∃ answers : List (List Nat), answers.length = ls.length ∧
      (∀ (i : Nat) line answer, ls[i]? = some line → answers[i]? = some answer →
        ∃ w, WordsText w line ∧ ∃ ds, BestDerivations g w n ds ∧ ExportsOf ds w (i + 1) answer) ∧
      text = (answers.map fun t => t ++ [10]).flatten := by
  refine mcfgCommand_answers (P := fun w id answer => ∃ ds, BestDerivations g w n ds ∧ ExportsOf ds w id answer) hgr ha hls fun line hl w id hw => ?_
  have hne : w ≠ [] := by rintro rfl; exact hblank line hl hw
  exact ⟨C69_no_panic_partial ha hg hG.lossless.sound hempty hne n m id, fun text h => C69_sentence_best_partial ha hg hle hG hempty hne h⟩

/-- **C69** A file that is not a grammar, or a grammar without automaton (C28), leads to a panic. -/
theorem C69_grammar {cw : Codec W} {grammar corpus : List Nat}
    (h : ¬ ∃ g : PMCFG (List Nat) (List Nat) W, GrammarFile stringCodec (PmcfgRuleReads stringCodec stringCodec cw) g.initial g.rules grammar ∧
      TSA.ofPmcfg g ≠ none) : mcfgCommand cw G empty n m grammar corpus = none := by
  unfold mcfgCommand
  split
  · rename_i g hg
    rw [C65_pmcfg] at hg
    have : TSA.ofPmcfg g = none := by
      by_contra hc
      exact h ⟨g, hg, hc⟩
    rw [this]
    rfl
  · rfl

/-- The initial item is the first one that is found. -/
theorem recognise_first {K S I T A : Type _} [DecidableEq K] [DecidableEq T] {M : Automaton K S I T W} {G : Agenda A (Item S I T W)}
    {content : A → Multiset (Item S I T W)} (hG : G.Lossless content) {empty : A} (hempty : content empty = 0) {w : List T}
    (ht : M.isTerminal ⟨w, M.initial, 1⟩ = true) {m : Nat} (hm : 0 < m) {out : List (Item S I T W)} {b : A}
    (h : M.recognise G empty (some w) m = some (out, b)) : ∃ out', out = ⟨⟨w, M.initial, 1⟩, Pushdown.new⟩ :: out' := by
  obtain ⟨m, rfl⟩ := Nat.exists_eq_succ_of_ne_zero (Nat.pos_iff_ne_zero.1 hm)
  obtain ⟨⟨r, c⟩, h1, h2⟩ := Option.map_eq_some_iff.1 h
  simp only [Prod.mk.injEq] at h2
  obtain ⟨rfl, rfl⟩ := h2
  have hc : content (G.extend empty (M.initItem (some w))) = {⟨⟨w, M.initial, 1⟩, Pushdown.new⟩} := by
    show content (G.push empty _) = _
    rw [hG.push, hempty]; rfl
  unfold Search.runP at h1
  cases hp : G.pop (G.extend empty (M.initItem (some w))) with
  | none =>
    have := hG.pop_none _ hp
    rw [hc] at this
    simp at this
  | some x =>
    obtain ⟨x, a'⟩ := x
    have h3 := hG.pop_some _ _ _ hp
    rw [hc] at h3
    have h4 : x = ⟨⟨w, M.initial, 1⟩, Pushdown.new⟩ := by
      have : x ∈ x ::ₘ content a' := Multiset.mem_cons_self _ _
      rw [← h3] at this
      simpa using this
    rw [hp] at h1
    simp only at h1
    split at h1
    · cases h1
    · split at h1
      · cases h1
      · simp only [Option.some.injEq, Prod.mk.injEq] at h1
        obtain ⟨rfl, rfl⟩ := h1
        rw [h4, List.filter_cons_of_pos (by exact ht)]
        exact ⟨_, rfl⟩

theorem recognise_empty_word {g : PMCFG (List Nat) (List Nat) W} (ha : TSA.ofPmcfg g = some a)
    {content : H → Multiset (Item (TreeStack Nat) (TsInstr Nat) Nat W)} (hG : G.Lossless content) (hempty : content empty = 0) (hm : 0 < m)
    {out : List (Item (TreeStack (TsaSymbol (List Nat) (List Nat))) (TsInstr (TsaSymbol (List Nat) (List Nat))) (List Nat) W)} {b : H}
    (hrun : a.recognise G empty [] m = some (out, b)) : ∃ i out', out = i :: out' ∧ i.conf.storage = TreeStack.new .initial := by
  unfold TSA.ofPmcfg at ha
  obtain ⟨ts, hts, rfl⟩ := Option.map_eq_some_iff.1 ha
  obtain ⟨L, h1, h2, h3, h4⟩ := TSA.new_represents (W := W) ts (TreeStack.new .initial)
  obtain ⟨out0, h5, h6⟩ := h4.recogniseOuter_some hrun
  have h7 : CRel (W := W) (TSA.new ts (TreeStack.new .initial)).tInt.Rel (TreeStack.Rel (TSA.new ts (TreeStack.new .initial)).aInt.Rel)
      ⟨[], (TSA.new ts (TreeStack.new .initial)).automaton.initial, 1⟩ ⟨[], TreeStack.new .initial, 1⟩ := ⟨.nil, rfl, h4.initial⟩
  obtain ⟨out1, rfl⟩ := recognise_first hG hempty ((h4.terminal _ _ h7).2 ⟨rfl, rfl⟩) hm h5
  cases h6 with
  | cons h8 h9 => exact ⟨_, _, rfl, h4.uS.2 h8.conf.storage h4.initial⟩

/-- **C69, violated** For the empty sentence, that is, for a line without words, the first parse is the empty tree, whose export panics, whatever the grammar is. -/
theorem C69_empty_violated {g : PMCFG (List Nat) (List Nat) W} (ha : TSA.ofPmcfg g = some a)
    {content : H → Multiset (Item (TreeStack Nat) (TsInstr Nat) Nat W)} (hG : G.Lossless content) (hempty : content empty = 0) (hn : 0 < n) (hm : 0 < m) (id : Nat) :
    mcfgSentence a G empty n m id [] = none := by
  unfold mcfgSentence
  cases hrun : a.recognise G empty [] m with
  | none => rfl
  | some x =>
    obtain ⟨out, b⟩ := x
    obtain ⟨i, out', rfl, hi⟩ := recognise_empty_word ha hG hempty hm hrun
    obtain ⟨n, rfl⟩ := Nat.exists_eq_succ_of_ne_zero (Nat.pos_iff_ne_zero.1 hn)
    have : ((toAbstractSyntaxTree i.conf.storage.toTree.1).bind fun ast =>
        (toNegra (fun s => s) (fun s => s) ast id none).map fun s => s ++ [10]) = none := by
      rw [hi]
      rfl
    simp only [List.take_succ_cons, List.mapM_cons, this]
    rfl

end

open C48Example C65Example

/-- The full claim **C69** for the grammars with `P` and the lines with `Q`: the command does not panic and prints the `n` best derivations of each line in the export
format. -/
def C69_claim_for (P : PMCFG (List Nat) (List Nat) Nat → Prop) (Q : List Nat → Prop) : Prop :=
  ∀ (g : PMCFG (List Nat) (List Nat) Nat) (a : TSA (TsaSymbol (List Nat) (List Nat)) (List Nat) Nat) (grammar corpus : List Nat) (ls : List (List Nat)) (n m : Nat),
    GrammarFile stringCodec (PmcfgRuleReads stringCodec stringCodec num) g.initial g.rules grammar → TSA.ofPmcfg g = some a → P g →
    (∀ r ∈ g.rules, ∀ u : Nat, u * r.weight ≤ u) → LinesOf ls corpus → (∀ line ∈ ls, Q line) →
    ∃ r, mcfgCommand num (listHeap fun i => i.conf.weight) [] n m grammar corpus = some r ∧ ∀ text, r = some text →
      ∃ answers : List (List Nat), answers.length = ls.length ∧
      (∀ (i : Nat) line answer, ls[i]? = some line → answers[i]? = some answer →
        ∃ w, WordsText w line ∧ ∃ ds, BestDerivations g w n ds ∧ ExportsOf ds w (i + 1) answer) ∧
      text = (answers.map fun t => t ++ [10]).flatten

/-- The full claim **C69**: for all grammars and all lines. -/
def C69_claim : Prop := C69_claim_for (fun _ => True) (fun _ => True)

/-- **C69, partial** The claim holds for the grammars above and for lines with at least one word. -/
theorem C69_claim_partial : C69_claim_for McfgOk fun line => ¬ WordsText [] line := fun _ _ _ _ _ _ _ hgr ha hg hle hls hb =>
  C69_command_best_partial hgr ha hg hle (listHeap_laws _) rfl hls hb

namespace C69Example

/-- `S → A A`, `S → B`, `B → A, A`, `A → a`, `A → b`. -/
def grammar : List Nat := bytes "initial: [S]\nS -> [[Var 0 0, Var 1 0]] (A, A)\nS -> [[Var 0 0, Var 0 1]] (B)\nB -> [[Var 0 0], [Var 1 0]] (A, A)\nA -> [[T a]] ()\nA -> [[T b]] ()\n"

def S := bytes "S"
def A := bytes "A"
def B := bytes "B"
def a := bytes "a"
def b := bytes "b"

def g : PMCFG (List Nat) (List Nat) Nat :=
  ⟨[S], [⟨S, [A, A], [[.var 0 0, .var 1 0]], 1⟩, ⟨S, [B], [[.var 0 0, .var 0 1]], 1⟩, ⟨B, [A, A], [[.var 0 0], [.var 1 0]], 1⟩, ⟨A, [], [[.t a]], 1⟩, ⟨A, [], [[.t b]], 1⟩]⟩

theorem reads : GrammarFile stringCodec (PmcfgRuleReads stringCodec stringCodec num) g.initial g.rules grammar := (grammarFromStr_iff fun _ _ => C65_pmcfg_rule).1 (by decide +kernel)

theorem hasAutomaton : ∃ a, TSA.ofPmcfg g = some a := by
  have : (TSA.ofPmcfg g).isSome = true := by decide +kernel
  exact Option.isSome_iff_exists.1 this

theorem ordered : Ordered g.rules := by
  unfold Ordered
  intro r hr i A' h
  have hi : i < r.tail.length := (List.getElem?_eq_some_iff.1 h).1
  have : ∀ r ∈ g.rules, ∀ i < r.tail.length, ∀ r' ∈ g.rules, r.tail[i]? = some r'.head →
      ((varsOf r.composition).filter (·.1 = i)).map (·.2) = List.range r'.composition.length := by decide +kernel
  intro r' hr' he
  exact this r hr i hi r' hr' (he ▸ h)

theorem ok : McfgOk g where
  ordered := ordered
  short := by
    intro r hr
    have h1 : ∀ r ∈ g.rules, ∀ comp ∈ r.composition, comp ≠ [] ∧ (2 ≤ comp.length → ∀ x ∈ comp, ∀ t ∈ [a, b], x ≠ .t t) ∧ ∀ x ∈ comp, x ∈ [VarT.var 0 0, .var 0 1, .var 1 0, .t a, .t b] := by
      decide +kernel
    constructor
    · rintro comp hc l x y rfl
      obtain ⟨_, h2, h3⟩ := h1 r hr _ hc
      have h4 := h3 (.t x) (by simp)
      simp only [List.mem_cons, reduceCtorEq, VarT.t.injEq, List.not_mem_nil, or_false, false_or] at h4
      exact h2 (by simp) (.t x) (by simp) x (by simpa using h4) rfl
    · intro j hj
      exact absurd rfl (h1 r hr _ (List.mem_of_getElem? hj)).1
  nonempty := by decide +kernel
  initial := by decide +kernel
  keys := by decide +kernel
  separated := by
    intro r hr
    simp only [g, List.mem_cons, List.not_mem_nil, or_false] at hr
    rcases hr with rfl | rfl | rfl | rfl | rfl
    · exact .inr (by simp)
    · exact .inr (by simp)
    · exact .inr (by simp)
    · exact .inl ⟨a, rfl⟩
    · exact .inl ⟨b, rfl⟩
  root := by
    intro r hr hi t
    simp only [g, List.mem_cons, List.not_mem_nil, or_false] at hr
    rcases hr with rfl | rfl | rfl | rfl | rfl
    · simp
    · simp
    · exact absurd hi (by decide)
    · exact absurd hi (by decide)
    · exact absurd hi (by decide)

/-- `S → a`. -/
def root : PMCFG (List Nat) (List Nat) Nat := ⟨[S], [⟨S, [], [[.t a]], 1⟩]⟩

end C69Example

open C69Example in
/-- **C69** is violated by lines without words, even for the grammars above. -/
theorem C69_violated : ¬ C69_claim_for McfgOk fun _ => True := by
  intro h
  obtain ⟨a, ha⟩ := hasAutomaton
  obtain ⟨r, h1, _⟩ := h g a grammar (bytes "\n") [[]] 1 1 reads ha ok (fun r hr u => by rw [(by decide +kernel : ∀ r ∈ g.rules, r.weight = 1) r hr, Nat.mul_one]) (lines_iff.1 (by decide)) (fun _ _ => trivial)
  rw [mcfgCommand_lines reads ha, show lines (bytes "\n") = [[]] by decide] at h1
  have h2 := C69_empty_violated (n := 1) (m := 1) ha (listHeap_laws (fun i : Item (TreeStack Nat) (TsInstr Nat) Nat Nat => i.conf.weight)).lossless rfl (by decide) (by decide) 1
  have h3 : splitWhite [] = [] := by decide
  simp only [List.zipIdx_cons, mcfgLines, h3, Nat.zero_add, h2] at h1
  cases h1

open C69Example in
/-- **C69** is violated by terminal rules for initial nonterminals: `S → a`, and the sentence `a`. -/
theorem C69_root_violated : ¬ C69_claim_for (fun _ => True) fun line => ¬ WordsText [] line := by
  intro h
  have ha : ∃ a, TSA.ofPmcfg root = some a := by
    have : (TSA.ofPmcfg root).isSome = true := by decide +kernel
    exact Option.isSome_iff_exists.1 this
  obtain ⟨a, ha⟩ := ha
  obtain ⟨r, h1, _⟩ := h root a (bytes "initial: [S]\nS -> [[T a]] ()") (bytes "a\n") [[97]] 1 5 ((grammarFromStr_iff fun _ _ => C65_pmcfg_rule).1 (by decide +kernel)) ha trivial (fun r hr u => by rw [(by decide +kernel : ∀ r ∈ root.rules, r.weight = 1) r hr, Nat.mul_one])
    (lines_iff.1 (by decide)) (by
      intro line hl hw
      rw [List.mem_singleton.1 hl] at hw
      have := splitWhite_iff.2 hw
      revert this
      decide)
  have h2 : mcfgCommand num (listHeap fun i => i.conf.weight) [] 1 5 (bytes "initial: [S]\nS -> [[T a]] ()") (bytes "a\n") = none := by decide +kernel
  rw [h2] at h1
  cases h1

open C69Example in
/-- The two best derivations of a sentence, and a sentence without derivation. -/
example : mcfgCommand num (listHeap fun i => i.conf.weight) [] 2 30 grammar (bytes "a b\na\n") = some (some (bytes
    "#BOS 1\na\tA\t--\t--\t0\nb\tA\t--\t--\t0\n#EOS 1\n#BOS 1\na\tA\t--\t--\t500\nb\tA\t--\t--\t500\n#500\tB\t--\t--\t0\n#EOS 1\n\n\n")) := by
  decide +kernel

end Rustomata.Props
