import Verif.Proofs.Beam
import Verif.Props.Ends
import Verif.Props.ParseText
import Verif.Props.TsaCommand
import Verif.Props.VisitsEnd

/-!
# Property C98: recognition with a beam, in the library and in the commands

Only property theorems, the lemmas that combine them, and the examples that show their hypotheses to be satisfiable.
-/

namespace Rustomata.Props
open Rustomata Rustomata.Spec

section
variable {K S I T W H : Type _} [DecidableEq K] [DecidableEq T] [Mul W] [One W]

/-- **C98** Also with a beam, parses are returned in non-increasing weight if no transition increases a weight. -/
theorem C98_sorted [Preorder W] {heap : MinMaxHeap H (Item S I T W)} {content : H → Multiset (Item S I T W)}
    (hH : MinMaxLaws heap content fun i => i.conf.weight) (M : Automaton K S I T W) (hw : ∀ t ∈ M.transitions, ∀ u : W, u * t.weight ≤ u)
    (beam : Nat) (word : Option (List T)) (n : Nat) (out : List (Item S I T W)) (l : LimitedHeap H) (hrun : M.recogniseBeam heap beam word n = some (out, l)) :
    out.Pairwise fun i j => j.conf.weight ≤ i.conf.weight :=
  Automaton.recognise_sorted_max (LimitedHeap.agenda_sound hH) (LimitedHeap.agenda_max hH) _ M hw word n out l hrun

/-- **C98** Recognition with a beam ends if the lengths of the runs are bounded. -/
theorem C98_ends [Preorder W] {heap : MinMaxHeap H (Item S I T W)} {content : H → Multiset (Item S I T W)} {prio : Item S I T W → W}
    (hH : MinMaxLaws heap content prio) (M : Automaton K S I T W) (beam : Nat) (word : Option (List T)) {L : Nat}
    (hL : ∀ w, word = some w → ∀ ts c, IsRun M.apply M.transitions M.initial w ts c → ts.length ≤ L) :
    ∃ N, ∀ n ≥ N, ∀ out l, M.recogniseBeam heap beam word n = some (out, l) → LimitedHeap.pop heap l = none :=
  Automaton.recognise_ends (LimitedHeap.agenda_sound hH) (empty := LimitedHeap.withCapacity heap beam) hH.empty M word hL

/-- **C98** With a beam of size zero, nothing is found, and recognition ends at once: the first item is dropped already. -/
theorem C98_zero [LE W] {heap : MinMaxHeap H (Item S I T W)} {content : H → Multiset (Item S I T W)} {prio : Item S I T W → W}
    (hH : MinMaxLaws heap content prio) (M : Automaton K S I T W) (word : Option (List T)) (n : Nat) :
    ∃ l, M.recogniseBeam heap 0 word n = some ([], l) ∧ LimitedHeap.pop heap l = none := by
  have hp := LimitedHeap.zero_empty hH (M.initItem word)
  refine ⟨_, ?_, hp⟩
  unfold Automaton.recogniseBeam Automaton.recognise
  cases n with
  | zero => rfl
  | succ n => unfold Search.runP; rw [hp]; rfl

/-- **C98** If recognition without a beam ends, then all beams that are large enough give the same results, for each number of steps. -/
theorem C98_large [LE W] {heap : MinMaxHeap H (Item S I T W)} {content : H → Multiset (Item S I T W)} {prio : Item S I T W → W}
    (hH : MinMaxLaws heap content prio) (M : Automaton K S I T W) (word : Option (List T)) {N : Nat} {out : List (Item S I T W)} {h : H}
    (hrun : M.recognise heap.agenda heap.empty word N = some (out, h)) (hend : heap.popMax h = none) :
    ∃ B, ∀ beam ≥ B, ∀ n, (M.recogniseBeam heap beam word n).map Prod.fst = (M.recognise heap.agenda heap.empty word n).map Prod.fst := by
  obtain ⟨B, hB⟩ := Automaton.recognise_beam_eq hH M word N
  refine ⟨B, fun beam hb n => ?_⟩
  unfold Automaton.recogniseBeam
  have hstop : ∀ {A : Type _} {G : Agenda A (Item S I T W)} {empty a : A} {out : List (Item S I T W)}, M.recognise G empty word N = some (out, a) → G.pop a = none →
      ∀ n ≥ N, M.recognise G empty word n = some (out, a) := by
    intro A G empty a out hrun hend n hn
    unfold Automaton.recognise at hrun ⊢
    obtain ⟨⟨Y, b⟩, hr, he⟩ := Option.map_eq_some_iff.1 hrun
    simp only [Prod.mk.injEq] at he
    obtain ⟨rfl, rfl⟩ := he
    rw [Search.runP_stop hr hend hn]
    rfl
  rcases Nat.le_total n N with hn | hn
  · rw [hB beam hb n hn]
    cases M.recognise heap.agenda heap.empty word n <;> rfl
  · have h1 := hB beam hb N (le_refl _)
    rw [hrun] at h1
    rw [hstop hrun hend n hn, hstop h1 (LimitedHeap.pop_none_iff.2 hend) n hn]
    rfl

end

/-! ### `cfg parse` with a beam -/

section
variable {W H : Type _} [Monoid W] [AddMonoid W] {G G' : CFG (List Nat) (List Nat) W} {P : PDA (PushState (List Nat) (List Nat)) (List Nat) W}
  {heap : MinMaxHeap H (Item (PushDown Nat) (PdInstr Nat) Nat W)} {content : H → Multiset (Item (PushDown Nat) (PdInstr Nat) Nat W)}
  {dbg : Configuration (PushDown (PushState (List Nat) (List Nat))) (List Nat) W → List Nat}

theorem forall₂_pairwise {X Y V : Type _} [LE V] {f : X → V} {g : Y → V} {R : X → Y → Prop} (hR : ∀ x y, R x y → f x = g y) {xs : List X} {ys : List Y}
    (h : List.Forall₂ R xs ys) (hp : xs.Pairwise fun x y => f y ≤ f x) : ys.Pairwise fun x y => g y ≤ g x := by
  induction h with
  | nil => exact .nil
  | cons h1 h2 ih =>
    rw [List.pairwise_cons] at hp ⊢
    refine ⟨fun b hb => ?_, ih hp.2⟩
    obtain ⟨c, hc, hcb⟩ := forall₂_exists_left h2 hb
    rw [← hR _ _ hcb, ← hR _ _ h1]
    exact hp.1 c hc

/-- **C98** What `cfg parse` prints for a sentence with a beam: the weights of at most `n` leftmost derivations, none of them twice, the better ones first. -/
theorem C98_cfg_sentence [Preorder W] (hP : G.toPda = some P) (hM : MergedCfg G G') (hle : ∀ r ∈ G'.rules, ∀ u : W, u * r.weight ≤ u)
    (hin : ∀ S ∈ G'.initial, ∀ u : W, u * startTotal G S ≤ u) (hH : MinMaxLaws heap content fun i => i.conf.weight) (beam : Nat) {n m : Nat} {w : List (List Nat)}
    {text : List Nat} (h : cfgSentence P dbg (LimitedHeap.agenda heap) (LimitedHeap.withCapacity heap beam) n m w = some (some text)) :
    ∃ ds, SomeOf (CfgDerivation G' w) n ds ∧ (ds.Pairwise fun d e => derivationWeight G e ≤ derivationWeight G d) ∧ text = weightLines dbg G ds := by
  obtain ⟨out, a, hrun, _, rfl⟩ := cfgSentence_some h
  obtain ⟨L, _, hB⟩ := PDA.new_built hP
  obtain ⟨ds, hnd, hds⟩ := cfg_derivations hB hM (LimitedHeap.agenda_sound hH) (empty := LimitedHeap.withCapacity heap beam) hH.empty hrun
  have hs := hB.represents.sorted_max (LimitedHeap.agenda_sound hH) (LimitedHeap.agenda_max hH) (cfg_decreasing hB hM hle hin) hrun
  have hs' := forall₂_pairwise (g := derivationWeight G) (fun i d hi => by rw [hi.2.1]) hds hs
  refine ⟨ds.take n, ⟨hnd.sublist (List.take_sublist n ds), by simp, fun d hd => ?_⟩, hs'.sublist (List.take_sublist n ds),
    weightLines_eq ((forall₂_take hds n).imp fun _ _ h => h.2.1)⟩
  obtain ⟨i, _, hi⟩ := forall₂_exists_left hds (List.mem_of_mem_take hd)
  exact hi.1

/-- **C98** `cfg parse` with a beam finishes if no left recursive nonterminal is exposed by the lines of the input; the answer to each line are the weights of at most `n`
derivations, the better ones first. -/
theorem C98_cfg_command [Preorder W] {cw : Codec W} {grammar corpus : List Nat}
    (hgr : GrammarFile stringCodec (CfgRuleReads stringCodec stringCodec cw) G.initial G.rules grammar) (hM : MergedCfg G G')
    (hle : ∀ r ∈ G'.rules, ∀ u : W, u * r.weight ≤ u) (hin : ∀ S ∈ G'.initial, ∀ u : W, u * startTotal G S ≤ u)
    (hH : MinMaxLaws heap content fun i => i.conf.weight) (beam : Nat) {ls : List (List Nat)} (hls : LinesOf ls corpus)
    (hl : ∀ line ∈ ls, ∀ w, WordsText w line → ∀ v A, v <+: w → Exposed G v A → ¬ CfgLeftRecursive G A) (n : Nat) :
    ∃ answers : List (List Nat),
      List.Forall₂ (fun line answer => ∃ w, WordsText w line ∧ ∃ ds, SomeOf (CfgDerivation G' w) n ds ∧
        (ds.Pairwise fun d e => derivationWeight G e ≤ derivationWeight G d) ∧ answer = weightLines dbg G ds) ls answers ∧
      ∃ m₀, ∀ m ≥ m₀, cfgCommand cw dbg (LimitedHeap.agenda heap) (LimitedHeap.withCapacity heap beam) n m grammar corpus =
        some (some (answers.map fun t => t ++ [10]).flatten) := by
  obtain ⟨P, hP⟩ := CFG.toPda_some (W := W) G
  have hG := LimitedHeap.agenda_sound hH
  have hempty : content (LimitedHeap.withCapacity heap beam).heap = 0 := hH.empty
  obtain ⟨text, m₀, hm⟩ := cfgLines_finishes (P := P) (dbg := dbg) (ag := LimitedHeap.agenda heap) (empty := LimitedHeap.withCapacity heap beam) (n := n) (ls := ls) fun x hx =>
    C73_sentence_ends hP hG hempty n (hl x hx _ (splitWhite_iff.1 rfl))
  have hm' : ∀ m ≥ m₀, cfgCommand cw dbg (LimitedHeap.agenda heap) (LimitedHeap.withCapacity heap beam) n m grammar corpus = some (some text) := by
    intro m hm'
    rw [cfgCommand_lines hgr hP, lines_iff.2 hls]
    exact hm m hm'
  obtain ⟨r, hr, hcor⟩ := cfgCommand_answers (dbg := dbg) (n := n) (m := m₀) (ag := LimitedHeap.agenda heap) (empty := LimitedHeap.withCapacity heap beam)
    (R := fun w answer => ∃ ds, SomeOf (CfgDerivation G' w) n ds ∧ (ds.Pairwise fun d e => derivationWeight G e ≤ derivationWeight G d) ∧ answer = weightLines dbg G ds)
    hgr hP hls fun line _ w _ => ⟨C73_no_panic hP hG hempty n m₀ w, fun text h => C98_cfg_sentence hP hM hle hin hH beam h⟩
  rw [hm' m₀ (le_refl _)] at hr
  obtain ⟨answers, h1, rfl⟩ := hcor text (Option.some.inj hr).symm
  exact ⟨answers, h1, m₀, hm'⟩

theorem isNone_beam {X : Type _} {heap : MinMaxHeap H X} {h : H} {beam : Nat} :
    ((LimitedHeap.agenda heap).pop ⟨h, beam⟩).isNone = (heap.agenda.pop h).isNone := by
  rw [Bool.eq_iff_iff, Option.isNone_iff_eq_none, Option.isNone_iff_eq_none]
  exact LimitedHeap.pop_none_iff

/-- **C98** Whatever the texts are: for each number of steps, `cfg parse` does the same with each beam that is large enough as without a beam. -/
theorem C98_cfg_large [LE W] {prio : Item (PushDown Nat) (PdInstr Nat) Nat W → W} (hH : MinMaxLaws heap content prio) {cw : Codec W} (grammar corpus : List Nat) (n M : Nat) :
    ∃ B, ∀ beam ≥ B, ∀ m ≤ M, cfgCommand cw dbg (LimitedHeap.agenda heap) (LimitedHeap.withCapacity heap beam) n m grammar corpus =
      cfgCommand cw dbg heap.agenda heap.empty n m grammar corpus := by
  have hs : ∀ (P : PDA (PushState (List Nat) (List Nat)) (List Nat) W) (w : List (List Nat)), ∃ B, ∀ beam ≥ B, ∀ m ≤ M,
      cfgSentence P dbg (LimitedHeap.agenda heap) (LimitedHeap.withCapacity heap beam) n m w = cfgSentence P dbg heap.agenda heap.empty n m w := by
    intro P w
    obtain ⟨B, hB⟩ := Automaton.recogniseOuter_beam_eq hH P.automaton P.terminalToInt P.itemMap w M
    refine ⟨B, fun beam hb m hm => ?_⟩
    unfold cfgSentence PDA.recognise
    rw [hB beam hb m hm]
    cases P.automaton.recogniseOuter P.terminalToInt P.itemMap heap.agenda heap.empty w m with
    | none => rfl
    | some x => simp only [Option.map_some, isNone_beam]
  have hl : ∀ (P : PDA (PushState (List Nat) (List Nat)) (List Nat) W) (ls : List (List Nat)), ∃ B, ∀ beam ≥ B, ∀ m ≤ M,
      cfgLines P dbg (LimitedHeap.agenda heap) (LimitedHeap.withCapacity heap beam) n m ls = cfgLines P dbg heap.agenda heap.empty n m ls := by
    intro P ls
    induction ls with
    | nil => exact ⟨0, fun _ _ _ _ => rfl⟩
    | cons x ls ih =>
      obtain ⟨B₁, h1⟩ := hs P (splitWhite x)
      obtain ⟨B₂, h2⟩ := ih
      refine ⟨max B₁ B₂, fun beam hb m hm => ?_⟩
      unfold cfgLines
      rw [h1 beam (le_of_max_le_left hb) m hm, h2 beam (le_of_max_le_right hb) m hm]
  unfold cfgCommand
  split
  · rename_i g _
    cases hP : g.toPda with
    | none => exact ⟨0, fun _ _ _ _ => rfl⟩
    | some P => exact hl P (lines corpus)
  · exact ⟨0, fun _ _ _ _ => rfl⟩

end

/-! ### `tsa recognise` with a beam -/

section
variable {W H : Type _} [Monoid W] {ts : List (Transition (TsInstr (List Nat)) (List Nat) W)} {s : List Nat}
  {heap : MinMaxHeap H (Item (TreeStack Nat) (TsInstr Nat) Nat W)} {content : H → Multiset (Item (TreeStack Nat) (TsInstr Nat) Nat W)}
  {dbgWord : List (List Nat) → List Nat} {dbgRun : Pushdown (Transition (TsInstr (List Nat)) (List Nat) W) → List Nat}

/-- **C98** What `tsa recognise` prints for a sentence with a beam: at most `n` accepting runs, the better ones first. -/
theorem C98_tsa_sentence [Preorder W] (hw : ∀ t ∈ ts, ∀ u : W, u * t.weight ≤ u) (hH : MinMaxLaws heap content fun i => i.conf.weight) (beam : Nat) {n m : Nat}
    {w : List (List Nat)} {text : List Nat}
    (h : tsaSentence (TSA.new ts (.new s)) dbgWord dbgRun (LimitedHeap.agenda heap) (LimitedHeap.withCapacity heap beam) n m w = some (some text)) :
    ∃ is, is.length ≤ n ∧ (∀ i ∈ is, ParseOf (tsaDevice ts s) w i) ∧ (ts.Nodup → (is.map fun i => i.run.toVec).Nodup) ∧
      (is.Pairwise fun i j => j.conf.weight ≤ i.conf.weight) ∧ text = runsText dbgWord dbgRun w is := by
  have hG := LimitedHeap.agenda_sound hH
  have hempty : content (LimitedHeap.withCapacity heap beam).heap = 0 := hH.empty
  obtain ⟨out, a, hrun, _, rfl⟩ := tsaSentence_some h
  obtain ⟨L, h1, h2, h3, h4⟩ := TSA.new_represents (W := W) ts (.new s)
  have hw' : ∀ t ∈ (TSA.device L (.new s)).transitions, ∀ u : W, u * t.weight ≤ u := fun t ht => hw t (h2.mem_iff.1 ht)
  refine ⟨out.take n, by simp, fun i hi => C16_tsa_sound ts (.new s) hG hempty hrun i (List.mem_of_mem_take hi), fun hnd => ?_,
    (h4.sorted_max hG (LimitedHeap.agenda_max hH) hw' hrun).sublist (List.take_sublist n out), rfl⟩
  exact (h4.once hG hempty (h2.nodup_iff.2 hnd) (fun i s => TsInstr.apply_length i s) hrun).sublist ((List.take_sublist n out).map _)

/-- **C98** Whatever the texts are: for each number of steps, `tsa recognise` does the same with each beam that is large enough as without a beam. -/
theorem C98_tsa_large [LE W] {prio : Item (TreeStack Nat) (TsInstr Nat) Nat W → W} (hH : MinMaxLaws heap content prio) {cw : Codec W} (automaton corpus : List Nat) (n M : Nat) :
    ∃ B, ∀ beam ≥ B, ∀ m ≤ M, tsaCommand cw dbgWord dbgRun (LimitedHeap.agenda heap) (LimitedHeap.withCapacity heap beam) n m automaton corpus =
      tsaCommand cw dbgWord dbgRun heap.agenda heap.empty n m automaton corpus := by
  have hs : ∀ (P : TSA (List Nat) (List Nat) W) (w : List (List Nat)), ∃ B, ∀ beam ≥ B, ∀ m ≤ M,
      tsaSentence P dbgWord dbgRun (LimitedHeap.agenda heap) (LimitedHeap.withCapacity heap beam) n m w = tsaSentence P dbgWord dbgRun heap.agenda heap.empty n m w := by
    intro P w
    obtain ⟨B, hB⟩ := Automaton.recogniseOuter_beam_eq hH P.automaton P.tInt.findKey (itemMap TsInstr.integ TreeStack.integ P.tInt P.aInt) w M
    refine ⟨B, fun beam hb m hm => ?_⟩
    unfold tsaSentence TSA.recognise
    rw [hB beam hb m hm]
    cases P.automaton.recogniseOuter P.tInt.findKey (itemMap TsInstr.integ TreeStack.integ P.tInt P.aInt) heap.agenda heap.empty w m with
    | none => rfl
    | some x => simp only [Option.map_some, isNone_beam]
  have hl : ∀ (P : TSA (List Nat) (List Nat) W) (ls : List (List Nat)), ∃ B, ∀ beam ≥ B, ∀ m ≤ M,
      tsaLines P dbgWord dbgRun (LimitedHeap.agenda heap) (LimitedHeap.withCapacity heap beam) n m ls = tsaLines P dbgWord dbgRun heap.agenda heap.empty n m ls := by
    intro P ls
    induction ls with
    | nil => exact ⟨0, fun _ _ _ _ => rfl⟩
    | cons x ls ih =>
      obtain ⟨B₁, h1⟩ := hs P (splitWhite x)
      obtain ⟨B₂, h2⟩ := ih
      refine ⟨max B₁ B₂, fun beam hb m hm => ?_⟩
      unfold tsaLines
      rw [h1 beam (le_of_max_le_left hb) m hm, h2 beam (le_of_max_le_right hb) m hm]
  unfold tsaCommand
  split
  · exact hl _ (lines corpus)
  · exact ⟨0, fun _ _ _ _ => rfl⟩

end

/-! ### `mcfg parse` with a beam -/

section
variable {W H : Type _} [CommMonoid W] {g : PMCFG (List Nat) (List Nat) W} {a : TSA (TsaSymbol (List Nat) (List Nat)) (List Nat) W}
  {heap : MinMaxHeap H (Item (TreeStack Nat) (TsInstr Nat) Nat W)} {content : H → Multiset (Item (TreeStack Nat) (TsInstr Nat) Nat W)}
  {rule : PMCFGRule (List Nat) (List Nat) Unit → List Nat} {cw : Codec W}

theorem pmcfg_sorted [Preorder W] (ha : TSA.ofPmcfg g = some a) (hle : ∀ r ∈ g.rules, ∀ u : W, u * r.weight ≤ u) (hH : MinMaxLaws heap content fun i => i.conf.weight)
    {beam m : Nat} {w : List (List Nat)} {out : List (Item (TreeStack (TsaSymbol (List Nat) (List Nat))) (TsInstr (TsaSymbol (List Nat) (List Nat))) (List Nat) W)}
    {b : LimitedHeap H} (hrun : a.recognise (LimitedHeap.agenda heap) (LimitedHeap.withCapacity heap beam) w m = some (out, b)) :
    out.Pairwise fun i j => j.conf.weight ≤ i.conf.weight := by
  unfold TSA.ofPmcfg at ha
  obtain ⟨ts, hts, rfl⟩ := Option.map_eq_some_iff.1 ha
  obtain ⟨L, l1, l2, l3, l4⟩ := TSA.new_represents (W := W) ts (.new .initial)
  exact l4.sorted_max (LimitedHeap.agenda_sound hH) (LimitedHeap.agenda_max hH) (fun t ht => visit_weights hts hle t (l2.mem_iff.1 ht)) hrun

/-- **C98** What `mcfg parse` prints for a sentence with a beam: at most `n` ways to accept it, the better ones first, none twice if no two rules only differ in their
weights. -/
theorem C98_plain_sentence [Preorder W] (ha : TSA.ofPmcfg g = some a) (hle : ∀ r ∈ g.rules, ∀ u : W, u * r.weight ≤ u)
    (hH : MinMaxLaws heap content fun i => i.conf.weight) (beam : Nat) {n m : Nat} {w : List (List Nat)} {text : List Nat}
    (h : mcfgPlainSentence rule cw a (LimitedHeap.agenda heap) (LimitedHeap.withCapacity heap beam) n m w = some (some text)) :
    ∃ xs, xs.length ≤ n ∧ (∀ x ∈ xs, ShownParse g w x) ∧ ((g.rules.map PMCFGRule.key).Nodup → (xs.map Prod.fst).Nodup) ∧
      (xs.Pairwise fun x y => y.2 ≤ x.2) ∧ ShownTexts (fun r => rule r.key) cw.text xs text := by
  obtain ⟨out, b, xs, h1, h2, h3, h4, h5⟩ := mcfgPlainSentence_some ha (LimitedHeap.agenda_sound hH) (empty := LimitedHeap.withCapacity heap beam) hH.empty h
  refine ⟨xs.take n, by simp, fun x hx => ?_, fun hk => (h4 hk).sublist ((List.take_sublist n xs).map _),
    (forall₂_pairwise (fun i x hi => hi.2.1) h3 (pmcfg_sorted ha hle hH h1)).sublist (List.take_sublist n xs), h5⟩
  obtain ⟨i, _, hi⟩ := forall₂_exists_left h3 (List.mem_of_mem_take hx)
  exact hi.2.2.1

/-- **C98, partial** The same for `mcfg parse --negra`: at most `n` derivations in the export format, none of them twice, the better ones first. As for C69, this is shown for
grammars with `McfgOk` and non-empty sentences. -/
theorem C98_negra_sentence_partial [Preorder W] (ha : TSA.ofPmcfg g = some a) (hg : McfgOk g) (hle : ∀ r ∈ g.rules, ∀ u : W, u * r.weight ≤ u)
    (hH : MinMaxLaws heap content fun i => i.conf.weight) (beam : Nat) {w : List (List Nat)} (hw : w ≠ []) {n m id : Nat} {text : List Nat}
    (h : mcfgSentence a (LimitedHeap.agenda heap) (LimitedHeap.withCapacity heap beam) n m id w = some (some text)) :
    ∃ ds, SomeDerivations g w n ds ∧ (ds.Pairwise fun d e => e.weight ≤ d.weight) ∧ ExportsOf ds w id text := by
  unfold mcfgSentence at h
  cases hrun : a.recognise (LimitedHeap.agenda heap) (LimitedHeap.withCapacity heap beam) w m with
  | none => rw [hrun] at h; cases h
  | some x =>
    obtain ⟨out, b⟩ := x
    rw [hrun] at h
    simp only at h
    obtain ⟨ds, hnd, hds⟩ := shown_derivations ha hg (LimitedHeap.agenda_sound hH) (empty := LimitedHeap.withCapacity heap beam) hH.empty hw hrun
    obtain ⟨bs, h1, h2⟩ := shown_exports hg id (forall₂_take hds n)
    rw [h1] at h
    simp only at h
    split at h
    · cases h
      refine ⟨ds.take n, ⟨hnd.sublist (List.take_sublist n ds), by simp, fun d hd => ?_⟩,
        (forall₂_pairwise (fun i x hi => hi.2.1) hds (pmcfg_sorted ha hle hH hrun)).sublist (List.take_sublist n ds), bs, h2, rfl⟩
      obtain ⟨i, _, hi⟩ := forall₂_exists_left hds (List.mem_of_mem_take hd)
      exact hi.2.2
    · cases h

/-- **C98** Whatever the texts are: for each number of steps, `mcfg parse` does the same with each beam that is large enough as without a beam, with and without `--negra`. -/
theorem C98_mcfg_large [LE W] {prio : Item (TreeStack Nat) (TsInstr Nat) Nat W → W} (hH : MinMaxLaws heap content prio) (grammar corpus : List Nat) (n M : Nat) :
    ∃ B, ∀ beam ≥ B, ∀ m ≤ M,
      mcfgPlainCommand cw (LimitedHeap.agenda heap) (LimitedHeap.withCapacity heap beam) n m grammar corpus = mcfgPlainCommand cw heap.agenda heap.empty n m grammar corpus ∧
      mcfgCommand cw (LimitedHeap.agenda heap) (LimitedHeap.withCapacity heap beam) n m grammar corpus = mcfgCommand cw heap.agenda heap.empty n m grammar corpus := by
  have hr : ∀ (P : TSA (TsaSymbol (List Nat) (List Nat)) (List Nat) W) (w : List (List Nat)), ∃ B, ∀ beam ≥ B, ∀ m ≤ M,
      P.recognise (LimitedHeap.agenda heap) (LimitedHeap.withCapacity heap beam) w m = (P.recognise heap.agenda heap.empty w m).map fun r => (r.1, ⟨r.2, beam⟩) :=
    fun P w => Automaton.recogniseOuter_beam_eq hH P.automaton P.tInt.findKey (itemMap TsInstr.integ TreeStack.integ P.tInt P.aInt) w M
  have hl : ∀ (rule : PMCFGRule (List Nat) (List Nat) Unit → List Nat) (P : TSA (TsaSymbol (List Nat) (List Nat)) (List Nat) W) (ls : List (List Nat × Nat)),
      ∃ B, ∀ beam ≥ B, ∀ m ≤ M,
        mcfgPlainLines rule cw P (LimitedHeap.agenda heap) (LimitedHeap.withCapacity heap beam) n m (ls.map Prod.fst) =
          mcfgPlainLines rule cw P heap.agenda heap.empty n m (ls.map Prod.fst) ∧
        mcfgLines P (LimitedHeap.agenda heap) (LimitedHeap.withCapacity heap beam) n m ls = mcfgLines P heap.agenda heap.empty n m ls := by
    intro rule P ls
    induction ls with
    | nil => exact ⟨0, fun _ _ _ _ => ⟨rfl, rfl⟩⟩
    | cons x ls ih =>
      obtain ⟨line, i⟩ := x
      obtain ⟨B₁, h1⟩ := hr P (splitWhite line)
      obtain ⟨B₂, h2⟩ := ih
      refine ⟨max B₁ B₂, fun beam hb m hm => ?_⟩
      have h3 := h1 beam (le_of_max_le_left hb) m hm
      obtain ⟨h4, h5⟩ := h2 beam (le_of_max_le_right hb) m hm
      have e1 : mcfgPlainSentence rule cw P (LimitedHeap.agenda heap) (LimitedHeap.withCapacity heap beam) n m (splitWhite line) =
          mcfgPlainSentence rule cw P heap.agenda heap.empty n m (splitWhite line) := by
        unfold mcfgPlainSentence
        rw [h3]
        cases P.recognise heap.agenda heap.empty (splitWhite line) m with
        | none => rfl
        | some x => simp only [Option.map_some, isNone_beam]
      have e2 : mcfgSentence P (LimitedHeap.agenda heap) (LimitedHeap.withCapacity heap beam) n m (i + 1) (splitWhite line) =
          mcfgSentence P heap.agenda heap.empty n m (i + 1) (splitWhite line) := by
        unfold mcfgSentence
        rw [h3]
        cases P.recognise heap.agenda heap.empty (splitWhite line) m with
        | none => rfl
        | some x => simp only [Option.map_some, isNone_beam]
      constructor
      · rw [List.map_cons]
        unfold mcfgPlainLines
        rw [e1, h4]
      · unfold mcfgLines
        rw [e2, h5]
  have hz : ∀ ls : List (List Nat), ls.zipIdx.map Prod.fst = ls := fun ls => by simp
  unfold mcfgPlainCommand mcfgCommand
  rcases hf : PMCFG.fromStr stringCodec stringCodec cw grammar with _ | _ | g
  · exact ⟨0, fun _ _ _ _ => ⟨rfl, rfl⟩⟩
  · exact ⟨0, fun _ _ _ _ => ⟨rfl, rfl⟩⟩
  · simp only
    cases hP : TSA.ofPmcfg g with
    | none => exact ⟨0, fun _ _ _ _ => ⟨rfl, rfl⟩⟩
    | some P =>
      obtain ⟨B, hB⟩ := hl (shownRule cw g) P (lines corpus).zipIdx
      refine ⟨B, fun beam hb m hm => ?_⟩
      have := hB beam hb m hm
      rw [hz] at this
      exact this

end

/-! ### A larger beam may lose parses -/

/-- **C98, claim** A parse that is found with a beam is found with each larger beam (after enough steps). -/
def C98_claim : Prop :=
  ∀ (ts : List (Transition (FsInstr Nat) Char Nat)) (initial : Nat) (finals : List Nat) (w : List Char) (H : Type)
    (heap : MinMaxHeap H (Item Nat (FsInstr Nat) Nat Nat)) (content : H → Multiset (Item Nat (FsInstr Nat) Nat Nat)),
    MinMaxLaws heap content (fun i => OrderDual.toDual i.conf.weight) → (∀ t ∈ ts, 1 ≤ t.weight) → ∀ b b', b ≤ b' →
    ∀ n out l, (FSA.new ts initial finals).recognise (LimitedHeap.agenda heap) (LimitedHeap.withCapacity heap b) w n = some (out, l) →
    ∀ i ∈ out, ∃ n' out' l', (FSA.new ts initial finals).recognise (LimitedHeap.agenda heap) (LimitedHeap.withCapacity heap b') w n' = some (out', l') ∧ i ∈ out'

/-- Two ways lead from state 0 via state 1 to the final state 3; from state 2, only the dead ends 4 and 5 are reached, and these are cheaper than state 3. -/
private def losing : List (Transition (FsInstr Nat) Char Nat) :=
  [⟨['a'], 10, ⟨0, 1⟩⟩, ⟨['a'], 11, ⟨0, 2⟩⟩, ⟨['b'], 4, ⟨1, 3⟩⟩, ⟨['b'], 3, ⟨2, 4⟩⟩, ⟨['b'], 3, ⟨2, 5⟩⟩]

/-- **C98** The claim does not hold: with a beam of size one the parse is found, with a beam of size two it is dropped for two dead ends. -/
theorem C98_violated : ¬ C98_claim := by
  intro h
  have h1 := h losing 0 [3] ['a', 'b'] _ (listMinMax fun i => OrderDual.toDual i.conf.weight) _ (listMinMax_laws _) (by decide) 1 2 (by decide) 5
  have e1 : ((FSA.new losing 0 [3]).recognise (LimitedHeap.agenda (listMinMax fun i => OrderDual.toDual i.conf.weight))
      (LimitedHeap.withCapacity (listMinMax fun i => OrderDual.toDual i.conf.weight) 1) ['a', 'b'] 5).map (fun r => r.1.length) = some 1 := by decide +kernel
  have e2 : ((FSA.new losing 0 [3]).recognise (LimitedHeap.agenda (listMinMax fun i => OrderDual.toDual i.conf.weight))
      (LimitedHeap.withCapacity (listMinMax fun i => OrderDual.toDual i.conf.weight) 2) ['a', 'b'] 5).map (fun r => (r.1.length, r.2.heap.length)) = some (0, 0) := by
    decide +kernel
  obtain ⟨⟨out, l⟩, hr, hl⟩ := Option.map_eq_some_iff.1 e1
  obtain ⟨⟨out₂, l₂⟩, hr₂, hl₂⟩ := Option.map_eq_some_iff.1 e2
  simp only [Prod.mk.injEq, List.length_eq_zero_iff] at hl hl₂
  obtain ⟨rfl, hl₂⟩ := hl₂
  obtain ⟨i, rfl⟩ := List.length_eq_one_iff.1 hl
  obtain ⟨n', out', l', hr', hi⟩ := h1 [i] l hr i (by simp)
  rcases Nat.le_total n' 5 with hn | hn
  · obtain ⟨o, c, h2, h3, _⟩ := Automaton.recogniseOuter_mono hr₂ hn
    have := h2.symm.trans hr'
    simp only [Option.some.injEq, Prod.mk.injEq] at this
    obtain ⟨rfl, rfl⟩ := this
    rw [List.prefix_nil.1 h3] at hi
    cases hi
  · obtain ⟨o, c, h2, _, h3⟩ := Automaton.recogniseOuter_mono hr' hn
    have := h2.symm.trans hr₂
    simp only [Option.some.injEq, Prod.mk.injEq] at this
    obtain ⟨rfl, rfl⟩ := this
    obtain ⟨rfl, _⟩ := h3 (by simp [LimitedHeap.agenda, LimitedHeap.pop, hl₂, listMinMax, removeMax])
    cases hi

namespace C98Example
open C73Example C65Example C48Example

/-- The command finishes for each input and each beam. -/
example (dbg : Configuration (PushDown (PushState (List Nat) (List Nat))) (List Nat) Nat → List Nat) (beam n : Nat) {ls : List (List Nat)} {corpus : List Nat}
    (hls : LinesOf ls corpus) : ∃ answers : List (List Nat),
      List.Forall₂ (fun line answer => ∃ w, WordsText w line ∧ ∃ ds, SomeOf (CfgDerivation g' w) n ds ∧
        (ds.Pairwise fun d e => derivationWeight g e ≤ derivationWeight g d) ∧ answer = weightLines dbg g ds) ls answers ∧
      ∃ m₀, ∀ m ≥ m₀, cfgCommand num dbg (LimitedHeap.agenda (listMinMax fun i => i.conf.weight)) (LimitedHeap.withCapacity (listMinMax fun i => i.conf.weight) beam) n m
        grammar corpus = some (some (answers.map fun t => t ++ [10]).flatten) :=
  C98_cfg_command reads merged (fun r hr u => by rw [(by decide +kernel : ∀ r ∈ g'.rules, r.weight = 1) r hr, Nat.mul_one])
    (fun S hS u => by rw [startTotal_of_nodup (G := g) (by decide +kernel) hS, Nat.mul_one]) (listMinMax_laws _) beam hls (fun _ _ _ _ _ A _ _ => notLeft A) n

/-- Test: the output for `a b`, a blank line, and `b` with the beams 0, 1 and 2. -/
example : [0, 1, 2].map (fun beam => cfgCommand num (fun c => natText c.weight) (LimitedHeap.agenda (listMinMax fun i => i.conf.weight))
    (LimitedHeap.withCapacity (listMinMax fun i => i.conf.weight) beam) 2 20 grammar (bytes "a b\n\nb\n")) =
    [some (some (bytes "\n\n\n")), some (some (bytes "\n\n\n")), some (some (bytes "1\n\n1\n\n\n"))] := by
  decide +kernel

/-- Recognition with a beam in an automaton whose transitions do not increase weights, and whose runs are bounded. -/
example : ∃ B, ∀ beam ≥ B, ∀ n, ((FSA.new losing 0 [3]).automaton.recogniseBeam (listMinMax fun i => OrderDual.toDual i.conf.weight) beam (some [0, 1]) n).map Prod.fst =
    ((FSA.new losing 0 [3]).automaton.recognise (listMinMax fun i => OrderDual.toDual i.conf.weight).agenda [] (some [0, 1]) n).map Prod.fst := by
  have e : ((FSA.new losing 0 [3]).automaton.recognise (listMinMax fun i => OrderDual.toDual i.conf.weight).agenda [] (some [0, 1]) 6).map (fun r => (r.1.length, r.2.length)) =
      some (1, 0) := by decide +kernel
  obtain ⟨⟨out, h⟩, hr, hl⟩ := Option.map_eq_some_iff.1 e
  simp only [Prod.mk.injEq, List.length_eq_zero_iff] at hl
  exact C98_large (listMinMax_laws fun i => OrderDual.toDual i.conf.weight) _ _ hr (by rw [hl.2]; rfl)

end C98Example

end Rustomata.Props
