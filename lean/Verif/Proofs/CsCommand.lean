import Verif.Proofs.CsEmpty
import Verif.Spec.CsCommand
import Verif.Props.Negra
import Verif.Props.AutomatonText
import Verif.Proofs.Separate

/-!
# Proofs for the command `csparsing parse`
-/

namespace Rustomata
open Spec Props

/-! ### Lines -/

theorem splitLine_iff {line : List Nat} {withLines : Bool} {i id : Nat} {ws : List (List Nat)} :
    splitLine line withLines i = some (id, ws) ↔ LineOf withLines i line id ws := by
  unfold splitLine LineOf
  cases withLines with
  | false =>
    simp only [Bool.false_eq_true, if_false, Option.some.injEq, Prod.mk.injEq]
    rw [splitWhite_iff]
    exact ⟨fun h => ⟨h.1.symm, h.2⟩, fun h => ⟨h.1.symm, h.2⟩⟩
  | true =>
    simp only [if_true]
    constructor
    · intro h
      split at h
      · cases h
      · rename_i s words hs
        rw [Option.map_eq_some_iff] at h
        obtain ⟨n, hn, h⟩ := h
        cases h
        exact ⟨s, readUsize_inv hn, splitWhite_iff.1 hs⟩
    · rintro ⟨s, h1, h2⟩
      rw [splitWhite_iff.2 h2]
      simp only [readUsize_text h1, Option.map_some]

theorem rsplitSlash_iff {s : List Nat} {pos name : List Nat} : rsplitSlash s = some (pos, name) ↔ s = name ++ 47 :: pos ∧ 47 ∉ pos := by
  unfold rsplitSlash
  have key := List.takeWhile_append_dropWhile (p := fun b : Nat => decide (b ≠ 47)) (l := s.reverse)
  constructor
  · intro h
    split at h
    · cases h
    · rename_i b before hd
      simp only [Option.some.injEq, Prod.mk.injEq] at h
      obtain ⟨rfl, rfl⟩ := h
      have hb : b = 47 := by
        have := List.head_dropWhile_not (p := fun b : Nat => decide (b ≠ 47)) (l := s.reverse) (by rw [hd]; simp)
        simp only [hd, List.head_cons, decide_eq_false_iff_not, not_not] at this
        exact this
      subst hb
      rw [hd] at key
      refine ⟨?_, fun h47 => ?_⟩
      · have := congrArg List.reverse key
        rw [List.reverse_reverse, List.reverse_append, List.reverse_cons] at this
        exact this.symm.trans (by simp)
      · rw [List.mem_reverse] at h47
        have := List.mem_takeWhile_imp h47
        simp at this
  · rintro ⟨rfl, h⟩
    have h1 : (name ++ 47 :: pos).reverse = pos.reverse ++ 47 :: name.reverse := by simp
    have h2 : ∀ b ∈ pos.reverse, decide (b ≠ 47) = true := fun b hb => by
      simp only [ne_eq, decide_eq_true_eq]
      rintro rfl
      exact h (List.mem_reverse.1 hb)
    rw [h1, List.dropWhile_append_of_pos h2, List.takeWhile_append_of_pos h2]
    simp

theorem splitPos_iff {ws word : List (List Nat)} {withPos : Bool} {mode : DumpMode (List Nat)} :
    splitPos ws withPos = some (word, mode) ↔ ∃ names, TagsOf withPos ws word names ∧ mode = if withPos then some names else none := by
  unfold splitPos TagsOf
  cases withPos with
  | false =>
    simp only [Bool.false_eq_true, if_false, Option.some.injEq, Prod.mk.injEq]
    constructor
    · rintro ⟨rfl, rfl⟩
      exact ⟨_, ⟨rfl, rfl⟩, rfl⟩
    · rintro ⟨names, ⟨rfl, rfl⟩, rfl⟩
      exact ⟨rfl, rfl⟩
  | true =>
    simp only [if_true]
    rw [Option.map_eq_some_iff]
    constructor
    · rintro ⟨l, h1, h2⟩
      cases h2
      rw [mapM_some_iff] at h1
      refine ⟨_, ⟨l.map Prod.swap, rfl, ?_, ?_⟩, ?_⟩
      · simp
      · rw [List.forall₂_map_right_iff]
        exact h1.imp fun s x h => rsplitSlash_iff.1 h
      · simp
    · rintro ⟨names, ⟨l, rfl, rfl, h⟩, rfl⟩
      refine ⟨l.map Prod.swap, ?_, by simp⟩
      rw [mapM_some_iff, List.forall₂_map_right_iff]
      exact h.imp fun s x h => rsplitSlash_iff.2 h

/-! ### The export -/

section
variable {N W : Type _}

theorem flatten_columns {L : Type _} {f : L → List Nat} {l : List L} : (l.map f).flatten = l.flatMap f := by rw [List.flatMap_def]

/-- The export of a tree whose rules meet the criteria and whose root is not a terminal. -/
theorem toNegra_export (showN : N → List Nat) {m : GornTree (PMCFGRule N (List Nat) W)} (hm : m.Sorted) (hcrit : meetsNegraCriteria m = true)
    {v : List (List Nat × List Nat)} (hv : Yield m.get [v]) (hroot : ∀ t, (t, []) ∉ v) (id : Nat) {withPos : Bool} {sentence names : List (List Nat)}
    (hs : v.map Prod.fst = sentence) (hl : names.length = sentence.length) (hn : withPos = false → names = sentence) :
    ∃ s, toNegra showN (fun w => w) m id (if withPos then some names else none) = some s ∧ ExportOf showN m.get sentence names id (s ++ [10]) := by
  have hlen : names.length = v.length := by rw [hl, ← hs, List.length_map]
  obtain ⟨nodes, ls, ns, h1, h2, h3, h4, h5⟩ := C49_lines m hm (if withPos then some names else none) hv (by simpa using hroot) (fun ws h => by
    cases withPos with
    | false => cases h
    | true => cases h; simp [hlen])
  have hw : exportWords (if withPos then some names else none) [v] = names := by
    cases withPos with
    | false => simp [exportWords, hs, hn rfl]
    | true => simp [exportWords]
  rw [hw] at h4
  simp only [List.flatten_cons, List.flatten_nil, List.append_nil] at h3 h4
  unfold toNegra
  rw [if_pos hcrit, h1, Option.map_some]
  refine ⟨_, rfl, v, nodes, ls.map (NegraLine.text showN fun w => w), ns.map (NegraLine.text showN fun w => w), hv, hs, h2, h3, hlen, ?_, ?_, ?_⟩
  · rw [List.forall₂_map_right_iff]
    refine h4.imp fun p l h => ?_
    obtain ⟨w, tag, parent⟩ := l
    obtain ⟨e1, ⟨r, e2, e3⟩, e4⟩ := h
    simp only at e1 e3 e4
    subst e1 e3 e4
    exact ⟨r, e2, rfl⟩
  · rw [List.forall₂_map_right_iff]
    refine h5.imp fun a l h => ?_
    obtain ⟨w, tag, parent⟩ := l
    obtain ⟨e1, ⟨r, e2, e3⟩, e4⟩ := h
    simp only at e1 e3 e4
    subst e1 e3 e4
    exact ⟨r, e2, rfl⟩
  · rw [sentenceText, ← List.map_append, flatten_columns]
    simp [ascii]

theorem noparse_text {withPos : Bool} {ws sentence names : List (List Nat)} (h : TagsOf withPos ws sentence names) (id : Nat) :
    noparse (fun w => w) sentence id (if withPos then some names else none) ++ [10] = noparseText withPos sentence names id := by
  have h0 : natText 500 = [53, 48, 48] := by simp [natText]
  have h1 : natText 0 = [48] := by simp [natText]
  cases withPos with
  | false =>
    obtain ⟨h, h'⟩ := h
    obtain rfl : names = sentence := h'.trans h.symm
    clear h h'
    simp only [Bool.false_eq_true, if_false]
    rw [C49_noparse_default, noparseText, sentenceText]
    have : (names.zip names).map (fun x => columns x.1 (if false = true then x.2 else ascii ['-', '-']) 500) =
        names.map fun x => x ++ ascii ['\t', '-', '-', '\t', '-', '-', '\t', '-', '-', '\t', '5', '0', '0', '\n'] := by
      induction names with
      | nil => rfl
      | cons w ws ih =>
        rw [List.zip_cons_cons, List.map_cons, List.map_cons, ih]
        simp [columns, h0, ascii]
    rw [this]
    simp [columns, h1, ascii]
  | true =>
    obtain ⟨l, rfl, rfl, _⟩ := h
    simp only [if_true]
    rw [C49_noparse_words, noparseText, sentenceText]
    have : ((l.map Prod.fst).zip (l.map Prod.snd)).map (fun x => columns x.1 (if true = true then x.2 else ascii ['-', '-']) 500) =
        l.map fun x => x.1 ++ ascii ['\t'] ++ x.2 ++ ascii ['\t', '-', '-', '\t', '-', '-', '\t', '5', '0', '0', '\n'] := by
      clear * - h0
      induction l with
      | nil => rfl
      | cons w ws ih =>
        rw [List.map_cons, List.map_cons, List.zip_cons_cons, List.map_cons, List.map_cons, ih]
        simp [columns, h0, ascii]
    rw [this]
    simp [columns, h1, ascii]

/-- The addresses of terminals that come from the root. -/
theorem yield_root {T : Type _} {m : GornTree (PMCFGRule N T W)} {v : List (List (T × List Nat))} (hv : Yield m.get v)
    (h : ∀ r, m.get [] = some r → ∀ t, VarT.t t ∉ r.composition.flatten) (t : T) : (t, []) ∉ v.flatten := by
  intro ht
  have hev : Eval (fun a => ((fun a => (m.get a).map PMCFGRule.composition) a).map (locate a)) [] v := by
    have : (fun a => ((fun a => (m.get a).map PMCFGRule.composition) a).map (locate a)) = fun a => (m.get a).map fun r => locate a r.composition := by
      funext a; simp [Function.comp_def]
    rw [this]; exact hv
  obtain ⟨q, hq, ⟨c, hc, htc⟩, _⟩ := eval_located hev ht
  obtain ⟨r, hr, rfl⟩ := Option.map_eq_some_iff.1 hc
  exact h r hr t htc

/-- The export of a derivation. -/
theorem derivation_export (showN : N → List Nat) {rules : List (PMCFGRule N (List Nat) W)} {A : N} {d : DTree (PMCFGRule N (List Nat) W)}
    {m : GornTree (PMCFGRule N (List Nat) W)} (hm : m.Sorted) (hmd : ∀ a, m.get a = d.at? a) {sentence : List (List Nat)} (hd : Derives rules A d [sentence])
    (hsep : ∀ a r, m.get a = some r → TerminalSeparated r.composition) (hroot : ∀ r, m.get [] = some r → ∀ t, VarT.t t ∉ r.composition.flatten)
    (id : Nat) {withPos : Bool} {names : List (List Nat)} (hl : names.length = sentence.length) (hn : withPos = false → names = sentence) :
    ∃ s, toNegra showN (fun w => w) m id (if withPos then some names else none) = some s ∧ ExportOf showN m.get sentence names id (s ++ [10]) := by
  obtain ⟨v', h1, h2⟩ := C49_yield hd m.get hmd
  obtain ⟨v, rfl⟩ : ∃ v, v' = [v] := by
    cases v' with
    | nil => cases h2
    | cons v l =>
      cases l with
      | nil => exact ⟨v, rfl⟩
      | cons _ _ => simp at h2
  simp only [List.map_cons, List.map_nil, List.cons.injEq, and_true] at h2
  refine toNegra_export showN hm ((C49_criteria m).2 fun p hp => hsep p.1 p.2 ?_) h1 (fun t => by simpa using yield_root h1 hroot t) id h2 hl hn
  exact mem_get_sorted hm hp

end

section
variable {N T W : Type _} [DecidableEq N] [DecidableEq T] [LinearOrderedCommMonoidWithZero W] [NoZeroDivisors W] {factorize : W → Nat → List W}
  {order : Nat → List Nat → List Nat} {g : Lcfrs N T W} {width : Nat} {R : CsRep N T W}

/-- The result of `debug`, if `out` are the trees, `fb` the fallback and `none0` says that there is no candidate because of the limit 0. -/
def DebugIs (out : List (GornTree (PMCFGRule N T W))) (fb : Option (GornTree (PMCFGRule N T W))) (none0 : Bool) : DebugResult N T W → Prop
  | .parse t _ => out.head? = some t
  | .fallback t _ => out = [] ∧ fb = some t ∧ none0 = false
  | .noparse => out = [] ∧ (fb = none ∨ none0 = true)

omit [LinearOrderedCommMonoidWithZero W] [NoZeroDivisors W] in
theorem limit_prefix {X : Type _} {o : CsOptions W} {l : List X} : o.limit l = if o.candidates = some 0 then [] else o.limit l := by
  unfold CsOptions.limit
  split
  · rw [if_neg (by simp_all)]
  · rename_i c hc
    split
    · rename_i h
      rw [hc, Option.some.injEq] at h
      rw [h, List.take_zero]
    · rfl

omit [LinearOrderedCommMonoidWithZero W] [NoZeroDivisors W] in
theorem limit_head {X : Type _} {o : CsOptions W} {x : X} {l : List X} (h : o.candidates ≠ some 0) : ∃ l', o.limit (x :: l) = x :: l' := by
  unfold CsOptions.limit
  split
  · exact ⟨l, rfl⟩
  · rename_i c hc
    cases c with
    | zero => exact absurd hc h
    | succ c => exact ⟨_, rfl⟩

/-- The results of the parser for a sentence, for all options. -/
theorem parser_results (hR : CsRep.new factorize order g width = some R) (ho : HashOrder order) (hfac : Factorizes factorize)
    (hg : ParserGrammar g.rules g.init) (hw : Props.FactorsLeOne factorize (indexed g.rules))
    (hpre : Preterminals g.rules) (hcyc : NoVariableCycle g.rules) {word : List T}
    (hn : word.length ≤ 255) {o : CsOptions W} (hb0 : 0 < o.beam.getD R.generator.states) (hs : o.beam.getD R.generator.states ≤ 65535) :
    ∃ all out fb res, ParsesSome g.rules g.init word all ∧ out <+: all ∧ (o.candidates = none → out = all) ∧
      (∀ t, fb = some t → FallbackOf g.rules g.init word t) ∧ DebugIs out fb (o.candidates = some 0) res ∧
      (FactorsNeZero factorize g.rules → R.generator.states ≤ o.beam.getD R.generator.states → o.delta = 0 →
        Parses g.rules g.init word all ∧ ((∃ d, Derives g.rules g.init d [word]) → fb.isSome)) ∧
      ∃ m₀ fuel₀, ∀ m ≥ m₀, ∀ fuel ≥ fuel₀, R.parses o word fuel m = some out ∧ R.fallback o word fuel = some fb ∧ R.debug o word fuel m = some res := by
  rcases Nat.eq_zero_or_pos word.length with h0 | hn0
  · obtain rfl := List.eq_nil_of_length_eq_zero h0
    have hgen := candidates_empty hR ho (fun w n => (hfac w n).1) hg hw hb0 hs
    have hnone : ∀ d, ¬ Derives g.rules g.init d [([] : List T)] := fun d hd => not_derivesOver_nil hg.normal _ ⟨d, _, hd, by simp⟩
    refine ⟨[], [], none, .noparse, ⟨[], by simp [ParsedBy]⟩, by simp, by simp, by simp, ⟨rfl, .inl rfl⟩, fun _ _ _ => ⟨⟨[], by simp [ParsedBy], ?_⟩, ?_⟩, 1, 1, ?_⟩
    · rintro e d ⟨_, hd⟩
      exact absurd hd (hnone d)
    · rintro ⟨d, hd⟩
      exact absurd hd (hnone d)
    · intro m hm fuel hf
      obtain ⟨fuel, rfl⟩ : ∃ f, fuel = f + 1 := ⟨fuel - 1, by omega⟩
      obtain ⟨m, rfl⟩ : ∃ f, m = f + 1 := ⟨m - 1, by omega⟩
      have h1 : o.limit (untilNone (List.replicate (m + 1) (none : Option (List (Bracket BracketContent))))) = [] := by
        rw [List.replicate_succ, untilNone]
        unfold CsOptions.limit
        split <;> simp
        intro _ _ h; cases h
      refine ⟨?_, ?_, ?_⟩
      · unfold CsRep.parses
        rw [hgen, Option.bind_some, h1]
        rfl
      · unfold CsRep.fallback
        rw [hgen, Option.bind_some]
        rfl
      · unfold CsRep.debug
        rw [hgen, Option.bind_some, h1]
        rfl
  · obtain ⟨hrules, words, h1, fuel₀, h2⟩ := candidates_spec hR ho hfac hg hw hpre hcyc hn0 hn hb0 hs
    obtain ⟨all, k1, k2, m₁, fuel₁, k3⟩ := parses_spec hR ho hfac hg hw hpre hcyc hn0 hn hb0 hs
    obtain ⟨fb, fuel₂, f1, f2, f3⟩ := C55_with_fallback_partial hR ho hfac hg hw hpre hcyc hn0 hn hb0 hs
    have hrun : ∀ m ≥ words.length, ∀ fuel ≥ fuel₀, R.generate o word fuel m = some ((List.range m).map fun k => words[k]?) ∧
        untilNone ((List.range m).map fun k => words[k]?) = words := by
      intro m hm fuel hf
      refine ⟨h2 m fuel hf, ?_⟩
      rw [untilNone_range, List.take_of_length_le hm]
    obtain ⟨⟨j, k4⟩, k5⟩ := k3 (max m₁ words.length) (max fuel₀ fuel₁) (Nat.le_max_right ..)
    have k5 := fun h => k5 h (Nat.le_max_left ..)
    have k6 : filterMapP (toderiv R.rules) (o.limit words) = some (all.take j) := by
      unfold CsRep.parses at k4
      obtain ⟨r1, r2⟩ := hrun (max m₁ words.length) (Nat.le_max_right ..) (max fuel₀ fuel₁) (Nat.le_max_left ..)
      rw [r1, Option.bind_some, r2] at k4
      exact k4
    have hparses : ∀ m ≥ words.length, ∀ fuel ≥ fuel₀, R.parses o word fuel m = some (all.take j) := fun m hm fuel hf => by
      obtain ⟨r1, r2⟩ := hrun m hm fuel hf
      unfold CsRep.parses
      rw [r1, Option.bind_some, r2, k6]
    have hfb : words.head? = none → fb = none := by
      intro h
      have := f1 (max fuel₀ fuel₂) (Nat.le_max_right ..)
      unfold CsRep.fallback at this
      rw [h2 1 _ (Nat.le_max_left ..), Option.bind_some, untilNone_range] at this
      rw [List.head?_eq_none_iff] at h
      subst h
      exact (Option.some.inj this).symm
    obtain ⟨n, hn'⟩ := firstDeriv_spec 0 k6
    have hres : ∃ res fuel₃, DebugIs (all.take j) fb (o.candidates = some 0) res ∧ ∀ m ≥ words.length, ∀ fuel ≥ fuel₃, R.debug o word fuel m = some res := by
      cases hout : all.take j with
      | cons t out =>
        refine ⟨.parse t n, fuel₀, rfl, fun m hm fuel hf => ?_⟩
        obtain ⟨r1, r2⟩ := hrun m hm fuel hf
        unfold CsRep.debug
        rw [r1, Option.bind_some, r2, hn', hout]
        rfl
      | nil =>
        by_cases hc0 : o.candidates = some 0
        · refine ⟨.noparse, fuel₀, ⟨rfl, .inr (by simp [hc0])⟩, fun m hm fuel hf => ?_⟩
          obtain ⟨r1, r2⟩ := hrun m hm fuel hf
          unfold CsRep.debug
          rw [r1, Option.bind_some, r2, hn', hout, limit_prefix, if_pos hc0]
          rfl
        · cases words with
          | nil =>
            refine ⟨.noparse, fuel₀, ⟨rfl, .inl (hfb rfl)⟩, fun m hm fuel hf => ?_⟩
            obtain ⟨r1, r2⟩ := hrun m hm fuel hf
            have hl : o.limit ([] : List (List (Bracket BracketContent))) = [] := by
              unfold CsOptions.limit
              split <;> simp
            unfold CsRep.debug
            rw [r1, Option.bind_some, r2, hn', hout, hl]
            rfl
          | cons v words =>
            obtain ⟨rid, P, w, rfl, hc⟩ := h1 v (List.mem_cons_self ..)
            obtain ⟨t, mt, fuel₃, e1, e2, e3⟩ := C55_fallback (parserGrammar_linear hg) hc
            have hfbt : fb = some mt := by
              have := f1 (max fuel₀ (max fuel₂ fuel₃)) (by omega)
              unfold CsRep.fallback at this
              rw [h2 1 _ (by omega), Option.bind_some, untilNone_range] at this
              simp only [List.take_succ_cons, e1, Option.bind_some, hrules] at this
              rw [e2 _ (by omega)] at this
              exact (Option.some.inj this).symm
            refine ⟨.fallback mt n, max fuel₀ fuel₃, ⟨rfl, hfbt, by simp [hc0]⟩, fun m hm fuel hf => ?_⟩
            obtain ⟨r1, r2⟩ := hrun m hm fuel (by omega)
            obtain ⟨l', hl'⟩ := limit_head (o := o) (x := compWord rid 0 P) (l := words) hc0
            unfold CsRep.debug
            rw [r1, Option.bind_some, r2, hn', hout, hl']
            simp only [List.head?_nil, e1, Option.bind_some, hrules]
            rw [e2 fuel (by omega)]
            rfl
    obtain ⟨res, fuel₃, d1, d2⟩ := hres
    refine ⟨all, all.take j, fb, res, k1, List.take_prefix .., fun h => ?_, f2, d1, fun g1 g2 g3 => ⟨k2 g1 g2 g3, f3 g1 g2 g3⟩, words.length,
      max fuel₀ (max fuel₂ fuel₃), fun m hm fuel hf => ⟨hparses m hm fuel (by omega), f1 fuel (by omega), d2 m hm fuel (by omega)⟩⟩
    have := k5 h
    rw [k4, Option.some.injEq] at this
    exact this

end

end Rustomata
