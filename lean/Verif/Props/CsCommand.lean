import Verif.Proofs.CsCommand
import Verif.Proofs.Reading

/-!
# C66: the command `csparsing parse`
-/

namespace Rustomata.Props
open Spec

/-- No rule for the initial nonterminal is a terminal rule. -/
def NoTerminalRoot {N T W : Type _} (rules : List (PMCFGRule N T W)) (init : N) : Prop := ∀ r ∈ rules, r.head = init → ∀ a, r.composition ≠ [[.t a]]

section
variable {N W : Type _}

theorem separated_of_normal {T : Type _} {rules : List (PMCFGRule N T W)} (hn : NormalForm rules) {r : PMCFGRule N T W} (hr : r ∈ rules) :
    TerminalSeparated r.composition := by
  rcases (hn r hr).2.2 with ⟨a, h⟩ | h
  · exact .inl ⟨a, by rw [h]; rfl⟩
  · refine .inr fun x hx => ?_
    obtain ⟨c, hc, hx⟩ := List.mem_flatten.1 hx
    exact h c hc x hx

theorem terminal_of_normal {T : Type _} {rules : List (PMCFGRule N T W)} (hn : NormalForm rules) {r : PMCFGRule N T W} (hr : r ∈ rules) {a : T}
    {c : List (VarT T)} (hc : c ∈ r.composition) (ha : VarT.t a ∈ c) : r.composition = [[.t a]] := by
  rcases (hn r hr).2.2 with ⟨a', h⟩ | h
  · rw [h] at hc ⊢
    simp only [List.mem_singleton] at hc
    subst hc
    simp only [List.mem_singleton, VarT.t.injEq] at ha
    rw [ha]
  · obtain ⟨i, j, h⟩ := h c hc _ ha
    cases h

theorem renameVar_t {T : Type _} {f : Nat → Nat} {x : VarT T} {a : T} : renameVar f x = .t a ↔ x = .t a := by
  cases x <;> simp [renameVar]

/-- A terminal in a merged rule comes from a terminal rule. -/
theorem merged_terminal {T : Type _} [Zero W] {rules : List (PMCFGRule N T W)} (hn : NormalForm rules) {r : PMCFGRule N T W} (hr : Merged rules r) {a : T}
    {n : Nat} {c : List (VarT T)} (hc : r.composition[n]? = some c) (ha : VarT.t a ∈ c) :
    ∃ r' ∈ rules, r'.head = r.head ∧ r'.composition = [[.t a]] ∧ n = 0 ∧ c = [.t a] := by
  rcases hr.2 n c hc with rfl | ⟨r', h1, h2, c', f, h3, rfl, _⟩
  · cases ha
  · obtain ⟨x, hx, hxa⟩ := List.mem_map.1 ha
    rw [renameVar_t] at hxa
    subst hxa
    have h4 := terminal_of_normal hn h1 (List.mem_of_getElem? h3) hx
    rw [h4] at h3
    have h5 := (List.getElem?_eq_some_iff.1 h3).1
    simp only [List.length_cons, List.length_nil] at h5
    obtain rfl : n = 0 := by omega
    simp only [List.getElem?_cons_zero, Option.some.injEq] at h3
    subst h3
    exact ⟨r', h1, h2, h4, rfl, rfl⟩

/-- The rules of a fallback consist of one terminal or of variables only. -/
theorem merged_separated {T : Type _} [Zero W] {rules : List (PMCFGRule N T W)} {init : N} (hg : ParserGrammar rules init) {r : PMCFGRule N T W}
    (hr : Merged rules r) : TerminalSeparated r.composition := by
  by_cases h : ∃ a, VarT.t a ∈ r.composition.flatten
  · obtain ⟨a, ha⟩ := h
    obtain ⟨c, hc, ha⟩ := List.mem_flatten.1 ha
    obtain ⟨n, hn⟩ := List.getElem?_of_mem hc
    obtain ⟨r', h1, h2, h3, rfl, rfl⟩ := merged_terminal hg.normal hr hn ha
    refine .inl ⟨a, ?_⟩
    cases hcs : r.composition with
    | nil => rw [hcs] at hc; cases hc
    | cons c cs =>
      rw [hcs, List.getElem?_cons_zero, Option.some.injEq] at hn
      subst hn
      have : ∀ c ∈ cs, c = [] := by
        intro c hc
        obtain ⟨k, hk⟩ := List.getElem?_of_mem hc
        rcases hr.2 (k + 1) c (by rw [hcs]; exact hk) with h | ⟨r'', h4, h5, c', f, h6, _⟩
        · exact h
        · have := lcfrs_length hg.lcfrs h1 h4 (h2.trans h5.symm)
          have h7 := (List.getElem?_eq_some_iff.1 h6).1
          rw [h3] at this
          simp at this
          omega
      rw [List.flatten_cons, List.flatten_eq_nil_iff.2 this]
      rfl
  · refine .inr fun x hx => ?_
    cases x with
    | var i j => exact ⟨i, j, rfl⟩
    | t a => exact absurd ⟨a, hx⟩ h

theorem tagsOf_names {withPos : Bool} {ws sentence names : List (List Nat)} (h : TagsOf withPos ws sentence names) :
    names.length = sentence.length ∧ (withPos = false → names = sentence) := by
  cases withPos with
  | false =>
    obtain ⟨h1, h2⟩ := h
    exact ⟨by rw [h1, h2], fun _ => h2.trans h1.symm⟩
  | true =>
    obtain ⟨l, rfl, rfl, _⟩ := h
    exact ⟨by simp, fun h => by cases h⟩

/-- If the first component of the rule at the root is a terminal, then the sentence has one word. -/
theorem root_length {T : Type _} {rules : List (PMCFGRule N T W)} {A : N} {d : DTree (PMCFGRule N T W)} {u : List T} (hd : Derives rules A d [u])
    {r : PMCFGRule N T W} (hr : d.at? [] = some r) {a : T} (hc : r.composition[0]? = some [.t a]) : u.length = 1 := by
  obtain ⟨r', _, _, ds, args, rfl, _, h⟩ := derives_inv hd
  simp only [DTree.at?, Option.some.injEq] at hr
  subst hr
  unfold compose at h
  rw [mapM_some_iff] at h
  cases hcs : r'.composition with
  | nil => rw [hcs] at hc; cases hc
  | cons c cs =>
    rw [hcs, List.getElem?_cons_zero, Option.some.injEq] at hc
    rw [hcs, hc] at h
    cases h with
    | cons h _ =>
      have : substAll (fun i => args[i]?) [VarT.t a] = some [a] := rfl
      rw [this, Option.some.injEq] at h
      rw [← h]
      rfl

variable [DecidableEq N] [Zero W] {g : Lcfrs N (List Nat) W}

/-- The export of a derivation of a sentence. -/
theorem export_of_derivation_names (showN : N → List Nat) (hg : ParserGrammar g.rules g.init)
    {d : DTree (PMCFGRule N (List Nat) W)} {m : GornTree (PMCFGRule N (List Nat) W)} (hm : m.Sorted) (hmd : ∀ a, m.get a = d.at? a)
    {sentence names : List (List Nat)} (hd : Derives g.rules g.init d [sentence]) (hroot : sentence.length = 1 → NoTerminalRoot g.rules g.init) {withPos : Bool} (hl : names.length = sentence.length)
    (he : withPos = false → names = sentence) (id : Nat) :
    ∃ s, toNegra showN (fun w => w) m id (if withPos then some names else none) = some s ∧ ExportOf showN m.get sentence names id (s ++ [10]) := by
  obtain ⟨h1, h2⟩ := derives_rules hd
  refine derivation_export showN hm hmd hd (fun a r hr => separated_of_normal hg.normal (h1 a r (hmd a ▸ hr))) (fun r hr t ht => ?_) id
    hl he
  rw [hmd] at hr
  obtain ⟨c, hc, ht⟩ := List.mem_flatten.1 ht
  have h3 := terminal_of_normal hg.normal (h1 _ r hr) hc ht
  exact hroot (root_length hd hr (a := t) (by rw [h3]; rfl)) r (h1 _ r hr) (h2 r hr) t h3

/-- As `export_of_derivation_names`, for sentences that were read. -/
theorem export_of_derivation (showN : N → List Nat) (hg : ParserGrammar g.rules g.init) (hroot : NoTerminalRoot g.rules g.init)
    {d : DTree (PMCFGRule N (List Nat) W)} {m : GornTree (PMCFGRule N (List Nat) W)} (hm : m.Sorted) (hmd : ∀ a, m.get a = d.at? a)
    {sentence names ws : List (List Nat)} (hd : Derives g.rules g.init d [sentence]) {withPos : Bool} (ht : TagsOf withPos ws sentence names) (id : Nat) :
    ∃ s, toNegra showN (fun w => w) m id (if withPos then some names else none) = some s ∧ ExportOf showN m.get sentence names id (s ++ [10]) :=
  export_of_derivation_names showN hg hm hmd hd (fun _ => hroot) (tagsOf_names ht).1 (tagsOf_names ht).2 id

/-- The export of a fallback for a sentence. -/
theorem export_of_fallback_names (showN : N → List Nat) (hg : ParserGrammar g.rules g.init)
    {m : GornTree (PMCFGRule N (List Nat) W)} {sentence names : List (List Nat)} (hf : FallbackOf g.rules g.init sentence m)
    (hroot : sentence.length = 1 → NoTerminalRoot g.rules g.init) {withPos : Bool}
    (hl : names.length = sentence.length)
    (he : withPos = false → names = sentence) (id : Nat) :
    ∃ s, toNegra showN (fun w => w) m id (if withPos then some names else none) = some s ∧ ExportOf showN m.get sentence names id (s ++ [10]) := by
  obtain ⟨hm, d, hmd, hd, hmer⟩ := hf
  have hd := hd (m.map Prod.snd) fun p r hp => by
    rw [← hmd] at hp
    exact List.mem_map.2 ⟨_, GornTree.mem_of_get hp, rfl⟩
  obtain ⟨h1, h2⟩ := derives_rules hd
  refine derivation_export showN hm hmd hd (fun a r hr => merged_separated hg (hmer a r (hmd a ▸ hr))) (fun r hr t ht => ?_) id
    hl he
  rw [hmd] at hr
  obtain ⟨c, hc, ht⟩ := List.mem_flatten.1 ht
  obtain ⟨n, hn⟩ := List.getElem?_of_mem hc
  obtain ⟨r', e1, e2, e3, rfl, rfl⟩ := merged_terminal hg.normal (hmer _ r hr) hn ht
  exact hroot (root_length hd hr hn) r' e1 (e2.trans (h2 r hr)) t e3

/-- As `export_of_fallback_names`, for sentences that were read. -/
theorem export_of_fallback (showN : N → List Nat) (hg : ParserGrammar g.rules g.init) (hroot : NoTerminalRoot g.rules g.init)
    {m : GornTree (PMCFGRule N (List Nat) W)} {sentence names ws : List (List Nat)} (hf : FallbackOf g.rules g.init sentence m) {withPos : Bool}
    (ht : TagsOf withPos ws sentence names) (id : Nat) :
    ∃ s, toNegra showN (fun w => w) m id (if withPos then some names else none) = some s ∧ ExportOf showN m.get sentence names id (s ++ [10]) :=
  export_of_fallback_names showN hg hf (fun _ => hroot) (tagsOf_names ht).1 (tagsOf_names ht).2 id

end

/-- **C66** How a line is read, in full: `split_line` and `split_pos` panic iff the line does not have the form, that is, with `--with-lines` the first word is not a
number of at most 64 bits, or with `--with-pos` a word has no slash. -/
theorem C66_split (withLines withPos : Bool) (i : Nat) (line : List Nat) :
    (∀ id sentence mode, ((splitLine line withLines i).bind fun x => (splitPos x.2 withPos).map fun y => (x.1, y)) = some (id, sentence, mode) ↔
      ∃ ws names, LineOf withLines i line id ws ∧ TagsOf withPos ws sentence names ∧ mode = if withPos then some names else none) ∧
    (((splitLine line withLines i).bind fun x => (splitPos x.2 withPos).map fun y => (x.1, y)) = none ↔
      ¬ ∃ id ws sentence names, LineOf withLines i line id ws ∧ TagsOf withPos ws sentence names) := by
  have key : ∀ id sentence mode, ((splitLine line withLines i).bind fun x => (splitPos x.2 withPos).map fun y => (x.1, y)) = some (id, sentence, mode) ↔
      ∃ ws names, LineOf withLines i line id ws ∧ TagsOf withPos ws sentence names ∧ mode = if withPos then some names else none := by
    intro id sentence mode
    rw [Option.bind_eq_some_iff]
    constructor
    · rintro ⟨⟨id', ws⟩, h1, h2⟩
      rw [Option.map_eq_some_iff] at h2
      obtain ⟨⟨sentence', mode'⟩, h2, h3⟩ := h2
      cases h3
      obtain ⟨names, h4, h5⟩ := splitPos_iff.1 h2
      exact ⟨ws, names, splitLine_iff.1 h1, h4, h5⟩
    · rintro ⟨ws, names, h1, h2, h3⟩
      refine ⟨(id, ws), splitLine_iff.2 h1, ?_⟩
      rw [splitPos_iff.2 ⟨names, h2, h3⟩]
      rfl
  refine ⟨key, ?_⟩
  constructor
  · rintro h ⟨id, ws, sentence, names, h1, h2⟩
    rw [(key id sentence _).2 ⟨ws, names, h1, h2, rfl⟩] at h
    cases h
  · intro h
    by_contra hne
    obtain ⟨⟨id, sentence, mode⟩, hx⟩ := Option.ne_none_iff_exists'.1 hne
    obtain ⟨ws, names, h1, h2, _⟩ := (key _ _ _).1 hx
    exact h ⟨id, ws, sentence, names, h1, h2⟩

section
variable {N W : Type _} [DecidableEq N] [LinearOrderedCommMonoidWithZero W] [NoZeroDivisors W] {factorize : W → Nat → List W}
  {order : Nat → List Nat → List Nat} {g : Lcfrs N (List Nat) W} {width : Nat} {R : CsRep N (List Nat) W}

/-- The text for a line is as it should be: `all` are derivations of the sentence in the order of their weights, without pruning all of them; the results are the first ones
of them, all of them unless there is a limit of the number of candidates; the fallback is a derivation with merged rules and exists, without pruning, if the sentence has
a derivation. -/
def LineAnswer (factorize : W → Nat → List W) (g : Lcfrs N (List Nat) W) (R : CsRep N (List Nat) W) (o : CsOptions W) (a : ParseArgs) (showN : N → List Nat)
    (sentence names : List (List Nat)) (id : Nat) (text : List Nat) : Prop :=
  ∃ all out fb, ParsesSome g.rules g.init sentence all ∧ out <+: all ∧ (o.candidates = none → out = all) ∧
    (∀ t, fb = some t → FallbackOf g.rules g.init sentence t) ∧
    (FactorsNeZero factorize g.rules → R.generator.states ≤ o.beam.getD R.generator.states → o.delta = 0 →
      Parses g.rules g.init sentence all ∧ (¬ (a.debug ∧ o.candidates = some 0) → (∃ d, Derives g.rules g.init d [sentence]) → fb.isSome)) ∧
    AnswerText showN a out fb sentence names id text

/-- **C66** for grammars in which each nonterminal with a terminal rule has only rules for this terminal, without cycles of components that consist of one variable, and
without terminal rules for the initial nonterminal: for each line of the right form with at most 255 words, also for the empty line, the command prints the trees
that it should print. -/
theorem C66_line_partial (hR : CsRep.new factorize order g width = some R) (ho : HashOrder order) (hfac : Factorizes factorize)
    (hg : ParserGrammar g.rules g.init) (hw : FactorsLeOne factorize (indexed g.rules)) (hpre : Preterminals g.rules) (hcyc : NoVariableCycle g.rules)
    (hroot : NoTerminalRoot g.rules g.init) {o : CsOptions W} (hb0 : 0 < o.beam.getD R.generator.states) (hb : o.beam.getD R.generator.states ≤ 65535)
    (a : ParseArgs) (showN : N → List Nat) {i : Nat} {line : List Nat} {id : Nat} {ws sentence names : List (List Nat)} (hl : LineOf a.withLines i line id ws)
    (ht : TagsOf a.withPos ws sentence names) (hn : sentence.length ≤ 255) :
    ∃ text, LineAnswer factorize g R o a showN sentence names id text ∧
      ∃ m₀ fuel₀, ∀ m ≥ m₀, ∀ fuel ≥ fuel₀, R.lineOutput o a showN fuel m line i = some text := by
  obtain ⟨all, out, fb, res, p1, p2, p3, p4, p5, p6, m₀, fuel₀, p7⟩ := parser_results hR ho hfac hg hw hpre hcyc hn hb0 hb
  have hline : ∀ fuel m, R.lineOutput o a showN fuel m line i =
      (R.sentenceOutput o a showN fuel m id sentence (if a.withPos then some names else none)).map List.flatten := fun fuel m => by
    unfold CsRep.lineOutput
    rw [splitLine_iff.2 hl]
    simp only
    rw [splitPos_iff.2 ⟨names, ht, rfl⟩]
  simp only [hline]
  -- the export of the results
  have hout : ∀ t ∈ out, ∃ s, toNegra showN (fun w => w) t id (if a.withPos then some names else none) = some s ∧
      ExportOf showN t.get sentence names id (s ++ [10]) := fun t ht' => by
    obtain ⟨ds, _, _, q1, q2⟩ := p1
    obtain ⟨⟨e, d⟩, hx, q3, q4⟩ := forall₂_mem_right q2 (p2.subset ht')
    exact export_of_derivation showN hg hroot q3 q4 (q1 e d hx).2 ht id
  have hfb : ∀ t, fb = some t → ∃ s, toNegra showN (fun w => w) t id (if a.withPos then some names else none) = some s ∧
      ExportOf showN t.get sentence names id (s ++ [10]) := fun t ht' => export_of_fallback showN hg hroot (p4 t ht') ht id
  have hno := noparse_text ht id
  by_cases hd : a.debug = true
  · -- the debug mode
    have hrun : ∀ m ≥ m₀, ∀ fuel ≥ fuel₀, R.sentenceOutput o a showN fuel m id sentence (if a.withPos then some names else none) = match (generalizing := false) some res with
        | none => none
        | some (.parse t _) => (toNegra showN (fun w => w) t id (if a.withPos then some names else none)).map fun s => [s ++ [10]]
        | some (.fallback t _) => (toNegra showN (fun w => w) t id (if a.withPos then some names else none)).map fun s => [s ++ [10]]
        | some .noparse => some [noparse (fun w => w) sentence id (if a.withPos then some names else none) ++ [10]] := fun m hm fuel hf => by
      unfold CsRep.sentenceOutput
      rw [if_pos hd, (p7 m hm fuel hf).2.2]
      cases res <;> rfl
    have htake : out.take (if a.debug then 1 else a.k) = out.take 1 := by rw [if_pos hd]
    cases res with
    | parse t n =>
      obtain ⟨out', rfl⟩ : ∃ out', out = t :: out' := by
        cases out with
        | nil => cases p5
        | cons t' out' => cases p5; exact ⟨out', rfl⟩
      obtain ⟨s, e1, e2⟩ := hout t List.mem_cons_self
      refine ⟨s ++ [10], ⟨all, _, fb, p1, p2, p3, p4, fun g1 g2 g3 => ⟨(p6 g1 g2 g3).1, fun _ => (p6 g1 g2 g3).2⟩, ?_⟩, m₀, fuel₀, fun m hm fuel hf => ?_⟩
      · unfold AnswerText
        rw [htake]
        exact .inl ⟨by simp, [s ++ [10]], .cons e2 .nil, by simp⟩
      · rw [hrun m hm fuel hf]
        simp [e1]
    | fallback t n =>
      obtain ⟨rfl, h1, _⟩ := p5
      obtain ⟨s, e1, e2⟩ := hfb t h1
      refine ⟨s ++ [10], ⟨all, _, fb, p1, p2, p3, p4, fun g1 g2 g3 => ⟨(p6 g1 g2 g3).1, fun _ => (p6 g1 g2 g3).2⟩, ?_⟩, m₀, fuel₀, fun m hm fuel hf => ?_⟩
      · exact .inr (.inl ⟨List.take_nil, .inr hd, t, h1, e2⟩)
      · rw [hrun m hm fuel hf]
        simp [e1]
    | noparse =>
      obtain ⟨rfl, h1⟩ := p5
      refine ⟨noparseText a.withPos sentence names id, ⟨all, _, none, p1, p2, p3, fun t h => (by cases h), fun g1 g2 g3 => ⟨(p6 g1 g2 g3).1, fun h hd' => ?_⟩, ?_⟩, m₀, fuel₀, fun m hm fuel hf => ?_⟩
      · rcases h1 with h1 | h1
        · rw [← h1]
          exact (p6 g1 g2 g3).2 hd'
        · exact absurd ⟨hd, by simpa using h1⟩ h
      · exact .inr (.inr ⟨List.take_nil, .inr rfl, rfl⟩)
      · rw [hrun m hm fuel hf]
        simp [hno]
  · -- the k best trees
    have htake : out.take (if a.debug then 1 else a.k) = out.take a.k := by rw [if_neg hd]
    obtain ⟨bs, hbs⟩ : ∃ bs, List.Forall₂ (fun t b => (toNegra showN (fun w => w) t id (if a.withPos then some names else none)).map (fun s => s ++ [10]) = some b ∧
        ExportOf showN t.get sentence names id b) (out.take a.k) bs := by
      refine exists_forall₂ _ fun t ht' => ?_
      obtain ⟨s, e1, e2⟩ := hout t (List.mem_of_mem_take ht')
      exact ⟨s ++ [10], by rw [e1]; rfl, e2⟩
    have hmap : ((out.take a.k).mapM fun t => (toNegra showN (fun w => w) t id (if a.withPos then some names else none)).map fun s => s ++ [10]) = some bs := by
      rw [mapM_some_iff]
      exact hbs.imp fun t b h => h.1
    have hrun : ∀ m ≥ m₀, ∀ fuel ≥ fuel₀, R.sentenceOutput o a showN fuel m id sentence (if a.withPos then some names else none) = match (generalizing := false) bs with
        | s :: ss => some (s :: ss)
        | [] =>
          if a.fallback then
            match (generalizing := false) fb with
            | some t => (toNegra showN (fun w => w) t id (if a.withPos then some names else none)).map fun s => [s ++ [10]]
            | none => some [noparse (fun w => w) sentence id (if a.withPos then some names else none) ++ [10]]
          else some [noparse (fun w => w) sentence id (if a.withPos then some names else none) ++ [10]] := fun m hm fuel hf => by
      unfold CsRep.sentenceOutput
      rw [if_neg hd, (p7 m hm fuel hf).2.1, (p7 m hm fuel hf).1]
      simp only [hmap]
      cases bs <;> rfl
    cases bs with
    | cons s ss =>
      refine ⟨(s :: ss).flatten, ⟨all, _, fb, p1, p2, p3, p4, fun g1 g2 g3 => ⟨(p6 g1 g2 g3).1, fun _ => (p6 g1 g2 g3).2⟩, ?_⟩, m₀, fuel₀, fun m hm fuel hf => ?_⟩
      · unfold AnswerText
        rw [htake]
        refine .inl ⟨fun h => ?_, s :: ss, hbs.imp fun t b h => h.2, rfl⟩
        rw [h] at hbs
        cases hbs
      · rw [hrun m hm fuel hf]
        rfl
    | nil =>
      rw [List.forall₂_nil_right_iff] at hbs
      by_cases hf' : a.fallback = true
      · cases hfbt : fb with
        | some t =>
          obtain ⟨s, e1, e2⟩ := hfb t hfbt
          refine ⟨s ++ [10], ⟨all, _, fb, p1, p2, p3, p4, fun g1 g2 g3 => ⟨(p6 g1 g2 g3).1, fun _ => (p6 g1 g2 g3).2⟩, ?_⟩, m₀, fuel₀, fun m hm fuel hf => ?_⟩
          · unfold AnswerText
            rw [htake]
            exact .inr (.inl ⟨hbs, .inl hf', t, hfbt, e2⟩)
          · rw [hrun m hm fuel hf]
            simp [hf', hfbt, e1]
        | none =>
          refine ⟨noparseText a.withPos sentence names id, ⟨all, _, fb, p1, p2, p3, p4, fun g1 g2 g3 => ⟨(p6 g1 g2 g3).1, fun _ => (p6 g1 g2 g3).2⟩, ?_⟩, m₀, fuel₀,
            fun m hm fuel hf => ?_⟩
          · unfold AnswerText
            rw [htake]
            exact .inr (.inr ⟨hbs, .inr hfbt, rfl⟩)
          · rw [hrun m hm fuel hf]
            simp [hf', hfbt, hno]
      · refine ⟨noparseText a.withPos sentence names id, ⟨all, _, fb, p1, p2, p3, p4, fun g1 g2 g3 => ⟨(p6 g1 g2 g3).1, fun _ => (p6 g1 g2 g3).2⟩, ?_⟩, m₀, fuel₀,
          fun m hm fuel hf => ?_⟩
        · unfold AnswerText
          rw [htake]
          exact .inr (.inr ⟨hbs, .inl (fun h => h.elim hf' hd), rfl⟩)
        · rw [hrun m hm fuel hf]
          simp [hf', hno]

/-- **C66** for whole texts: if all lines have the right form and at most 255 words, then the output consists of the answers for the lines, in their order. -/
theorem C66_command_partial (hR : CsRep.new factorize order g width = some R) (ho : HashOrder order) (hfac : Factorizes factorize)
    (hg : ParserGrammar g.rules g.init) (hw : FactorsLeOne factorize (indexed g.rules)) (hpre : Preterminals g.rules) (hcyc : NoVariableCycle g.rules)
    (hroot : NoTerminalRoot g.rules g.init) {o : CsOptions W} (hb0 : 0 < o.beam.getD R.generator.states) (hb : o.beam.getD R.generator.states ≤ 65535)
    (a : ParseArgs) (showN : N → List Nat) {text : List Nat} {ls : List (List Nat)} (hls : LinesOf ls text)
    (hform : ∀ i line, ls[i]? = some line → ∃ id ws sentence names, LineOf a.withLines i line id ws ∧ TagsOf a.withPos ws sentence names ∧ sentence.length ≤ 255) :
    ∃ answers : List (List Nat), answers.length = ls.length ∧
      (∀ (i : Nat) line answer, ls[i]? = some line → answers[i]? = some answer → ∃ id ws sentence names, LineOf a.withLines i line id ws ∧
        TagsOf a.withPos ws sentence names ∧ LineAnswer factorize g R o a showN sentence names id answer) ∧
      ∃ m₀ fuel₀, ∀ m ≥ m₀, ∀ fuel ≥ fuel₀, R.parseCommand o a showN fuel m text = some answers.flatten := by
  have hmem : ∀ x ∈ ls.zipIdx, ∃ y, (∃ id ws sentence names, LineOf a.withLines x.2 x.1 id ws ∧ TagsOf a.withPos ws sentence names ∧
      LineAnswer factorize g R o a showN sentence names id y) ∧
      ∃ m₀ fuel₀, ∀ m ≥ m₀, ∀ fuel ≥ fuel₀, R.lineOutput o a showN fuel m x.1 x.2 = some y := by
    rintro ⟨line, i⟩ hx
    have hx := List.mem_zipIdx_iff_getElem?.1 hx
    obtain ⟨id, ws, sentence, names, h1, h2, h3⟩ := hform i line hx
    obtain ⟨y, h4, h5⟩ := C66_line_partial hR ho hfac hg hw hpre hcyc hroot hb0 hb a showN h1 h2 h3
    exact ⟨y, ⟨id, ws, sentence, names, h1, h2, h4⟩, h5⟩
  obtain ⟨answers, hans⟩ := exists_forall₂ _ hmem
  refine ⟨answers, ?_, ?_, ?_⟩
  · rw [← hans.length_eq, List.length_zipIdx]
  · intro i line answer h1 h2
    obtain ⟨hlt, h2⟩ := List.getElem?_eq_some_iff.1 h2
    have hlt' : i < ls.zipIdx.length := hans.length_eq ▸ hlt
    have h3 := (List.forall₂_iff_get.1 hans).2 i hlt' hlt
    obtain ⟨hlt'', h1⟩ := List.getElem?_eq_some_iff.1 h1
    simp only [List.get_eq_getElem, List.getElem_zipIdx, h1, h2, Nat.zero_add] at h3
    exact h3.1
  · have hbound : ∃ m₀ fuel₀, ∀ m ≥ m₀, ∀ fuel ≥ fuel₀, List.Forall₂ (fun x y => R.lineOutput o a showN fuel m x.1 x.2 = some y) ls.zipIdx answers := by
      generalize ls.zipIdx = l at hans
      clear hmem hform hls
      induction hans with
      | nil => exact ⟨0, 0, fun _ _ _ _ => .nil⟩
      | cons h _ ih =>
        obtain ⟨_, m₁, f₁, h1⟩ := h
        obtain ⟨m₂, f₂, h2⟩ := ih
        exact ⟨max m₁ m₂, max f₁ f₂, fun m hm fuel hf => .cons (h1 m (le_trans (le_max_left _ _) hm) fuel (le_trans (le_max_left _ _) hf))
          (h2 m (le_trans (le_max_right _ _) hm) fuel (le_trans (le_max_right _ _) hf))⟩
    obtain ⟨m₀, fuel₀, h⟩ := hbound
    refine ⟨m₀, fuel₀, fun m hm fuel hf => ?_⟩
    unfold CsRep.parseCommand
    rw [lines_iff.2 hls, mapM_some_iff.2 (h m hm fuel hf)]
    rfl

end

section
variable {N W : Type _} [LinearOrderedCommMonoidWithZero W] {R : CsRep N (List Nat) W}

/-- **C66** The command panics for sentences of more than 256 words, whatever the options are. -/
theorem C66_long (o : CsOptions W) (a : ParseArgs) (showN : N → List Nat) (fuel m : Nat) {i : Nat} {line : List Nat} {id : Nat} {ws sentence names : List (List Nat)}
    (hl : LineOf a.withLines i line id ws) (ht : TagsOf a.withPos ws sentence names) (hn : 257 ≤ sentence.length) :
    R.lineOutput o a showN fuel m line i = none := by
  have hgen : ∀ m, R.generate o sentence fuel m = none := fun m => by
    unfold CsRep.generate
    split
    · rfl
    · rw [fillChart_long hn]
  unfold CsRep.lineOutput
  rw [splitLine_iff.2 hl]
  simp only
  rw [splitPos_iff.2 ⟨names, ht, rfl⟩]
  simp only
  unfold CsRep.sentenceOutput CsRep.debug CsRep.fallback CsRep.parses
  simp [hgen]

/-- **C66** The command panics if one line is not of the right form. -/
theorem C66_form (o : CsOptions W) (a : ParseArgs) (showN : N → List Nat) (fuel m : Nat) {text : List Nat} {ls : List (List Nat)} (hls : LinesOf ls text)
    {i : Nat} {line : List Nat} (hi : ls[i]? = some line)
    (hform : ¬ ∃ id ws sentence names, LineOf a.withLines i line id ws ∧ TagsOf a.withPos ws sentence names) :
    R.parseCommand o a showN fuel m text = none := by
  have h1 : R.lineOutput o a showN fuel m line i = none := by
    unfold CsRep.lineOutput
    split
    · rfl
    rename_i id ws h1
    split
    · rfl
    rename_i sentence mode h2
    obtain ⟨names, h3, _⟩ := splitPos_iff.1 h2
    exact absurd ⟨id, ws, sentence, names, splitLine_iff.1 h1, h3⟩ hform
  unfold CsRep.parseCommand
  rw [lines_iff.2 hls]
  cases h : ls.zipIdx.mapM fun x => R.lineOutput o a showN fuel m x.1 x.2 with
  | none => rfl
  | some answers =>
    obtain ⟨y, _, h2⟩ := forall₂_mem_left (mapM_some_iff.1 h) (x := (line, i)) (List.mem_zipIdx_iff_getElem?.2 hi)
    simp only [h1] at h2
    cases h2

end

/-- The claim **C66** for the grammars that fulfil a condition. -/
def C66_claim_for (ok : ∀ {N T W : Type}, List (PMCFGRule N T W) → N → Prop) : Prop :=
  ∀ (N W : Type) [DecidableEq N] [LinearOrderedCommMonoidWithZero W] [NoZeroDivisors W] (factorize : W → Nat → List W)
    (order : Nat → List Nat → List Nat) (g : Lcfrs N (List Nat) W) (width : Nat) (R : CsRep N (List Nat) W),
    CsRep.new factorize order g width = some R → HashOrder order → Factorizes factorize → ParserGrammar g.rules g.init →
    FactorsLeOne factorize (indexed g.rules) → NoVariableCycle g.rules → ok g.rules g.init →
    ∀ (o : CsOptions W), 0 < o.beam.getD R.generator.states → o.beam.getD R.generator.states ≤ 65535 → ∀ (a : ParseArgs) (showN : N → List Nat) (text : List Nat)
      (ls : List (List Nat)), LinesOf ls text →
      (∀ i line, ls[i]? = some line → ∃ id ws sentence names, LineOf a.withLines i line id ws ∧ TagsOf a.withPos ws sentence names ∧ sentence.length ≤ 255) →
      ∃ answers : List (List Nat), answers.length = ls.length ∧
        (∀ (i : Nat) line answer, ls[i]? = some line → answers[i]? = some answer → ∃ id ws sentence names, LineOf a.withLines i line id ws ∧
          TagsOf a.withPos ws sentence names ∧ LineAnswer factorize g R o a showN sentence names id answer) ∧
        ∃ m₀ fuel₀, ∀ m ≥ m₀, ∀ fuel ≥ fuel₀, R.parseCommand o a showN fuel m text = some answers.flatten

/-- The full claim **C66**. -/
def C66_claim : Prop := C66_claim_for fun _ _ => True

theorem C66_claim_partial : C66_claim_for fun rules init => Preterminals rules ∧ NoTerminalRoot rules init :=
  fun _ _ _ _ _ _ _ _ _ _ hR ho hfac hg hw hcyc hok _ hb0 hb a showN _ _ hls hform =>
    C66_command_partial hR ho hfac hg hw hok.1 hcyc hok.2 hb0 hb a showN hls hform

namespace C66Example

/-- `S → a`. -/
def root : Lcfrs Nat (List Nat) Nat := ⟨[⟨0, [], [[.t [97]]], 1⟩], 0⟩

theorem root_grammar : ParserGrammar root.rules root.init where
  lcfrs := ⟨fun A => if A = 0 then some 1 else none, by
    constructor
    · intro A f
      by_cases hA : A = 0
      · subst hA
        simp [root, eq_comm]
      · simp only [hA, if_false, root, List.mem_cons, List.not_mem_nil, or_false, exists_eq_left]
        simp
        omega
    · simp [root, varsOf]⟩
  normal := by simp [NormalForm, root]
  closed := by simp [root]

theorem states_root : ((CsRep.new C45Example.factorize (fun _ l => l.dedup) root 5).map fun R => decide (0 < R.generator.states ∧ R.generator.states ≤ 65535)) =
    some true := by
  decide +kernel

/-- A tree that consists of a terminal rule is not printed. -/
theorem root_panics {N W : Type _} {t : GornTree (PMCFGRule N (List Nat) W)} (ht : t.Sorted) {r : PMCFGRule N (List Nat) W} (hr : t.get [] = some r) {a : List Nat}
    (hra : r.composition = [[.t a]]) (showN : N → List Nat) (id : Nat) (mode : DumpMode (List Nat)) : toNegra showN (fun w => w) t id mode = none := by
  unfold toNegra
  split
  swap
  · rfl
  rw [Option.map_eq_none_iff, C49_panics t ht]
  rintro ⟨v, h1, h2, _⟩
  cases h1 with
  | @node _ _ _ sub g1 _ g2 =>
    simp only [hr, Option.map_some, Option.some.injEq, hra] at g1
    subst g1
    have g3 : v = [[(a, [])]] := by
      have : compose (fun i => some (sub i)) (locate [] [[VarT.t a]]) = some [[(a, [])]] := rfl
      exact Option.some.inj (g2.symm.trans this)
    subst g3
    exact h2 a (by simp)

end C66Example

open C66Example in
/-- **C66** is violated by terminal rules for the initial nonterminal: for the rule `S → a` and the sentence `a`, the command panics when it prints the derivation. -/
theorem C66_root_violated : ¬ C66_claim_for fun rules _ => Preterminals rules := by
  intro h
  have hs := states_root
  rw [Option.map_eq_some_iff] at hs
  obtain ⟨R, hR, hs⟩ := hs
  rw [decide_eq_true_eq] at hs
  have hline : LineOf false 0 [97] 0 [[97]] := splitLine_iff.1 (by decide)
  have htags : TagsOf false [[97]] [[97]] [[97]] := ⟨rfl, rfl⟩
  have hlines : LinesOf [[97]] [97] := lines_iff.1 (by decide)
  have hcyc : NoVariableCycle root.rules := ⟨fun _ _ => 0, by simp [root]⟩
  have hpre : Preterminals root.rules := by simp [Preterminals, root]
  have hw : FactorsLeOne C45Example.factorize (indexed root.rules) := by unfold FactorsLeOne; decide
  obtain ⟨answers, _, _, m₀, fuel₀, h1⟩ := h Nat Nat _ _ root 5 R hR C54Witness.hashOrder C45Example.factorizes root_grammar hw hcyc hpre .default hs.1 hs.2
    ⟨1, false, false, false, false⟩ (fun _ => []) [97] [[97]] hlines (by
      intro i line hi
      obtain ⟨rfl, rfl⟩ : i = 0 ∧ line = [97] := by
        cases i <;> simp_all
      exact ⟨0, _, _, _, hline, htags, by simp⟩)
  obtain ⟨out, ⟨ds, ⟨_, _, h2, h3⟩, h4⟩, m₁, fuel₁, h5⟩ := C54_parses_partial hR C54Witness.hashOrder C45Example.factorizes root_grammar hw
    (by unfold FactorsNeZero; decide) hpre hcyc hs.2 (word := [[97]]) (by simp) (by simp) (o := .default) rfl rfl
  have h6 := h1 (max m₀ m₁) (le_max_left _ _) (max fuel₀ fuel₁) (le_max_left _ _)
  have h7 := (h5 (max m₀ m₁) (max fuel₀ fuel₁) (le_max_right _ _)).2 rfl (le_max_right _ _)
  have hd : Numbers root.rules (.node 0 []) (.node ⟨0, [], [[.t [97]]], 1⟩ []) ∧ Derives root.rules root.init (.node ⟨0, [], [[.t [97]]], 1⟩ []) [[[97]]] := by
    refine ⟨fun p => ?_, .node (r := ⟨0, [], [[.t [97]]], 1⟩) (args := []) (by simp [root]) .nil (by decide)⟩
    cases p <;> simp [DTree.at?, root]
  cases out with
  | nil =>
    rw [List.forall₂_nil_right_iff] at h3
    subst h3
    exact absurd (h4 _ _ hd) (by simp)
  | cons t out =>
    obtain ⟨⟨e, d⟩, hx, q3, q4⟩ := forall₂_mem_right h3 List.mem_cons_self
    obtain ⟨r, g1, _, ds', _, rfl, _⟩ := derives_inv (h2 e d hx).2
    have h8 := root_panics q3 (q4 []) (a := [97]) (by simp only [root, List.mem_singleton] at g1; rw [g1]) (fun _ => []) 0 none
    unfold CsRep.parseCommand at h6
    rw [lines_iff.2 hlines, Option.map_eq_some_iff] at h6
    obtain ⟨l, h6, _⟩ := h6
    obtain ⟨y, _, h9⟩ := forall₂_mem_left (mapM_some_iff.1 h6) (x := ([97], 0)) (by simp)
    unfold CsRep.lineOutput at h9
    rw [splitLine_iff.2 hline] at h9
    simp only at h9
    rw [splitPos_iff.2 ⟨_, htags, rfl⟩] at h9
    unfold CsRep.sentenceOutput at h9
    simp only [h7] at h9
    cases hfb : R.fallback .default [[97]] (max fuel₀ fuel₁) with
    | none => simp [hfb] at h9
    | some fb => simp [hfb, h8] at h9

namespace C66Example

/-- `S → X X`, `X → b`. -/
def g : Lcfrs Nat (List Nat) Nat := ⟨[⟨0, [1, 1], [[.var 0 0, .var 1 0]], 1⟩, ⟨1, [], [[.t [98]]], 1⟩], 0⟩

theorem grammar : ParserGrammar g.rules g.init where
  lcfrs := ⟨fun A => if A = 0 ∨ A = 1 then some 1 else none, by
    refine ⟨fun A f => ?_, rfl, fun r hr => ?_⟩
    · match A with
      | 0 => simp [g, eq_comm]
      | 1 => simp [g, eq_comm]
      | A + 2 => simp [g]
    · simp only [g, List.mem_cons, List.not_mem_nil, or_false] at hr
      rcases hr with rfl | rfl
      · refine ⟨by decide, fun i j => ?_⟩
        match i with
        | 0 => simp [varsOf]
        | 1 => simp [varsOf]
        | i + 2 => simp [varsOf]
      · exact ⟨by decide, fun i j => by simp [varsOf]⟩⟩
  normal := by simp [NormalForm, g]
  closed := by simp [g]

/-- The output of the command. -/
def output (a : ParseArgs) (text : String) : Option (List Nat) :=
  (CsRep.new C45Example.factorize (fun _ l => l.dedup) g 5).bind fun R =>
    R.parseCommand .default a (fun n => if n = 0 then ascii ['S'] else ascii ['X']) 30 10 (ascii text.toList)

end C66Example

open C66Example in
/-- The hypotheses of the theorems can be fulfilled. -/
example : ParserGrammar g.rules g.init ∧ Preterminals g.rules ∧ NoVariableCycle g.rules ∧ NoTerminalRoot g.rules g.init ∧
    FactorsLeOne C45Example.factorize (indexed g.rules) ∧ FactorsNeZero C45Example.factorize g.rules ∧
    ∃ R, CsRep.new C45Example.factorize (fun _ l => l.dedup) g 5 = some R := by
  have hw : FactorsLeOne C45Example.factorize (indexed g.rules) := by unfold FactorsLeOne; decide
  refine ⟨grammar, by simp [Preterminals, g], ⟨fun _ _ => 0, ?_⟩, by simp [NoTerminalRoot, g], hw, by unfold FactorsNeZero; decide,
    C54_new_total grammar C45Example.factorizes hw (by decide)⟩
  intro r hr c i j B h1 h2
  simp only [g, List.mem_cons, List.not_mem_nil, or_false] at hr
  rcases hr with rfl | rfl
  · match c with
    | 0 => simp at h1
    | c + 1 => simp at h1
  · match c with
    | 0 => simp at h1
    | c + 1 => simp at h1

open C66Example in
/-- A tree and a sentence without a tree. -/
example : output ⟨1, false, false, false, false⟩ "b b\nb" = some (ascii
    "#BOS 0\nb\tX\t--\t--\t0\nb\tX\t--\t--\t0\n#EOS 0\n#BOS 1\nb\t--\t--\t--\t500\n#500\tNOPARSE\t--\t--\t0\n#EOS 1\n".toList) := by
  decide +kernel

open C66Example in
/-- With numbers and tags. -/
example : output ⟨1, true, true, false, false⟩ "7 x/y/b z/b\n" = some (ascii "#BOS 7\nx/y\tX\t--\t--\t0\nz\tX\t--\t--\t0\n#EOS 7\n".toList) := by
  decide +kernel

open C66Example in
/-- Without a number, and without a tag. -/
example : output ⟨1, true, true, false, false⟩ "x/b z/b" = none ∧ output ⟨1, false, true, false, false⟩ "x/b z" = none := by
  decide +kernel

end Rustomata.Props
