import Verif.Proofs.FromStr
import Verif.Proofs.White

/-!
# C48: printing and parsing

C48: parsing the printed form of a rule or grammar returns the rule or grammar.
-/

namespace Rustomata
open Nom Spec

theorem escaped_inv : ∀ (n : Nat) {i r s : List Nat}, i.length ≤ n → escaped i = .done r s → i = s ++ r ∧ Quotable s
  | _, [], r, s, _, h => by
    rw [escaped.eq_def] at h
    simp only [PResult.done.injEq] at h
    obtain ⟨rfl, rfl⟩ := h
    exact ⟨rfl, .nil⟩
  | n + 1, b :: i, r, s, hn, h => by
    simp only [List.length_cons, Nat.add_le_add_iff_right] at hn
    by_cases h1 : b = 34
    · subst h1
      rw [escaped_quote, PResult.done.injEq] at h
      obtain ⟨rfl, rfl⟩ := h
      exact ⟨rfl, .nil⟩
    · by_cases h2 : b = 92
      · subst h2
        cases i with
        | nil =>
          rw [escaped_end] at h
          cases h
        | cons c i =>
          by_cases hc : c = 34 ∨ c = 92
          · rw [escaped_esc hc] at h
            cases he : escaped i with
            | done r' s' =>
              rw [he, PResult.map, PResult.done.injEq] at h
              obtain ⟨rfl, rfl⟩ := h
              obtain ⟨e, hq⟩ := escaped_inv n (by simp only [List.length_cons] at hn; omega) he
              exact ⟨by simp [e], .esc hc hq⟩
            | _ => rw [he] at h; cases h
          · rw [escaped_bad hc] at h
            cases h
      · rw [escaped_plain h1 h2] at h
        cases he : escaped i with
        | done r' s' =>
          rw [he, PResult.map, PResult.done.injEq] at h
          obtain ⟨rfl, rfl⟩ := h
          obtain ⟨e, hq⟩ := escaped_inv n hn he
          exact ⟨by simp [e], .plain h1 h2 hq⟩
        | _ => rw [he] at h; cases h

/-- The text of the token that is read from a text between quotes. -/
theorem parseToken_text {A : Type _} {c : Codec A} {a : A} {s rest r : List Nat} (h : parseToken c (34 :: (s ++ 34 :: rest)) = .done r a) :
    ∃ s', Quotable s' ∧ c.read s' = some a ∧ s' ++ 34 :: r = s ++ 34 :: rest := by
  rw [parseToken, mapRes, chain, alt] at h
  have hn : isNot tokenStop (34 :: (s ++ 34 :: rest)) = .error := by
    rw [isNot, if_pos (by decide)]
  rw [hn, delimited, thn_done (tag_cons _ _), terminated, chain] at h
  cases he : escaped (s ++ 34 :: rest) with
  | done r₁ s' =>
    rw [he] at h
    simp only at h
    rw [chain] at h
    cases r₁ with
    | nil => simp [tag] at h
    | cons b r₁ =>
      obtain ⟨e, hq⟩ := escaped_inv _ (Nat.le_refl _) he
      by_cases hb : b = 34
      · subst hb
        rw [tag_cons] at h
        simp only [ret] at h
        cases hr : c.read s' with
        | none => rw [hr] at h; cases h
        | some a' =>
          rw [hr, PResult.done.injEq] at h
          obtain ⟨rfl, rfl⟩ := h
          exact ⟨s', hq, hr, e.symm⟩
      · rw [tag_ne (Ne.symm hb)] at h
        cases h
  | _ => rw [he] at h; cases h

/-- A text between quotes is read as a token that ends at the second quote only if it is `Quotable`. -/
theorem parseToken_quoted_inv {A : Type _} {c : Codec A} {a : A} {s rest : List Nat} (h : parseToken c (34 :: (s ++ 34 :: rest)) = .done rest a) :
    Quotable s ∧ c.read s = some a := by
  obtain ⟨s', h1, h2, h3⟩ := parseToken_text h
  rw [← List.append_cancel_right h3]
  exact ⟨h1, h2⟩

/-- If a parser that starts with a token returns a value from which the token can be read off, then the token is `Quotable`. -/
theorem head_quotable {A R : Type _} {c : Codec A} {a : A} {s rest : List Nat} {f : A → Parser Nat R} {g : R → A} {x : R}
    (hc : ∀ s a, c.read s = some a → c.text a = s) (hs : s = c.text a) (hf : ∀ b i y r, f b i = .done r y → g y = b) (hx : g x = a)
    (h : (chain (parseToken c) f (34 :: (s ++ 34 :: rest))).toResult = some (some x)) : Quotable s := by
  rw [chain] at h
  cases ht : parseToken c (34 :: (s ++ 34 :: rest)) with
  | done r b =>
    rw [ht] at h
    simp only at h
    obtain ⟨s', h1, h2, h3⟩ := parseToken_text ht
    cases hy : f b r with
    | done r' y =>
      rw [hy, PResult.toResult, Option.some.injEq, Option.some.injEq] at h
      subst h
      have := hf _ _ _ _ hy
      have h2' := hc _ _ h2
      rw [hs, ← hx, this, h2']
      exact h1
    | _ => rw [hy] at h; cases h
  | _ => rw [ht] at h; cases h

theorem chain_inv {C A B : Type _} {p : Parser C A} {f : A → Parser C B} {i r : List C} {b : B} (h : chain p f i = .done r b) :
    ∃ r' a, p i = .done r' a ∧ f a r' = .done r b := by
  rw [chain] at h
  cases hp : p i with
  | done r' a =>
    rw [hp] at h
    exact ⟨r', a, rfl, h⟩
  | _ => rw [hp] at h; cases h

theorem thn_inv {C A B : Type _} {p : Parser C A} {q : Parser C B} {i r : List C} {b : B} (h : thn p q i = .done r b) :
    ∃ r', q r' = .done r b := by
  obtain ⟨r', _, _, h⟩ := chain_inv h
  exact ⟨r', h⟩

section
variable {N T W : Type _} {cn : Codec N} {ct : Codec T} {cw : Codec W}

/-! ### Lines -/

theorem linesGo_line : ∀ (l cur rest : List Nat), 10 ∉ l → (cur ++ l).getLast? ≠ some 13 →
    linesGo cur (l ++ 10 :: rest) = (cur ++ l) :: linesGo [] rest
  | [], cur, rest, _, h => by
    rw [List.append_nil] at h
    rw [List.nil_append, linesGo, if_pos rfl, if_neg h, List.append_nil]
  | b :: l, cur, rest, hl, h => by
    rw [List.mem_cons, not_or] at hl
    rw [List.cons_append, linesGo, if_neg (Ne.symm hl.1), linesGo_line l (cur ++ [b]) rest hl.2 (by simpa using h)]
    simp

theorem lines_flatMap : ∀ {L : List (List Nat)}, (∀ l ∈ L, 10 ∉ l ∧ l.getLast? ≠ some 13) → lines (L.flatMap (· ++ [10])) = L
  | [], _ => rfl
  | l :: L, h => by
    have hl := h l List.mem_cons_self
    have ih := lines_flatMap (L := L) fun l' hl' => h l' (List.mem_cons_of_mem _ hl')
    rw [lines] at ih ⊢
    rw [List.flatMap_cons, List.append_assoc, List.singleton_append, linesGo_line l [] _ hl.1 (by simpa using hl.2), ih, List.nil_append]

theorem mem_commaSep {A : Type _} {f : A → List Nat} {b : Nat} {l : List A} (h : b ∈ commaSep f l) : (∃ a ∈ l, b ∈ f a) ∨ b = 44 ∨ b = 32 := by
  cases l with
  | nil => simp [commaSep] at h
  | cons a l =>
    rw [commaSep_cons, List.mem_append, List.mem_flatMap] at h
    rcases h with h | ⟨a', ha', h⟩
    · exact .inl ⟨a, List.mem_cons_self, h⟩
    · simp only [List.mem_cons] at h
      rcases h with h | h | h
      · exact .inr (.inl h)
      · exact .inr (.inr h)
      · exact .inl ⟨a', List.mem_cons_of_mem _ ha', h⟩

theorem natText_line (n : Nat) : 10 ∉ natText n := by
  intro h
  have := natText_digit n 10 h
  simp at this

theorem quoted_line {A : Type _} {c : Codec A} {a : A} (h : 10 ∉ c.text a) : 10 ∉ quoted c a := by simp [quoted, h]

theorem ruleText_line {r : PMCFGRule N T W} (h : GoodPmcfgRule cn ct cw r) (hl : RuleOnLine cn ct r) :
    10 ∉ PMCFGRule.text cn ct cw r := by
  obtain ⟨h1, h2, h3⟩ := hl
  have hw : 10 ∉ cw.text r.weight := by
    intro h'
    have := h.2.2.2.2.2.2 10 h'
    omega
  have hc : 10 ∉ Composition.text ct r.composition := by
    rw [Composition.text]
    simp only [List.mem_append, List.mem_singleton, not_or]
    refine ⟨⟨by decide, ?_⟩, by decide⟩
    intro h'
    rcases mem_commaSep h' with ⟨l, hl, h'⟩ | h' | h'
    · simp only [List.mem_append, List.mem_singleton] at h'
      rcases h' with (h' | h') | h'
      · cases h'
      · rcases mem_commaSep h' with ⟨x, hx, h'⟩ | h' | h'
        · cases x with
          | var i j =>
            have hi := natText_line i
            have hj := natText_line j
            simp [VarT.text, ascii, hi, hj] at h'
          | t a =>
            have := quoted_line (h3 a (List.mem_flatten_of_mem hl hx))
            simp [VarT.text, ascii, this] at h'
        · cases h'
        · cases h'
      · cases h'
    · cases h'
    · cases h'
  have ht : 10 ∉ commaSep (quoted cn) r.tail := by
    intro h'
    rcases mem_commaSep h' with ⟨n, hn, h'⟩ | h' | h'
    · exact quoted_line (h2 n hn) h'
    · cases h'
    · cases h'
  have hh := quoted_line h1
  simp [PMCFGRule.text, ascii, arrow, hw, hc, ht, hh]

theorem ruleText_parts {r : PMCFGRule N T W} (h : GoodPmcfgRule cn ct cw r) :
    ∃ t s b, PMCFGRule.text cn ct cw r = 34 :: t ∧ PMCFGRule.text cn ct cw r = s ++ [b] ∧ 33 ≤ b ∧ b ≤ 126 := by
  obtain ⟨_, hne, hb⟩ := h.2.2.2.2
  obtain ⟨s, b, e⟩ := List.eq_nil_or_concat (cw.text r.weight) |>.resolve_left hne
  have hs : ∃ s', PMCFGRule.text cn ct cw r = s' ++ [b] := ⟨_, by rw [PMCFGRule.text, e, List.concat_eq_append, ← List.append_assoc]⟩
  obtain ⟨s', hs⟩ := hs
  exact ⟨(PMCFGRule.text cn ct cw r).tail, s', b, rfl, hs, hb b (by simp [e])⟩

theorem grammarLoop_rules [One W] : ∀ {rules : List (PMCFGRule N T W)} (initial : List N) (acc : List (PMCFGRule N T W)),
    (∀ r ∈ rules, GoodPmcfgRule cn ct cw r) →
    grammarLoop cn (PMCFGRule.fromStr cn ct cw) (rules.map (PMCFGRule.text cn ct cw)) initial acc = some (some (initial, acc ++ rules))
  | [], initial, acc, _ => by simp [grammarLoop]
  | r :: rules, initial, acc, h => by
    have hr := h r List.mem_cons_self
    obtain ⟨t, s, b, e1, e2, hb, hb'⟩ := ruleText_parts hr
    have hts : trimStart (PMCFGRule.text cn ct cw r) = 34 :: t := by rw [e1]; exact trimStart_id (by decide)
    have htr : trim (PMCFGRule.text cn ct cw r) = PMCFGRule.text cn ct cw r := trim_id e1 e2 (by decide) (not_white hb (by omega))
    rw [List.map_cons, grammarLoop, hts, if_neg (by simp [ascii]), if_pos ⟨by simp [e1], by simp⟩, htr, PMCFGRule.fromStr, parsePmcfgRule_text hr,
      PResult.toResult]
    simp only
    rw [grammarLoop_rules initial (acc ++ [r]) fun r' hr' => h r' (List.mem_cons_of_mem _ hr')]
    simp

theorem grammarFromStr_text [One W] {line : List Nat} {initial : List N} {rules : List (PMCFGRule N T W)} (hline : 10 ∉ line)
    (hend : line.getLast? = some 93) (hstart : ascii ['i', 'n', 'i', 't', 'i', 'a', 'l', ':'] <+: line)
    (hi : parseInitials cn line = .done [] initial)
    (hr : ∀ r ∈ rules, GoodPmcfgRule cn ct cw r ∧ RuleOnLine cn ct r) :
    grammarFromStr cn (PMCFGRule.fromStr cn ct cw)
      (line ++ [10] ++ [10] ++ rules.flatMap fun r => PMCFGRule.text cn ct cw r ++ [10]) = some (some (initial, rules)) := by
  have e : line ++ [10] ++ [10] ++ (rules.flatMap fun r => PMCFGRule.text cn ct cw r ++ [10]) =
      (line :: [] :: rules.map (PMCFGRule.text cn ct cw)).flatMap (· ++ [10]) := by
    simp [List.flatMap_map]
  have hl : lines (line ++ [10] ++ [10] ++ (rules.flatMap fun r => PMCFGRule.text cn ct cw r ++ [10])) =
      line :: [] :: rules.map (PMCFGRule.text cn ct cw) := by
    rw [e]
    refine lines_flatMap fun l hl => ?_
    simp only [List.mem_cons, List.mem_map] at hl
    rcases hl with rfl | rfl | ⟨r, hr', rfl⟩
    · exact ⟨hline, by simp [hend]⟩
    · simp
    · obtain ⟨t, s, b, e1, e2, hb, hb'⟩ := ruleText_parts (hr r hr').1
      refine ⟨ruleText_line (hr r hr').1 (hr r hr').2, ?_⟩
      rw [e2, List.getLast?_concat]
      simp only [ne_eq, Option.some.injEq]
      omega
  have hts : trimStart line = line := by
    obtain ⟨t, rfl⟩ := hstart
    exact trimStart_id (by decide)
  rw [grammarFromStr, hl, grammarLoop, hts, if_pos hstart, hi, PResult.toResult]
  simp only
  rw [grammarLoop, if_neg (by decide), if_neg (by simp),
    List.nil_append, grammarLoop_rules initial [] fun r h => (hr r h).1, List.nil_append]

end

namespace Props

section
variable {A N T W : Type _} {cn : Codec N} {ct : Codec T} {cw : Codec W}

/-- A symbol between quotes is read back, whatever follows, exactly if it is recovered from its text and each backslash in its text is
followed by a backslash or a quote and each quote is preceded by such a backslash. -/
theorem C48_token {c : Codec A} {a : A} (rest : List Nat) : parseToken c (quoted c a ++ rest) = .done rest a ↔ GoodSymbol c a := by
  have e : quoted c a ++ rest = 34 :: (c.text a ++ 34 :: rest) := by simp [quoted]
  rw [e]
  exact ⟨fun h => (parseToken_quoted_inv h).symm, fun h => parseToken_quoted h.2 h.1 rest⟩

/-- C48 for context-free rules. -/
theorem C48_cfg_rule [One W] {r : CFGRule N T W} (h : GoodCfgRule cn ct cw r) :
    CFGRule.fromStr cn ct cw (CFGRule.text cn ct cw r) = some (some r) := by
  rw [CFGRule.fromStr, parseCfgRule_text h, PResult.toResult]

/-- C48 for PMCFG rules. -/
theorem C48_pmcfg_rule [One W] {r : PMCFGRule N T W} (h : GoodPmcfgRule cn ct cw r) :
    PMCFGRule.fromStr cn ct cw (PMCFGRule.text cn ct cw r) = some (some r) := by
  rw [PMCFGRule.fromStr, parsePmcfgRule_text h, PResult.toResult]

/-- C48 for PMCFGs, if no symbol contains a line break. -/
theorem C48_pmcfg [One W] {g : PMCFG N T W} (hi : ∀ n ∈ g.initial, GoodSymbol cn n ∧ 10 ∉ cn.text n)
    (hr : ∀ r ∈ g.rules, GoodPmcfgRule cn ct cw r ∧ RuleOnLine cn ct r) :
    PMCFG.fromStr cn ct cw (PMCFG.text cn ct cw g) = some (some g) := by
  have e : PMCFG.text cn ct cw g = (ascii ['i', 'n', 'i', 't', 'i', 'a', 'l', ':', ' ', '['] ++ commaSep (quoted cn) g.initial ++ [93]) ++ [10] ++ [10] ++
      g.rules.flatMap fun r => PMCFGRule.text cn ct cw r ++ [10] := by
    simp [PMCFG.text, ascii]
  have hp : parseInitials cn (ascii ['i', 'n', 'i', 't', 'i', 'a', 'l', ':', ' ', '['] ++ commaSep (quoted cn) g.initial ++ [93]) = .done [] g.initial := by
    have e' : ascii ['i', 'n', 'i', 't', 'i', 'a', 'l', ':', ' ', '['] ++ commaSep (quoted cn) g.initial ++ [93] =
        ascii ['i', 'n', 'i', 't', 'i', 'a', 'l', ':'] ++ 32 :: 91 :: (commaSep (quoted cn) g.initial ++ 93 :: []) := by
      simp [ascii]
    rw [e', parseInitials, thn_done (tag_append _ _), thn_done (skip_space _ (not_space_of_cons rfl)),
      parseTokens_text (Or.inr rfl) fun n hn => (hi n hn).1]
  have hline : 10 ∉ ascii ['i', 'n', 'i', 't', 'i', 'a', 'l', ':', ' ', '['] ++ commaSep (quoted cn) g.initial ++ [93] := by
    have : 10 ∉ commaSep (quoted cn) g.initial := by
      intro h
      rcases mem_commaSep h with ⟨n, hn, h⟩ | h | h
      · exact quoted_line (hi n hn).2 h
      · cases h
      · cases h
    simp [ascii, this]
  rw [PMCFG.fromStr, e, grammarFromStr_text hline (by simp) ⟨32 :: 91 :: (commaSep (quoted cn) g.initial ++ [93]), by simp [ascii]⟩ hp hr]
  rfl

/-- C48 for LCFRS: the initial nonterminal is printed without quotes, so it may not contain a byte that ends a token. -/
theorem C48_lcfrs [One W] {g : Lcfrs N T W} (hi : BareSymbol cn g.init)
    (hr : ∀ r ∈ g.rules, GoodPmcfgRule cn ct cw r ∧ RuleOnLine cn ct r) :
    Lcfrs.fromStr cn ct cw (Lcfrs.text cn ct cw g) = some (some g) := by
  obtain ⟨hread, hne, hb⟩ := hi
  have e : Lcfrs.text cn ct cw g = (ascii ['i', 'n', 'i', 't', 'i', 'a', 'l', ':', ' ', '['] ++ cn.text g.init ++ [93]) ++ [10] ++ [10] ++
      g.rules.flatMap fun r => PMCFGRule.text cn ct cw r ++ [10] := by
    simp [Lcfrs.text, ascii]
  have hp : parseInitials cn (ascii ['i', 'n', 'i', 't', 'i', 'a', 'l', ':', ' ', '['] ++ cn.text g.init ++ [93]) = .done [] [g.init] := by
    have e' : ascii ['i', 'n', 'i', 't', 'i', 'a', 'l', ':', ' ', '['] ++ cn.text g.init ++ [93] =
        ascii ['i', 'n', 'i', 't', 'i', 'a', 'l', ':'] ++ 32 :: 91 :: (commaSep cn.text [g.init] ++ 93 :: []) := by
      simp [ascii, commaSep]
    rw [e', parseInitials, thn_done (tag_append _ _), thn_done (skip_space _ (not_space_of_cons rfl))]
    refine parseVec_spec (by decide) ?_ ?_ ?_
    · intro x hx
      simp only [List.mem_singleton] at hx
      subst hx
      obtain ⟨b, t, e⟩ := List.exists_cons_of_ne_nil hne
      obtain ⟨h1, h2, _⟩ := hb b (by simp [e])
      refine ⟨b, t, e, ?_, ?_, h2⟩
      · rintro rfl
        exact h1 (by decide)
      · rintro rfl
        exact h1 (by decide)
    · intro x hx b r hb'
      simp only [List.mem_singleton] at hx
      subst hx
      refine parseToken_unquoted hne (fun b h => (hb b h).1) hread ?_
      intro b' t e
      rw [List.cons.injEq] at e
      rw [← e.1]
      rcases hb' with rfl | rfl <;> decide
    · intro r
      exact parseToken_stop (by decide) (by decide)
  have hline : 10 ∉ ascii ['i', 'n', 'i', 't', 'i', 'a', 'l', ':', ' ', '['] ++ cn.text g.init ++ [93] := by
    have : 10 ∉ cn.text g.init := fun h => (hb 10 h).2.2 rfl
    simp [ascii, this]
  rw [Lcfrs.fromStr, e, grammarFromStr_text hline (by simp) ⟨32 :: 91 :: (cn.text g.init ++ [93]), by simp [ascii]⟩ hp hr]
  rfl

/-- A text without quotes and backslashes can be put between quotes. -/
theorem C48_plain {c : Codec A} {a : A} (h : c.read (c.text a) = some a) (hq : ∀ b ∈ c.text a, b ≠ 34 ∧ b ≠ 92) : GoodSymbol c a := by
  refine ⟨h, ?_⟩
  generalize c.text a = s at hq
  induction s with
  | nil => exact .nil
  | cons b s ih => exact .plain (hq b List.mem_cons_self).1 (hq b List.mem_cons_self).2 (ih fun b' h' => hq b' (List.mem_cons_of_mem _ h'))

/-- If the texts of two nonterminals are never read as the same nonterminal (as for `String`), then a context-free rule is read back only
if its head is `Quotable`: the printer does not escape quotes and backslashes. -/
theorem C48_cfg_head [One W] (hc : ∀ s n, cn.read s = some n → cn.text n = s) {r : CFGRule N T W}
    (h : CFGRule.fromStr cn ct cw (CFGRule.text cn ct cw r) = some (some r)) : Quotable (cn.text r.head) := by
  have e : CFGRule.text cn ct cw r = 34 :: (cn.text r.head ++ 34 :: (32 :: (arrow ++
      32 :: 91 :: (commaSep (LetterT.text cn ct) r.composition ++ 93 :: 32 :: 32 :: 35 :: 32 :: cw.text r.weight)))) := by
    simp [CFGRule.text, quoted, ascii]
  rw [CFGRule.fromStr, e, parseCfgRule] at h
  refine head_quotable (g := CFGRule.head) hc rfl ?_ rfl h
  intro b i y r' h'
  obtain ⟨_, h'⟩ := thn_inv h'
  obtain ⟨_, h'⟩ := thn_inv h'
  obtain ⟨_, h'⟩ := thn_inv h'
  obtain ⟨_, _, _, h'⟩ := chain_inv h'
  obtain ⟨_, h'⟩ := thn_inv h'
  obtain ⟨_, _, _, h'⟩ := chain_inv h'
  obtain ⟨_, h'⟩ := thn_inv h'
  obtain ⟨_, h'⟩ := thn_inv h'
  rw [ret, PResult.done.injEq] at h'
  rw [← h'.2]

/-- The same for PMCFG rules. -/
theorem C48_pmcfg_head [One W] (hc : ∀ s n, cn.read s = some n → cn.text n = s) {r : PMCFGRule N T W}
    (h : PMCFGRule.fromStr cn ct cw (PMCFGRule.text cn ct cw r) = some (some r)) : Quotable (cn.text r.head) := by
  have e : PMCFGRule.text cn ct cw r = 34 :: (cn.text r.head ++ 34 :: (32 :: (arrow ++ 32 :: (Composition.text ct r.composition ++
      32 :: 40 :: (commaSep (quoted cn) r.tail ++ 41 :: 32 :: 32 :: 35 :: 32 :: cw.text r.weight))))) := by
    simp [PMCFGRule.text, quoted, ascii]
  rw [PMCFGRule.fromStr, e, parsePmcfgRule] at h
  refine head_quotable (g := PMCFGRule.head) hc rfl ?_ rfl h
  intro b i y r' h'
  obtain ⟨_, h'⟩ := thn_inv h'
  obtain ⟨_, h'⟩ := thn_inv h'
  obtain ⟨_, h'⟩ := thn_inv h'
  obtain ⟨_, _, _, h'⟩ := chain_inv h'
  obtain ⟨_, h'⟩ := thn_inv h'
  obtain ⟨_, _, _, h'⟩ := chain_inv h'
  obtain ⟨_, h'⟩ := thn_inv h'
  obtain ⟨_, _, _, h'⟩ := chain_inv h'
  obtain ⟨_, h'⟩ := thn_inv h'
  obtain ⟨_, h'⟩ := thn_inv h'
  obtain ⟨_, h'⟩ := thn_inv h'
  rw [ret, PResult.done.injEq] at h'
  rw [← h'.2]

end

/-! ### Examples and counterexamples -/

namespace C48Example

/-- Strings as symbols. -/
def str : Codec (List Nat) := ⟨id, some⟩

/-- Natural numbers as weights. -/
def num : Codec Nat := ⟨natText, fun s => if s ≠ [] ∧ s.all (fun b => 48 ≤ b && b ≤ 57) then some (digitsValue s) else none⟩

/-- `"S 1" → [T "a", Nt "A-"]  # 7` -/
def cfgRule : CFGRule (List Nat) (List Nat) Nat := ⟨ascii ['S', ' ', '1'], [.value (ascii ['a']), .label (ascii ['A', '-'])], 7⟩

/-- `"S" → [[Var 0 12, T "\\\""], []] ("A", "B")  # 10` -/
def pmcfgRule : PMCFGRule (List Nat) (List Nat) Nat :=
  ⟨ascii ['S'], [ascii ['A'], ascii ['B']], [[.var 0 12, .t (ascii ['\\', '"'])], []], 10⟩

theorem num_good (n : Nat) : GoodWeight num n := by
  refine ⟨?_, natText_ne_nil n, ?_⟩
  · have h : (natText n).all (fun b => 48 ≤ b && b ≤ 57) = true := List.all_eq_true.mpr (natText_digit n)
    simp only [num]
    rw [if_pos ⟨natText_ne_nil n, h⟩, digitsValue_natText]
  · intro b hb
    have := natText_digit n b hb
    simp only [Bool.and_eq_true, decide_eq_true_eq] at this
    omega

theorem cfgRule_good : GoodCfgRule str str num cfgRule := by
  refine ⟨C48_plain rfl (by decide), ?_, ?_, num_good 7⟩
  · intro n hn
    simp only [cfgRule, List.mem_cons, reduceCtorEq, LetterT.label.injEq, false_or, List.not_mem_nil, or_false] at hn
    subst hn
    exact C48_plain rfl (by decide)
  · intro n hn
    simp only [cfgRule, List.mem_cons, reduceCtorEq, LetterT.value.injEq, List.not_mem_nil, or_false] at hn
    subst hn
    exact C48_plain rfl (by decide)

theorem pmcfgRule_good : GoodPmcfgRule str str num pmcfgRule := by
  refine ⟨C48_plain rfl (by decide), ?_, ?_, ?_, num_good 10⟩
  · intro n hn
    simp only [pmcfgRule, List.mem_cons, List.not_mem_nil, or_false] at hn
    rcases hn with rfl | rfl <;> exact C48_plain rfl (by decide)
  · intro t ht
    simp [pmcfgRule] at ht
    subst ht
    exact ⟨rfl, .esc (Or.inl rfl) .nil⟩
  · intro i j h
    simp [pmcfgRule] at h
    obtain ⟨rfl, rfl⟩ := h
    decide

example : CFGRule.fromStr str str num (CFGRule.text str str num cfgRule) = some (some cfgRule) := C48_cfg_rule cfgRule_good
example : PMCFGRule.fromStr str str num (PMCFGRule.text str str num pmcfgRule) = some (some pmcfgRule) := C48_pmcfg_rule pmcfgRule_good

example : PMCFG.fromStr str str num (PMCFG.text str str num ⟨[ascii ['S']], [pmcfgRule, pmcfgRule]⟩) =
    some (some ⟨[ascii ['S']], [pmcfgRule, pmcfgRule]⟩) := by
  refine C48_pmcfg ?_ ?_
  · intro n hn
    simp only [List.mem_singleton] at hn
    subst hn
    exact ⟨C48_plain rfl (by decide), by decide⟩
  · intro r hr
    simp only [List.mem_cons, List.not_mem_nil, or_false, or_self] at hr
    subst hr
    refine ⟨pmcfgRule_good, by decide, by decide, ?_⟩
    intro t ht
    simp [pmcfgRule] at ht
    subst ht
    decide

/-- The grammar with the initial nonterminal `S-1` and no rules. -/
def lcfrs : Lcfrs (List Nat) (List Nat) Nat := ⟨[], ascii ['S', '-', '1']⟩

/-- `"a"b" → []  # 1` -/
def badRule : CFGRule (List Nat) (List Nat) Nat := ⟨ascii ['a', '"', 'b'], [], 1⟩

end C48Example

/-- The property without a condition on the symbols. -/
def C48_unrestricted : Prop :=
  ∀ (r : CFGRule (List Nat) (List Nat) Nat), CFGRule.fromStr C48Example.str C48Example.str C48Example.num
    (CFGRule.text C48Example.str C48Example.str C48Example.num r) = some (some r)

/-- Symbols with quotes are printed without escapes and are not read back. -/
theorem C48_unrestricted_violated : ¬ C48_unrestricted := by
  intro h
  have hq := C48_cfg_head (fun s n hn => (Option.some.inj hn).symm) (h C48Example.badRule)
  have hq' : Quotable [97, 34, 98] := hq
  cases hq' with
  | plain _ _ hq' => cases hq' with
    | plain h _ _ => exact h rfl

/-- The property for the initial nonterminals of LCFRS that are `Quotable`. -/
def C48_lcfrs_unrestricted : Prop :=
  ∀ (g : Lcfrs (List Nat) (List Nat) Nat), GoodSymbol C48Example.str g.init → 10 ∉ g.init →
    (∀ r ∈ g.rules, GoodPmcfgRule C48Example.str C48Example.str C48Example.num r ∧ RuleOnLine C48Example.str C48Example.str r) →
    Lcfrs.fromStr C48Example.str C48Example.str C48Example.num (Lcfrs.text C48Example.str C48Example.str C48Example.num g) = some (some g)

/-- An LCFRS whose initial nonterminal is `S-1` is printed as a text that is not accepted. -/
theorem C48_lcfrs_violated : ¬ C48_lcfrs_unrestricted := by
  intro h
  have h := h C48Example.lcfrs (C48_plain rfl (by decide)) (by decide) (by simp [C48Example.lcfrs])
  have h' : (Lcfrs.fromStr C48Example.str C48Example.str C48Example.num
    (Lcfrs.text C48Example.str C48Example.str C48Example.num C48Example.lcfrs)).map Option.isSome = some false := by decide +kernel
  rw [h] at h'
  cases h'

end Props

end Rustomata
