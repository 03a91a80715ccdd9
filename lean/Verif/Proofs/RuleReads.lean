import Verif.Spec.RuleReads
import Verif.Proofs.Reading
import Verif.Props.AutomatonTextTotal

/-!
# The parsers of rules and transitions read exactly the texts of the grammar
-/

namespace Rustomata
open Nom Spec

section
variable {A Q N T W I : Type _} {cn : Codec N} {ct : Codec T} {cw : Codec W}

theorem tag_error {t i : List Nat} (h : ∃ b t' c i', t = b :: t' ∧ i = c :: i' ∧ b ≠ c) : tag t i = .error := by
  obtain ⟨b, t', c, i', rfl, rfl, h⟩ := h
  exact tag_ne h

theorem parseArrow_iff {q : Parser Nat A} {i r : List Nat} {a : A} : thn parseArrow q i = .done r a ↔ ∃ i', ArrowReads i i' ∧ q i' = .done r a := by
  have h : ∀ i i' u, parseArrow i = .done i' u ↔ ArrowReads i i' := by
    intro i i' u
    constructor
    · intro h
      rw [parseArrow, alt] at h
      split at h
      · rw [alt] at h
        split at h
        · exact .inr (.inr (tag_inv h))
        · exact .inr (.inl (tag_inv h))
      · exact .inl (tag_inv h)
    · rintro (rfl | rfl | rfl)
      · rw [parseArrow, alt_done (tag_append _ _)]
      · rw [parseArrow, alt_error (tag_error (by exact ⟨_, _, _, _, rfl, rfl, by decide⟩)), alt_done (tag_append _ _)]
      · rw [parseArrow, alt_error (tag_error (by exact ⟨_, _, _, _, rfl, rfl, by decide⟩)), alt_error (tag_error (by exact ⟨_, _, _, _, rfl, rfl, by decide⟩)), tag_append]
  rw [thn, chain_iff]
  simp only [h]
  constructor
  · rintro ⟨r', _, h1, h2⟩
    exact ⟨r', h1, h2⟩
  · rintro ⟨r', h1, h2⟩
    exact ⟨r', (), h1, h2⟩

theorem alt_inv {C : Type _} {p q : Parser C A} {i r : List C} {a : A} (h : alt p q i = .done r a) :
    p i = .done r a ∨ p i = .error ∧ q i = .done r a := by
  rw [alt] at h
  split at h
  · rename_i e
    exact .inr ⟨e, h⟩
  · exact .inl h

theorem parseLetterT_iff : Reads (parseLetterT cn ct) (LetterReads cn ct) := by
  intro i r x
  have h1 : ∀ {i}, (thn (tag (ascii ['N', 't'])) <| thn (Nom.takeWhile isSpace) <| chain (parseToken cn) fun a => ret (LetterT.label (T := T) a)) i = .done r x ↔
      ∃ i', i = ascii ['N', 't'] ++ i' ∧ ∃ i₁, Skips i' i₁ ∧ ∃ n, TokenReads cn n i₁ r ∧ x = .label n := by
    intro i
    rw [thn_tag_iff]
    simp only [thn_skip_iff, chain_iff, ret_iff]
    constructor
    · rintro ⟨i', h, i₁, h2, _, n, h3, rfl, rfl⟩
      exact ⟨i', h, i₁, h2, n, (parseToken_iff cn _ _ _).mp h3, rfl⟩
    · rintro ⟨i', h, i₁, h2, n, h3, rfl⟩
      exact ⟨i', h, i₁, h2, _, n, (parseToken_iff cn _ _ _).mpr h3, rfl, rfl⟩
  have h2 : ∀ {i}, (thn (tag (ascii ['T'])) <| thn (Nom.takeWhile isSpace) <| chain (parseToken ct) fun a => ret (LetterT.value (N := N) a)) i = .done r x ↔
      ∃ i', i = ascii ['T'] ++ i' ∧ ∃ i₁, Skips i' i₁ ∧ ∃ n, TokenReads ct n i₁ r ∧ x = .value n := by
    intro i
    rw [thn_tag_iff]
    simp only [thn_skip_iff, chain_iff, ret_iff]
    constructor
    · rintro ⟨i', h, i₁, h2, _, n, h3, rfl, rfl⟩
      exact ⟨i', h, i₁, h2, n, (parseToken_iff ct _ _ _).mp h3, rfl⟩
    · rintro ⟨i', h, i₁, h2, n, h3, rfl⟩
      exact ⟨i', h, i₁, h2, _, n, (parseToken_iff ct _ _ _).mpr h3, rfl, rfl⟩
  constructor
  · intro h
    rcases alt_inv h with h | ⟨_, h⟩
    · obtain ⟨i', rfl, i₁, h3, n, h4, rfl⟩ := h1.mp h
      exact .label h3 h4
    · obtain ⟨i', rfl, i₁, h3, n, h4, rfl⟩ := h2.mp h
      exact .value h3 h4
  · intro h
    cases h with
    | label h3 h4 => exact alt_done (h1.mpr ⟨_, rfl, _, h3, _, h4, rfl⟩)
    | value h3 h4 =>
      rw [parseLetterT, alt_error (thn_error (tag_error (by exact ⟨_, _, _, _, rfl, rfl, by decide⟩)))]
      exact h2.mpr ⟨_, rfl, _, h3, _, h4, rfl⟩

theorem letterReads_lt {x : LetterT N T} {i r : List Nat} (h : LetterReads cn ct x i r) : r.length < i.length := by
  cases h with
  | label h1 h2 =>
    have := skips_le h1
    have := tokenReads_lt h2
    simp only [ascii, List.map_cons, List.map_nil, List.cons_append, List.nil_append, List.length_cons]
    omega
  | value h1 h2 =>
    have := skips_le h1
    have := tokenReads_lt h2
    simp only [ascii, List.map_cons, List.map_nil, List.cons_append, List.nil_append, List.length_cons]
    omega

theorem parseLetters_iff : Reads (parseVec (parseLetterT cn ct) [91] [93] [44]) (VecReads (LetterReads cn ct) 91 93) :=
  parseVec_iff parseLetterT_iff (fun _ _ _ => letterReads_lt) (by decide) fun _ => parseLetterT_error (by decide) (by decide)

/-- A text up to the next space. -/
theorem isNot_space {i w r : List Nat} (hi : ∀ b t, i = b :: t → b ≠ 32) :
    isNot [32] i = .done r w ↔ i = w ++ r ∧ 32 ∉ w ∧ ∀ b t, r = b :: t → b = 32 := by
  constructor
  · intro h
    obtain ⟨h1, h2, h3⟩ := isNot_inv h
    exact ⟨h1, fun h => h2 32 h (by simp), fun b t e => by simpa using h3 b t e⟩
  · rintro ⟨rfl, h1, h2⟩
    cases w with
    | nil =>
      cases r with
      | nil => rfl
      | cons b r => exact absurd (h2 b r rfl) (hi b r rfl)
    | cons b w =>
      refine isNot_append (List.cons_ne_nil _ _) ?_ ?_
      · intro c hc h
        rw [List.mem_singleton] at h
        exact h1 (h ▸ hc)
      · intro c t e
        rw [h2 c t e]
        simp

theorem skips_first {i r : List Nat} (h : Skips i r) : ∀ b t, r = b :: t → b ≠ 32 := by
  obtain ⟨_, _, _, h⟩ := h
  exact fun b t e => (h b t e).1

theorem parseWeight_iff (res : Option W → Parser Nat W) (hres : ∀ o i r v, res o i = .done r v ↔ i = r ∧ o = some v) {i r : List Nat} {v : W} :
    (thn (tag [35]) <| thn (Nom.takeWhile isSpace) <| chain (isNot [32]) fun s => res (cw.read s)) i = .done r v ↔ WeightReads cw v i r := by
  rw [thn_tag_iff]
  simp only [thn_skip_iff, chain_iff, hres]
  constructor
  · rintro ⟨i', rfl, i₁, h1, _, w, h2, rfl, h3⟩
    obtain ⟨rfl, h4, h5⟩ := (isNot_space (skips_first h1)).mp h2
    exact .mk h1 h4 h5 h3
  · rintro ⟨h1, h2, h3, h4⟩
    exact ⟨_, rfl, _, h1, _, _, (isNot_space (skips_first h1)).mpr ⟨rfl, h2, h3⟩, rfl, h4⟩

theorem weightParser_error {p : Parser Nat W} {i : List Nat} (h : ∀ t, i ≠ 35 :: t) : complete (thn (tag [35]) p) i = .error := by
  cases i with
  | nil => rfl
  | cons b i =>
    have : tag [35] (b :: i) = .error := tag_ne fun e => h i (by rw [e])
    rw [complete, thn_error this]

theorem parsePmcfgWeight_iff {i r : List Nat} {o : Option W} :
    parsePmcfgWeight cw i = .done r o ↔ (∃ v, o = some v ∧ WeightReads cw v i r) ∨ (o = none ∧ i = r ∧ ∀ t, i ≠ 35 :: t) := by
  have hres : ∀ (o : Option W) (i r : List Nat) (v : W), unwrapRes o i = .done r v ↔ i = r ∧ o = some v := by
    intro o i r v
    cases o with
    | none => exact ⟨fun h => (by cases h), fun h => (by cases h.2)⟩
    | some w => rw [unwrapRes, PResult.done.injEq, Option.some.injEq]
  by_cases hi : ∃ t, i = 35 :: t
  · obtain ⟨t, rfl⟩ := hi
    have hne : ¬ ∀ t', (35 : Nat) :: t ≠ 35 :: t' := fun h => h t rfl
    rw [parsePmcfgWeight, opt, complete]
    generalize hg : (thn (tag [35]) <| thn (Nom.takeWhile isSpace) <| chain (isNot [32]) fun s => unwrapRes (C := Nat) (cw.read s)) (35 :: t) = g
    have hg' : ∀ r v, g = .done r v ↔ WeightReads cw v (35 :: t) r := fun r v => hg ▸ parseWeight_iff (cw := cw) unwrapRes hres
    cases g with
    | done r' v =>
      simp only [PResult.done.injEq] at hg' ⊢
      constructor
      · rintro ⟨rfl, rfl⟩
        exact .inl ⟨v, rfl, (hg' _ _).mp ⟨rfl, rfl⟩⟩
      · rintro (⟨v', rfl, h⟩ | ⟨_, _, h⟩)
        · obtain ⟨rfl, rfl⟩ := (hg' _ _).mpr h
          exact ⟨rfl, rfl⟩
        · exact absurd h hne
    | panic =>
      simp only [reduceCtorEq, false_iff] at hg' ⊢
      rintro (⟨v', rfl, h⟩ | ⟨_, _, h⟩)
      · exact hg' _ _ h
      · exact hne h
    | error =>
      exfalso
      rw [thn_done (tag_cons _ _), thn, chain, Nom.takeWhile] at hg
      simp only at hg
      generalize hd : t.dropWhile isSpace = d at hg
      have hns : ∀ b t', d = b :: t' → b ≠ 32 := by
        have : Skips t d := skips_iff.mpr ⟨t.takeWhile isSpace, by rw [Nom.takeWhile, hd]⟩
        exact skips_first this
      cases d with
      | nil =>
        rw [chain, isNot] at hg
        simp only at hg
        cases h : cw.read [] <;> rw [h] at hg <;> cases hg
      | cons b d =>
        rw [chain, isNot, if_neg (by simpa using hns b d rfl)] at hg
        simp only at hg
        generalize cw.read _ = x at hg
        cases x <;> cases hg
    | incomplete =>
      exfalso
      rw [thn_done (tag_cons _ _), thn, chain, Nom.takeWhile] at hg
      simp only at hg
      generalize hd : t.dropWhile isSpace = d at hg
      cases d with
      | nil =>
        rw [chain, isNot] at hg
        simp only at hg
        cases h : cw.read [] <;> rw [h] at hg <;> cases hg
      | cons b d =>
        have hns : b ≠ 32 := skips_first (skips_iff.mpr ⟨t.takeWhile isSpace, by rw [Nom.takeWhile, hd]⟩ : Skips t (b :: d)) b d rfl
        rw [chain, isNot, if_neg (by simpa using hns)] at hg
        simp only at hg
        generalize cw.read _ = x at hg
        cases x <;> cases hg
  · have hne : ∀ t, i ≠ 35 :: t := fun t e => hi ⟨t, e⟩
    rw [parsePmcfgWeight, opt_error (weightParser_error hne), PResult.done.injEq]
    constructor
    · rintro ⟨rfl, rfl⟩
      exact .inr ⟨rfl, rfl, hne⟩
    · rintro (⟨v, _, h⟩ | ⟨rfl, rfl, _⟩)
      · cases h
        exact absurd rfl (hne _)
      · exact ⟨rfl, rfl⟩

/-! ### Context-free rules -/

theorem exprRes_iff {o : Option W} {i r : List Nat} {v : W} : exprRes o i = .done r v ↔ i = r ∧ o = some v := by
  cases o with
  | none => exact ⟨fun h => (by cases h), fun h => (by cases h.2)⟩
  | some w => rw [exprRes, PResult.done.injEq, Option.some.injEq]

theorem parseCfgWeight_some {i r : List Nat} {v : W} : parseCfgWeight cw i = .done r (some v) ↔ WeightReads cw v i r := by
  rw [← parseWeight_iff (cw := cw) exprRes (fun _ _ _ _ => exprRes_iff), parseCfgWeight, opt, complete]
  generalize (thn (tag [35]) <| thn (Nom.takeWhile isSpace) <| chain (isNot [32]) fun s => exprRes (C := Nat) (cw.read s)) i = g
  cases g <;> simp

theorem parseCfgWeight_none {i r : List Nat} (h : parseCfgWeight cw i = .done r none) : i = r := by
  rw [parseCfgWeight, opt] at h
  split at h
  · cases h
  · rw [PResult.done.injEq] at h
    exact h.1
  · cases h
  · cases h

theorem cfgEnd_iff {i r : List Nat} {u : Unit} : alt eof (thn (tag [37]) (pmap (Nom.takeWhile fun _ => true) fun _ => ())) i = .done r u ↔
    r = [] ∧ (i = [] ∨ ∃ t, i = 37 :: t) := by
  cases i with
  | nil =>
    have : (eof : Parser Nat Unit) [] = .done [] () := by simp [eof]
    rw [alt_done this, PResult.done.injEq]
    exact ⟨fun h => ⟨h.1.symm, .inl rfl⟩, fun h => ⟨h.1.symm, rfl⟩⟩
  | cons b i =>
    have h1 : (eof : Parser Nat Unit) (b :: i) = .error := by simp [eof]
    rw [alt_error h1, thn_tag_iff]
    constructor
    · rintro ⟨i', e, h⟩
      rw [pmap, chain_done takeWhile_all, ret_iff] at h
      exact ⟨h.1.symm, .inr ⟨i', e⟩⟩
    · rintro ⟨rfl, h⟩
      rcases h with h | ⟨t, h⟩
      · cases h
      · exact ⟨t, h, by rw [pmap, chain_done takeWhile_all, ret]⟩

theorem parseCfgRule_iff [One W] {s r : List Nat} {x : CFGRule N T W} : parseCfgRule cn ct cw s = .done r x ↔ r = [] ∧ CfgRuleReads cn ct cw x s := by
  have hiff : parseCfgRule cn ct cw s = .done r x ↔ ∃ i₁ h, parseToken cn s = .done i₁ h ∧ ∃ i₂, Skips i₁ i₂ ∧ ∃ i₃, ArrowReads i₂ i₃ ∧ ∃ i₄, Skips i₃ i₄ ∧
      ∃ i₅ c, parseVec (parseLetterT cn ct) [91] [93] [44] i₄ = .done i₅ c ∧ ∃ i₆, Skips i₅ i₆ ∧ ∃ i₇ o, parseCfgWeight cw i₆ = .done i₇ o ∧ ∃ i₈, Skips i₇ i₈ ∧
      ∃ i₉ u, alt eof (thn (tag [37]) (pmap (Nom.takeWhile fun _ => true) fun _ => ())) i₈ = .done i₉ u ∧ i₉ = r ∧ ⟨h, c, o.getD 1⟩ = x := by
    rw [parseCfgRule]
    refine chain_iff.trans <| exists_congr fun i₁ => exists_congr fun h => and_congr_right fun _ => thn_skip_iff.trans <| exists_congr fun i₂ =>
      and_congr_right fun _ => parseArrow_iff.trans <| exists_congr fun i₃ => and_congr_right fun _ => thn_skip_iff.trans <| exists_congr fun i₄ =>
      and_congr_right fun _ => chain_iff.trans <| exists_congr fun i₅ => exists_congr fun c => and_congr_right fun _ => thn_skip_iff.trans <|
      exists_congr fun i₆ => and_congr_right fun _ => chain_iff.trans <| exists_congr fun i₇ => exists_congr fun o => and_congr_right fun _ =>
      thn_skip_iff.trans <| exists_congr fun i₈ => and_congr_right fun _ => ?_
    rw [thn, chain_iff]
    simp only [ret_iff]
  rw [hiff]
  clear hiff
  constructor
  · rintro ⟨i₁, h, h1, i₂, h2, i₃, h3, i₄, h4, i₅, c, h5, i₆, h6, i₇, o, h7, i₈, h8, i₉, u, h9, rfl, rfl⟩
    obtain ⟨e, h9'⟩ := cfgEnd_iff.mp h9
    refine ⟨e, ?_⟩
    have h1 := (parseToken_iff cn _ _ _).mp h1
    have h5 := (parseLetters_iff _ _ _).mp h5
    cases o with
    | some v => exact .weight h1 h2 h3 h4 h5 h6 (parseCfgWeight_some.mp h7) h8 h9'
    | none =>
      have e := parseCfgWeight_none h7
      subst e
      have e : i₆ = i₈ := by
        obtain ⟨w, hw⟩ := skips_iff.mp h8
        have h6' : ∀ b t, i₆ = b :: t → isSpace b = false := by
          obtain ⟨_, _, _, h⟩ := h6
          exact fun b t e => isSpace_false (h b t e).1 (h b t e).2
        rw [takeWhile_none h6', PResult.done.injEq] at hw
        exact hw.1
      subst e
      exact .plain h1 h2 h3 h4 h5 h6 h9'
  · rintro ⟨rfl, h⟩
    cases h with
    | weight h1 h2 h3 h4 h5 h6 h7 h8 h9 =>
      exact ⟨_, _, (parseToken_iff cn _ _ _).mpr h1, _, h2, _, h3, _, h4, _, _, (parseLetters_iff _ _ _).mpr h5, _, h6, _, _, parseCfgWeight_some.mpr h7,
        _, h8, _, (), cfgEnd_iff.mpr ⟨rfl, h9⟩, rfl, rfl⟩
    | @plain h c _ i₁ i₂ i₃ i₄ i₅ i₆ h1 h2 h3 h4 h5 h6 h9 =>
      have hw : parseCfgWeight cw i₆ = .done i₆ none := by
        refine opt_error (weightParser_error fun t e => ?_)
        rcases h9 with rfl | ⟨t', rfl⟩ <;> cases e
      have hs : Skips i₆ i₆ := by
        obtain ⟨_, _, _, h⟩ := h6
        exact ⟨[], rfl, by simp, h⟩
      exact ⟨_, _, (parseToken_iff cn _ _ _).mpr h1, _, h2, _, h3, _, h4, _, _, (parseLetters_iff _ _ _).mpr h5, _, h6, _, none, hw,
        _, hs, _, (), cfgEnd_iff.mpr ⟨rfl, h9⟩, rfl, rfl⟩

/-! ### PMCFG rules -/

theorem digit_iff {i r s : List Nat} : digit i = .done r s ↔ s ≠ [] ∧ i = s ++ r ∧ (∀ b ∈ s, 48 ≤ b ∧ b ≤ 57) ∧ ∀ b t, r = b :: t → ¬ (48 ≤ b ∧ b ≤ 57) := by
  constructor
  · intro h
    cases i with
    | nil => cases h
    | cons b i =>
      rw [digit, many1Of, takeWhile1] at h
      split at h
      · rename_i hb
        obtain ⟨h1, h2, h3⟩ := takeWhile_inv (p := fun b => decide (48 ≤ b) && decide (b ≤ 57)) (i := b :: i) (r := r) (s := s) h
        refine ⟨?_, h1, fun b hb => by simpa using h2 b hb, fun b t e => by simpa using h3 b t e⟩
        rintro rfl
        have := h3 b i h1.symm
        rw [hb] at this
        cases this
      · cases h
  · rintro ⟨h1, rfl, h2, h3⟩
    exact takeWhile1_append h1 (fun b hb => by simpa using h2 b hb) fun b t e => by simpa using h3 b t e

theorem digitsRead_iff {i r : List Nat} {n : Nat} : DigitsRead n i r ↔ ∃ s, digit i = .done r s ∧ parseUsize s = some n := by
  constructor
  · rintro ⟨ds, h1, h2, rfl, h4, rfl, h6⟩
    refine ⟨ds.reverse.map (48 + ·), digit_iff.mpr ⟨by simpa using h1, rfl, ?_, h6⟩, ?_⟩
    · intro b hb
      obtain ⟨d, hd, rfl⟩ := List.mem_map.mp hb
      have := h2 d (List.mem_reverse.mp hd)
      omega
    · rw [parseUsize, digitsValue_digits, if_pos h4]
  · rintro ⟨s, h1, h2⟩
    obtain ⟨k1, k2, k3, k4⟩ := digit_iff.mp h1
    have hs : s = ((s.map (· - 48)).reverse).reverse.map (48 + ·) := by
      rw [List.reverse_reverse, List.map_map]
      conv_lhs => rw [← List.map_id s]
      refine List.map_congr_left fun b hb => ?_
      have := k3 b hb
      simp only [id_eq, Function.comp_apply]
      omega
    rw [parseUsize] at h2
    split at h2
    · rename_i hlt
      rw [Option.some.injEq] at h2
      refine ⟨(s.map (· - 48)).reverse, by simpa using k1, ?_, ?_, h2 ▸ hlt, ?_, k4⟩
      · intro d hd
        obtain ⟨b, hb, rfl⟩ := List.mem_map.mp (List.mem_reverse.mp hd)
        have := k3 b hb
        omega
      · rw [← h2, ← digitsValue_digits, ← hs]
      · rw [← hs]
        exact k2
    · cases h2

theorem unwrapRes_iff {B : Type _} {o : Option B} {i r : List Nat} {v : B} : unwrapRes o i = .done r v ↔ i = r ∧ o = some v := by
  cases o with
  | none => exact ⟨fun h => (by cases h), fun h => (by cases h.2)⟩
  | some w => rw [unwrapRes, PResult.done.injEq, Option.some.injEq]

theorem parseVarT_iff : Reads (parseVarT ct) (VarReads ct) := by
  intro i r x
  have h1 : ∀ {i}, (thn (tag (ascii ['V', 'a', 'r'])) <| thn (Nom.takeWhile isSpace) <| chain digit fun i => thn (Nom.takeWhile isSpace) <| chain digit fun j =>
      chain (unwrapRes (parseUsize i)) fun i => chain (unwrapRes (parseUsize j)) fun j => ret (VarT.var (T := T) i j)) i = .done r x ↔
      ∃ i', i = ascii ['V', 'a', 'r'] ++ i' ∧ ∃ i₁, Skips i' i₁ ∧ ∃ i₂ m, DigitsRead m i₁ i₂ ∧ ∃ i₃, Skips i₂ i₃ ∧ ∃ n, DigitsRead n i₃ r ∧ x = .var m n := by
    intro i
    rw [thn_tag_iff]
    simp only [thn_skip_iff, chain_iff, ret_iff, unwrapRes_iff, digitsRead_iff]
    constructor
    · rintro ⟨i', h, i₁, h2, i₂, a, h3, i₃, h4, i₄, b, h5, _, m, ⟨rfl, h6⟩, _, n, ⟨rfl, h7⟩, rfl, rfl⟩
      exact ⟨i', h, i₁, h2, i₂, m, ⟨a, h3, h6⟩, i₃, h4, n, ⟨b, h5, h7⟩, rfl⟩
    · rintro ⟨i', h, i₁, h2, i₂, m, ⟨a, h3, h6⟩, i₃, h4, n, ⟨b, h5, h7⟩, rfl⟩
      exact ⟨i', h, i₁, h2, i₂, a, h3, i₃, h4, _, b, h5, _, m, ⟨rfl, h6⟩, _, n, ⟨rfl, h7⟩, rfl, rfl⟩
  have h2 : ∀ {i}, (thn (tag (ascii ['T'])) <| thn (Nom.takeWhile isSpace) <| chain (parseToken ct) fun a => ret (VarT.t a)) i = .done r x ↔
      ∃ i', i = ascii ['T'] ++ i' ∧ ∃ i₁, Skips i' i₁ ∧ ∃ n, TokenReads ct n i₁ r ∧ x = .t n := by
    intro i
    rw [thn_tag_iff]
    simp only [thn_skip_iff, chain_iff, ret_iff]
    constructor
    · rintro ⟨i', h, i₁, h2, _, n, h3, rfl, rfl⟩
      exact ⟨i', h, i₁, h2, n, (parseToken_iff ct _ _ _).mp h3, rfl⟩
    · rintro ⟨i', h, i₁, h2, n, h3, rfl⟩
      exact ⟨i', h, i₁, h2, _, n, (parseToken_iff ct _ _ _).mpr h3, rfl, rfl⟩
  constructor
  · intro h
    rcases alt_inv h with h | ⟨_, h⟩
    · obtain ⟨i', rfl, i₁, h3, i₂, m, h4, i₃, h5, n, h6, rfl⟩ := h1.mp h
      exact .var h3 h4 h5 h6
    · obtain ⟨i', rfl, i₁, h3, n, h4, rfl⟩ := h2.mp h
      exact .term h3 h4
  · intro h
    cases h with
    | var h3 h4 h5 h6 => exact alt_done (h1.mpr ⟨_, rfl, _, h3, _, _, h4, _, h5, _, h6, rfl⟩)
    | term h3 h4 =>
      rw [parseVarT, alt_error (thn_error (tag_error (by exact ⟨_, _, _, _, rfl, rfl, by decide⟩)))]
      exact h2.mpr ⟨_, rfl, _, h3, _, h4, rfl⟩

theorem digitsRead_le {n : Nat} {i r : List Nat} (h : DigitsRead n i r) : r.length ≤ i.length := by
  obtain ⟨_, _, _, _, _, rfl, _⟩ := h
  simp

theorem varReads_lt {x : VarT T} {i r : List Nat} (h : VarReads ct x i r) : r.length < i.length := by
  cases h with
  | var h1 h2 h3 h4 =>
    have := skips_le h1
    have := skips_le h3
    have := digitsRead_le h2
    have := digitsRead_le h4
    simp only [ascii, List.map_cons, List.map_nil, List.cons_append, List.nil_append, List.length_cons]
    omega
  | term h1 h2 =>
    have := skips_le h1
    have := tokenReads_lt h2
    simp only [ascii, List.map_cons, List.map_nil, List.cons_append, List.nil_append, List.length_cons]
    omega

theorem parseProjection_iff : Reads (parseProjection ct) (VecReads (VarReads ct) 91 93) :=
  parseVec_iff parseVarT_iff (fun _ _ _ => varReads_lt) (by decide) fun _ => parseVarT_error (by decide) (by decide)

theorem parseComposition_iff : Reads (parseComposition ct) (VecReads (VecReads (VarReads ct) 91 93) 91 93) :=
  parseVec_iff parseProjection_iff (fun _ _ _ => vecReads_lt fun _ _ _ => varReads_lt) (by decide) fun r => by
    rw [parseProjection, parseVec, thn_error (tag_ne (by decide))]

theorem many0_tag (i : List Nat) : ∃ r l, many0 (tag [37]) i = .done r l := by
  suffices ∀ n (i : List Nat) acc, ∃ r l, many0Go (tag [37]) n i acc = .done r l from this _ i []
  intro n
  induction n with
  | zero => exact fun i acc => ⟨i, acc, rfl⟩
  | succ n ih =>
    intro i acc
    cases i with
    | nil => exact ⟨[], acc, by rw [many0Go, if_pos rfl]⟩
    | cons b i =>
      by_cases hb : b = 37
      · subst hb
        obtain ⟨r, l, h⟩ := ih i (acc ++ [()])
        refine ⟨r, l, ?_⟩
        rw [many0Go, if_neg (by simp), tag_cons]
        simp only
        rw [if_neg (by intro e; simpa using congrArg List.length e), h]
      · exact ⟨b :: i, acc, by rw [many0Go, if_neg (by simp), tag_ne (Ne.symm hb)]⟩

theorem pmcfgEnd {x y : A} {i r : List Nat} : (thn (many0 (tag [37])) <| thn (Nom.takeWhile fun _ => true) <| ret x) i = .done r y ↔ r = [] ∧ x = y := by
  obtain ⟨r', l, h⟩ := many0_tag i
  rw [thn_done h, thn_done takeWhile_all, ret_iff, eq_comm (a := r)]

theorem parsePmcfgRule_iff [One W] {s r : List Nat} {x : PMCFGRule N T W} :
    parsePmcfgRule cn ct cw s = .done r x ↔ r = [] ∧ PmcfgRuleReads cn ct cw x s := by
  have hiff : parsePmcfgRule cn ct cw s = .done r x ↔ ∃ i₁ h, parseToken cn s = .done i₁ h ∧ ∃ i₂, Skips i₁ i₂ ∧ ∃ i₃, ArrowReads i₂ i₃ ∧ ∃ i₄, Skips i₃ i₄ ∧
      ∃ i₅ c, parseComposition ct i₄ = .done i₅ c ∧ ∃ i₆, Skips i₅ i₆ ∧ ∃ i₇ l, parseSuccessors cn i₆ = .done i₇ l ∧ ∃ i₈, Skips i₇ i₈ ∧
      ∃ i₉ o, parsePmcfgWeight cw i₈ = .done i₉ o ∧ ∃ i', Skips i₉ i' ∧ r = [] ∧ ⟨h, l, c, o.getD 1⟩ = x := by
    rw [parsePmcfgRule]
    simp only [chain_iff, thn_skip_iff, parseArrow_iff, pmcfgEnd]
  have hsucc : Reads (parseSuccessors cn) (VecReads (TokenReads cn) 40 41) := parseTokens_iff cn (.inl rfl)
  have hskip : ∀ i, ∃ i', Skips i i' := fun i => ⟨_, skips_iff.mpr ⟨_, rfl⟩⟩
  rw [hiff]
  clear hiff
  constructor
  · rintro ⟨i₁, h, h1, i₂, h2, i₃, h3, i₄, h4, i₅, c, h5, i₆, h6, i₇, l, h7, i₈, h8, i₉, o, h9, i', h10, rfl, rfl⟩
    refine ⟨rfl, ?_⟩
    have h1 := (parseToken_iff cn _ _ _).mp h1
    have h5 := (parseComposition_iff _ _ _).mp h5
    have h7 := (hsucc _ _ _).mp h7
    rcases parsePmcfgWeight_iff.mp h9 with ⟨v, rfl, h9'⟩ | ⟨rfl, rfl, h9'⟩
    · exact .weight h1 h2 h3 h4 h5 h6 h7 h8 h9'
    · exact .plain h1 h2 h3 h4 h5 h6 h7 h8 h9'
  · rintro ⟨rfl, h⟩
    cases h with
    | @weight _ _ _ v _ _ _ _ _ _ _ _ _ r h1 h2 h3 h4 h5 h6 h7 h8 h9 =>
      obtain ⟨i', h10⟩ := hskip r
      exact ⟨_, _, (parseToken_iff cn _ _ _).mpr h1, _, h2, _, h3, _, h4, _, _, (parseComposition_iff _ _ _).mpr h5, _, h6, _, _, (hsucc _ _ _).mpr h7, _, h8,
        _, _, parsePmcfgWeight_iff.mpr (.inl ⟨_, rfl, h9⟩), i', h10, rfl, rfl⟩
    | @plain _ _ _ _ _ _ _ _ _ _ _ i₈ h1 h2 h3 h4 h5 h6 h7 h8 h9 =>
      obtain ⟨i', h10⟩ := hskip i₈
      exact ⟨_, _, (parseToken_iff cn _ _ _).mpr h1, _, h2, _, h3, _, h4, _, _, (parseComposition_iff _ _ _).mpr h5, _, h6, _, _, (hsucc _ _ _).mpr h7, _, h8,
        _, none, parsePmcfgWeight_iff.mpr (.inr ⟨rfl, rfl, h9⟩), i', h10, rfl, rfl⟩

/-! ### Transitions -/

theorem body_iff {i r body : List Nat} : delimited (tag [40]) (takeUntil 41) (tag [41]) i = .done r body ↔ i = 40 :: (body ++ 41 :: r) ∧ 41 ∉ body := by
  rw [delimited, thn_tag_iff, terminated]
  simp only [chain_iff, tag_iff, ret_iff]
  constructor
  · rintro ⟨i', rfl, i₁, b, h1, i₂, u, rfl, rfl, rfl⟩
    obtain ⟨rfl, h2, _⟩ := takeUntil_inv h1
    exact ⟨rfl, h2⟩
  · rintro ⟨rfl, h⟩
    exact ⟨_, rfl, _, body, takeUntil_spec h, r, (), rfl, rfl, rfl⟩

theorem comment_total (i : List Nat) : ∃ r o, opt (complete parseComment) i = .done r o := by
  cases i with
  | nil => exact ⟨[], none, opt_error rfl⟩
  | cons b i =>
    by_cases hb : b = 37
    · subst hb
      exact ⟨_, _, comment_read i⟩
    · exact ⟨_, _, no_comment fun b' t e => by rw [← (List.cons.inj e).1]; exact hb⟩

theorem unwrapErr_iff {B : Type _} {o : Option (Option B)} {i r : List Nat} {v : B} : unwrapErr o i = .done r v ↔ i = r ∧ o = some (some v) := by
  rcases o with _ | _ | w
  · exact ⟨fun h => (by cases h), fun h => (by cases h.2)⟩
  · exact ⟨fun h => (by cases h), fun h => (by cases h.2)⟩
  · rw [unwrapErr, PResult.done.injEq, Option.some.injEq, Option.some.injEq]

theorem transition_iff [One W] {read : List Nat → Option (Option I)} {instr : I → List Nat → Prop} (hi : ∀ i s, read s = some (some i) ↔ instr i s)
    {t : Transition I T W} {s : List Nat} : Transition.fromStr ct cw read s = some (some t) ↔ TransitionReads ct cw instr t s := by
  have hend : ∀ (body : List Nat) (f : I → Transition I T W) (i : List Nat),
      (∃ r, (thn (Nom.takeWhile isSpace) <| thn (opt (complete parseComment)) <| chain (unwrapErr (read body)) fun k => ret (f k)) i = .done r t) ↔
        ∃ k, instr k body ∧ f k = t := by
    intro body f i
    obtain ⟨i', hs⟩ : ∃ i', Nom.takeWhile isSpace i = .done i' (i.takeWhile isSpace) := ⟨_, rfl⟩
    obtain ⟨i'', o, hc⟩ := comment_total i'
    rw [thn_done hs, thn_done hc]
    simp only [chain_iff, unwrapErr_iff, ret_iff, hi]
    constructor
    · rintro ⟨r, _, k, ⟨rfl, h1⟩, rfl, h2⟩
      exact ⟨k, h1, h2⟩
    · rintro ⟨k, h1, h2⟩
      exact ⟨_, _, k, ⟨rfl, h1⟩, rfl, h2⟩
  rw [Transition.fromStr, toResult_iff]
  constructor
  · rintro ⟨r, h⟩
    rw [parseTransition, thn_tag_iff] at h
    obtain ⟨i, rfl, h⟩ := h
    obtain ⟨i₁, h1, h⟩ := thn_skip_iff.mp h
    obtain ⟨i₂, word, h2, h⟩ := chain_iff.mp h
    obtain ⟨i₃, h3, h⟩ := thn_skip_iff.mp h
    obtain ⟨i₄, body, h4, h⟩ := chain_iff.mp h
    obtain ⟨i₅, h5, h⟩ := thn_skip_iff.mp h
    obtain ⟨i₆, o, h6, h⟩ := chain_iff.mp h
    obtain ⟨k, hk, rfl⟩ := (hend body _ i₆).mp ⟨r, h⟩
    obtain ⟨rfl, h4'⟩ := body_iff.mp h4
    have h2 := (parseTokens_iff ct (.inr rfl) _ _ _).mp h2
    rcases parsePmcfgWeight_iff.mp h6 with ⟨v, rfl, h6'⟩ | ⟨rfl, rfl, h6'⟩
    · exact .weight h1 h2 h3 h4' hk h5 h6'
    · exact .plain h1 h2 h3 h4' hk h5 h6'
  · intro h
    cases h with
    | @weight word k v i i₁ i₂ body i₃ i₄ r h1 h2 h3 h4 hk h5 h6 =>
      obtain ⟨r', h⟩ := (hend body (fun k => ⟨word, v, k⟩) r).mpr ⟨k, hk, rfl⟩
      refine ⟨r', ?_⟩
      rw [parseTransition, thn_tag_iff]
      exact ⟨_, rfl, thn_skip_iff.mpr ⟨_, h1, chain_iff.mpr ⟨_, _, (parseTokens_iff ct (.inr rfl) _ _ _).mpr h2, thn_skip_iff.mpr ⟨_, h3,
        chain_iff.mpr ⟨_, _, body_iff.mpr ⟨rfl, h4⟩, thn_skip_iff.mpr ⟨_, h5, chain_iff.mpr ⟨_, _, parsePmcfgWeight_iff.mpr (.inl ⟨_, rfl, h6⟩), h⟩⟩⟩⟩⟩⟩⟩
    | @plain word k i i₁ i₂ body i₃ i₄ h1 h2 h3 h4 hk h5 h6 =>
      obtain ⟨r', h⟩ := (hend body (fun k => ⟨word, 1, k⟩) i₄).mpr ⟨k, hk, rfl⟩
      refine ⟨r', ?_⟩
      rw [parseTransition, thn_tag_iff]
      exact ⟨_, rfl, thn_skip_iff.mpr ⟨_, h1, chain_iff.mpr ⟨_, _, (parseTokens_iff ct (.inr rfl) _ _ _).mpr h2, thn_skip_iff.mpr ⟨_, h3,
        chain_iff.mpr ⟨_, _, body_iff.mpr ⟨rfl, h4⟩, thn_skip_iff.mpr ⟨_, h5, chain_iff.mpr ⟨_, none, parsePmcfgWeight_iff.mpr (.inr ⟨rfl, rfl, h6⟩), h⟩⟩⟩⟩⟩⟩⟩

end

end Rustomata
