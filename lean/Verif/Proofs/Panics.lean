import Verif.Spec.Panics
import Verif.Proofs.FileReads
import Verif.Props.RuleReads

/-!
# The inputs on which the parsers panic
-/

namespace Rustomata
open Nom Spec

section
variable {A B Q N T W I R : Type _}

/-- The parser panics on the inputs that the predicate describes. -/
def PanicsOn (p : Parser Nat A) (P : List Nat → Prop) : Prop := ∀ i, p i = .panic ↔ P i

theorem chain_panic_iff {C : Type _} {p : Parser C A} {f : A → Parser C B} {i : List C} :
    chain p f i = .panic ↔ p i = .panic ∨ ∃ r a, p i = .done r a ∧ f a r = .panic := by
  refine ⟨chain_panic, ?_⟩
  rintro (h | ⟨r, a, h1, h2⟩)
  · rw [chain, h]
  · rw [chain_done h1, h2]

/-- The parser does not panic on any input. -/
def NoPanic {C : Type _} (p : Parser C A) : Prop := ∀ i, p i ≠ .panic

theorem noPanic_of_tame {C : Type _} {p : Parser C A} (h : Tame (fun _ => False) p) : NoPanic p := fun i hi => h.1 i hi

theorem chain_panic_of {C : Type _} {p : Parser C A} (hp : NoPanic p) {f : A → Parser C B} {i : List C} :
    chain p f i = .panic ↔ ∃ r a, p i = .done r a ∧ f a r = .panic := by
  rw [chain_panic_iff, or_iff_right (hp i)]

theorem thn_skip_panic {q : Parser Nat B} {i : List Nat} : thn (Nom.takeWhile isSpace) q i = .panic ↔ ∃ i', Skips i i' ∧ q i' = .panic := by
  rw [thn, chain_panic_of (noPanic_of_tame (tame_takeWhile _))]
  constructor
  · rintro ⟨r, a, h1, h2⟩
    exact ⟨r, skips_iff.mpr ⟨a, h1⟩, h2⟩
  · rintro ⟨r, h1, h2⟩
    obtain ⟨w, h⟩ := skips_iff.mp h1
    exact ⟨r, w, h, h2⟩

theorem thn_tag_panic {t : List Nat} {q : Parser Nat B} {i : List Nat} : thn (tag t) q i = .panic ↔ ∃ i', i = t ++ i' ∧ q i' = .panic := by
  rw [thn, chain_panic_of (noPanic_of_tame (tame_tag _))]
  simp only [tag_iff]
  exact ⟨fun ⟨r, _, h1, h2⟩ => ⟨r, h1, h2⟩, fun ⟨r, h1, h2⟩ => ⟨r, (), h1, h2⟩⟩

theorem ret_panic {C : Type _} {a : A} {i : List C} : ret a i ≠ .panic := by
  rw [ret]
  exact fun h => by cases h

theorem alt_panic {C : Type _} {p q : Parser C A} (hq : NoPanic q) {i : List C} : alt p q i = .panic ↔ p i = .panic := by
  rw [alt]
  constructor
  · intro h
    split at h
    · exact absurd h (hq i)
    · exact h
  · intro h
    rw [h]

theorem opt_panic {C : Type _} {p : Parser C A} {i : List C} : opt p i = .panic ↔ p i = .panic := by
  rw [opt]
  cases p i <;> simp

theorem complete_panic {C : Type _} {p : Parser C A} {i : List C} : complete p i = .panic ↔ p i = .panic := by
  rw [complete]
  cases p i <;> simp

theorem unwrapRes_panic {o : Option B} {i : List Nat} : unwrapRes o i = .panic ↔ o = none := by
  cases o <;> simp [unwrapRes]

theorem unwrapErr_panic {o : Option (Option B)} {i : List Nat} : unwrapErr o i = .panic ↔ ∀ b, o ≠ some (some b) := by
  rcases o with _ | _ | b <;> simp [unwrapErr]

theorem toResult_none_iff {C : Type _} {x : PResult C A} : x.toResult = none ↔ x = .panic := by
  cases x <;> simp [PResult.toResult]

/-! ### Lists -/

theorem hup_false : Up (fun _ : List Nat => False) := fun _ _ _ h => h

theorem noPanic_parseToken (c : Codec A) : NoPanic (parseToken c) := noPanic_of_tame (tame_parseToken hup_false c)

theorem noPanic_parseTokens (c : Codec A) (o cl sep : List Nat) : NoPanic (parseVec (parseToken c) o cl sep) :=
  noPanic_of_tame (tame_parseVec hup_false (tame_parseToken hup_false c) _ _ _)

theorem comma_iff {i i₁ : List Nat} : (∃ o, opt (tag [44]) i = .done i₁ o) ↔ (i = 44 :: i₁ ∨ i = i₁ ∧ (∀ t, i ≠ 44 :: t) ∧ i ≠ []) := by
  constructor
  · rintro ⟨o, ho⟩
    cases i with
    | nil => cases ho
    | cons b i =>
      by_cases hb : b = 44
      · subst hb
        rw [opt_done (tag_cons _ _), PResult.done.injEq] at ho
        exact .inl (by rw [ho.1])
      · rw [opt_error (tag_ne (Ne.symm hb)), PResult.done.injEq] at ho
        exact .inr ⟨ho.1, fun t e => hb (List.cons.inj e).1, List.cons_ne_nil _ _⟩
  · rintro (rfl | ⟨rfl, h1, h2⟩)
    · exact ⟨_, opt_done (tag_cons _ _)⟩
    · obtain ⟨b, t, rfl⟩ := List.exists_cons_of_ne_nil h2
      exact ⟨_, opt_error (tag_ne (fun e => h1 t (by rw [e])))⟩

theorem itemParser_panic {inner : Parser Nat A} {P : List Nat → Prop} (h : PanicsOn inner P) {i : List Nat} :
    itemParser inner i = .panic ↔ ∃ i₁ i₂, (i = 44 :: i₁ ∨ i = i₁ ∧ (∀ t, i ≠ 44 :: t) ∧ i ≠ []) ∧ Skips i₁ i₂ ∧ P i₂ := by
  have hend : ∀ i₂, (chain inner fun a => thn (Nom.takeWhile isSpace) (ret a)) i₂ = .panic ↔ P i₂ := by
    intro i₂
    rw [chain_panic_iff, ← h i₂, or_iff_left]
    rintro ⟨r, a, _, h2⟩
    obtain ⟨_, _, h3⟩ := thn_skip_panic.mp h2
    exact ret_panic h3
  rw [itemParser, thn, chain_panic_of (noPanic_of_tame (tame_opt (tame_tag _)))]
  simp only [thn_skip_panic, hend, ← comma_iff]
  exact ⟨fun ⟨r, a, h1, i', h2, h3⟩ => ⟨r, i', ⟨a, h1⟩, h2, h3⟩, fun ⟨r, i', ⟨a, h1⟩, h2, h3⟩ => ⟨r, a, h1, i', h2, h3⟩⟩

theorem items_panic {inner : Parser Nat A} {S : A → List Nat → List Nat → Prop} (h : Reads inner S) (hlt : ∀ a i r, S a i r → r.length < i.length)
    {P : List Nat → Prop} (hp : PanicsOn inner P) : ∀ (n : Nat) (i : List Nat) (acc : List A), i.length < n →
      (many0Go (itemParser inner) n i acc = .panic ↔
        ∃ l i₂ i₃ i₄, ItemsRead S l i i₂ ∧ (i₂ = 44 :: i₃ ∨ i₂ = i₃ ∧ (∀ t, i₂ ≠ 44 :: t) ∧ i₂ ≠ []) ∧ Skips i₃ i₄ ∧ P i₄)
  | 0, i, acc, hn => by omega
  | n + 1, i, acc, hn => by
    have hitem := fun i => itemParser_panic hp (i := i)
    rw [many0Go]
    split
    · rename_i hi
      subst hi
      refine ⟨fun h => (by cases h), ?_⟩
      rintro ⟨l, i₂, i₃, i₄, h1, h2, _⟩
      cases h1 with
      | nil => rcases h2 with h2 | ⟨_, _, h2⟩ <;> exact absurd h2 (by simp)
      | cons k1 => rcases k1 with k1 | ⟨_, _, k1⟩ <;> exact absurd k1 (by simp)
    · -- the elements before the panic are the ones that are read
      have hstep : ∀ x, itemParser inner i = x → ∀ l i₂ i₃ i₄, ItemsRead S l i i₂ →
          (i₂ = 44 :: i₃ ∨ i₂ = i₃ ∧ (∀ t, i₂ ≠ 44 :: t) ∧ i₂ ≠ []) → Skips i₃ i₄ → P i₄ →
          x = .panic ∨ ∃ r a l', x = .done r a ∧ ItemsRead S l' r i₂ := by
        intro x hx l i₂ i₃ i₄ h1 h2 h3 h4
        cases h1 with
        | nil => exact .inl (hx ▸ (hitem _).mpr ⟨i₃, i₄, h2, h3, h4⟩)
        | @cons a l' _ j₁ j₂ j₃ j₄ _ k1 k2 k3 k4 k5 => exact .inr ⟨j₄, a, l', hx ▸ (itemParser_iff h).mpr ⟨j₁, j₂, j₃, k1, k2, k3, k4⟩, k5⟩
      split
      · rename_i e
        refine ⟨fun h => (by cases h), ?_⟩
        rintro ⟨l, i₂, i₃, i₄, h1, h2, h3, h4⟩
        rcases hstep _ e l i₂ i₃ i₄ h1 h2 h3 h4 with e | ⟨_, _, _, e, _⟩ <;> cases e
      · rename_i e
        refine ⟨fun h => (by cases h), ?_⟩
        rintro ⟨l, i₂, i₃, i₄, h1, h2, h3, h4⟩
        rcases hstep _ e l i₂ i₃ i₄ h1 h2 h3 h4 with e | ⟨_, _, _, e, _⟩ <;> cases e
      · rename_i e
        obtain ⟨i₁, i₂, h1, h2, h3⟩ := (hitem _).mp e
        exact ⟨fun _ => ⟨[], i, i₁, i₂, .nil, h1, h2, h3⟩, fun _ => rfl⟩
      · rename_i r a e
        have hl := item_lt h hlt e
        rw [if_neg (by rintro rfl; omega), items_panic h hlt hp n r (acc ++ [a]) (by omega)]
        constructor
        · rintro ⟨l, i₂, i₃, i₄, h1, h2, h3, h4⟩
          obtain ⟨j₁, j₂, j₃, k1, k2, k3, k4⟩ := (itemParser_iff h).mp e
          exact ⟨a :: l, i₂, i₃, i₄, .cons k1 k2 k3 k4 h1, h2, h3, h4⟩
        · rintro ⟨l, i₂, i₃, i₄, h1, h2, h3, h4⟩
          rcases hstep _ e l i₂ i₃ i₄ h1 h2 h3 h4 with e' | ⟨r', a', l', e', h5⟩
          · cases e'
          · rw [PResult.done.injEq] at e'
            obtain ⟨rfl, rfl⟩ := e'
            exact ⟨l', i₂, i₃, i₄, h5, h2, h3, h4⟩

theorem parseVec_panic {inner : Parser Nat A} {S : A → List Nat → List Nat → Prop} (h : Reads inner S) (hlt : ∀ a i r, S a i r → r.length < i.length)
    {P : List Nat → Prop} (hp : PanicsOn inner P) {o cl : Nat} : PanicsOn (parseVec inner [o] [cl] [44]) (VecPanics S P o) := by
  intro i
  have hend : ∀ i₁, (chain (many0 (itemParser inner)) fun result => thn (tag [cl]) (ret result)) i₁ = .panic ↔ many0 (itemParser inner) i₁ = .panic := by
    intro i₁
    rw [chain_panic_iff, or_iff_left]
    rintro ⟨r, a, _, h2⟩
    obtain ⟨_, _, h3⟩ := thn_tag_panic.mp h2
    exact ret_panic h3
  have hp' : parseVec inner [o] [cl] [44] i = .panic ↔ ∃ i', i = [o] ++ i' ∧ ∃ i₁, Skips i' i₁ ∧ many0 (itemParser inner) i₁ = .panic := by
    rw [parseVec, thn_tag_panic]
    simp only [thn_skip_panic]
    exact exists_congr fun i' => and_congr_right fun _ => exists_congr fun i₁ => and_congr_right fun _ => hend i₁
  rw [hp']
  constructor
  · rintro ⟨i', rfl, i₁, h1, h2⟩
    obtain ⟨l, i₂, i₃, i₄, h3, h4, h5, h6⟩ := (items_panic h hlt hp _ _ _ (Nat.lt_succ_self _)).mp h2
    exact .mk h1 h3 h4 h5 h6
  · rintro ⟨h1, h2, h3, h4, h5⟩
    exact ⟨_, rfl, _, h1, (items_panic h hlt hp _ _ _ (Nat.lt_succ_self _)).mpr ⟨_, _, _, _, h2, h3, h4, h5⟩⟩

/-! ### Rules of PMCFG -/

theorem numeralReads_iff {i r : List Nat} {n : Nat} : NumeralReads n i r ↔ ∃ s, digit i = .done r s ∧ digitsValue s = n := by
  constructor
  · rintro ⟨ds, h1, h2, rfl, rfl, h6⟩
    refine ⟨ds.reverse.map (48 + ·), digit_iff.mpr ⟨by simpa using h1, rfl, ?_, h6⟩, digitsValue_digits _⟩
    intro b hb
    obtain ⟨d, hd, rfl⟩ := List.mem_map.mp hb
    have := h2 d (List.mem_reverse.mp hd)
    omega
  · rintro ⟨s, h1, h2⟩
    obtain ⟨k1, k2, k3, k4⟩ := digit_iff.mp h1
    have hs : s = ((s.map (· - 48)).reverse).reverse.map (48 + ·) := by
      rw [List.reverse_reverse, List.map_map]
      conv_lhs => rw [← List.map_id s]
      refine List.map_congr_left fun b hb => ?_
      have := k3 b hb
      simp only [id_eq, Function.comp_apply]
      omega
    refine ⟨(s.map (· - 48)).reverse, by simpa using k1, ?_, ?_, ?_, k4⟩
    · intro d hd
      obtain ⟨b, hb, rfl⟩ := List.mem_map.mp (List.mem_reverse.mp hd)
      have := k3 b hb
      omega
    · rw [← h2, ← digitsValue_digits, ← hs]
    · rw [← hs]
      exact k2

theorem parseUsize_none {s : List Nat} : parseUsize s = none ↔ 2 ^ 64 ≤ digitsValue s := by
  rw [parseUsize]
  split
  · simp only [reduceCtorEq, false_iff]
    omega
  · simp only [true_iff]
    omega

theorem noPanic_digit : NoPanic digit := noPanic_of_tame (tame_takeWhile1 _)

variable {cn : Codec N} {ct : Codec T} {cw : Codec W}

theorem parseVarT_panic : PanicsOn (parseVarT ct) VarPanics := by
  intro i
  have hq : NoPanic (thn (tag (ascii ['T'])) <| thn (Nom.takeWhile isSpace) <| chain (parseToken ct) fun a => ret (VarT.t a)) :=
    noPanic_of_tame (tame_thn hup_false (tame_tag _) <| tame_thn hup_false (tame_takeWhile _) <| tame_chain hup_false (tame_parseToken hup_false ct) fun _ => tame_ret _)
  have hend : ∀ (a b r : List Nat), (chain (unwrapRes (parseUsize a)) fun i => chain (unwrapRes (parseUsize b)) fun j => ret (VarT.var (T := T) i j)) r = .panic ↔
      2 ^ 64 ≤ digitsValue a ∨ 2 ^ 64 ≤ digitsValue b := by
    intro a b r
    rw [chain_panic_iff, unwrapRes_panic, parseUsize_none]
    constructor
    · rintro (h | ⟨_, m, _, h⟩)
      · exact .inl h
      · rw [chain_panic_iff, unwrapRes_panic, parseUsize_none] at h
        rcases h with h | ⟨_, _, _, h⟩
        · exact .inr h
        · exact absurd h ret_panic
    · intro h
      by_cases ha : 2 ^ 64 ≤ digitsValue a
      · exact .inl ha
      · refine .inr ⟨r, digitsValue a, unwrapRes_iff.mpr ⟨rfl, by rw [parseUsize, if_pos (by omega)]⟩, ?_⟩
        rw [chain_panic_iff, unwrapRes_panic, parseUsize_none]
        exact .inl (h.resolve_left ha)
  rw [parseVarT, alt_panic hq, thn_tag_panic]
  simp only [thn_skip_panic, chain_panic_of noPanic_digit, hend]
  constructor
  · rintro ⟨i', rfl, i₁, h1, i₂, a, h2, i₃, h3, r, b, h4, h5⟩
    exact .mk h1 (numeralReads_iff.mpr ⟨a, h2, rfl⟩) h3 (numeralReads_iff.mpr ⟨b, h4, rfl⟩) h5
  · rintro ⟨h1, h2, h3, h4, h5⟩
    obtain ⟨a, k2, rfl⟩ := numeralReads_iff.mp h2
    obtain ⟨b, k4, rfl⟩ := numeralReads_iff.mp h4
    exact ⟨_, rfl, _, h1, _, a, k2, _, h3, _, b, k4, h5⟩

theorem parseComposition_panic :
    PanicsOn (parseComposition ct) (VecPanics (VecReads (VarReads ct) 91 93) (VecPanics (VarReads ct) VarPanics 91) 91) :=
  parseVec_panic parseProjection_iff (fun _ _ _ => vecReads_lt fun _ _ _ => varReads_lt)
    (parseVec_panic parseVarT_iff (fun _ _ _ => varReads_lt) parseVarT_panic)

theorem parsePmcfgWeight_panic : PanicsOn (parsePmcfgWeight cw) (WeightPanics cw) := by
  intro i
  rw [parsePmcfgWeight, opt_panic, complete_panic, thn_tag_panic]
  simp only [thn_skip_panic, chain_panic_of (noPanic_of_tame (tame_isNot _)), unwrapRes_panic]
  constructor
  · rintro ⟨i', rfl, i₁, h1, r, w, h2, h3⟩
    obtain ⟨rfl, h4, h5⟩ := (isNot_space (skips_first h1)).mp h2
    exact .mk h1 h4 h5 h3
  · rintro ⟨h1, h2, h3, h4⟩
    exact ⟨_, rfl, _, h1, _, _, (isNot_space (skips_first h1)).mpr ⟨rfl, h2, h3⟩, h4⟩

theorem parseArrow_panic {q : Parser Nat A} {i : List Nat} : thn parseArrow q i = .panic ↔ ∃ i', ArrowReads i i' ∧ q i' = .panic := by
  rw [thn, chain_panic_of (noPanic_of_tame tame_parseArrow)]
  have h : ∀ i', (∃ u, parseArrow i = .done i' u) ↔ ArrowReads i i' := by
    intro i'
    constructor
    · rintro ⟨u, h⟩
      obtain ⟨i'', h1, h2⟩ := (parseArrow_iff (q := ret ()) (i := i) (r := i') (a := ())).mp (by rw [thn_done h, ret])
      rw [ret_iff] at h2
      exact h2.1 ▸ h1
    · intro h
      obtain ⟨r, u, h1, h2⟩ := chain_inv ((parseArrow_iff (q := ret ()) (i := i) (r := i') (a := ())).mpr ⟨i', h, rfl⟩)
      rw [ret_iff] at h2
      exact ⟨u, h2.1 ▸ h1⟩
  simp only [← h]
  exact ⟨fun ⟨r, a, h1, h2⟩ => ⟨r, ⟨a, h1⟩, h2⟩, fun ⟨r, ⟨a, h1⟩, h2⟩ => ⟨r, a, h1, h2⟩⟩

theorem parsePmcfgRule_panic [One W] : PanicsOn (parsePmcfgRule (W := W) cn ct cw) (PmcfgRulePanics cn ct cw) := by
  intro i
  have hend : ∀ (x : PMCFGRule N T W), NoPanic (thn (many0 (tag [37])) <| thn (Nom.takeWhile fun _ => true) <| ret x) := fun x =>
    noPanic_of_tame (tame_thn hup_false (tame_many0 hup_false (tame_tag _)) <| tame_thn hup_false (tame_takeWhile _) <| tame_ret _)
  have hsucc : Reads (parseSuccessors cn) (VecReads (TokenReads cn) 40 41) := parseTokens_iff cn (.inl rfl)
  have hsucc' : NoPanic (parseSuccessors cn) := noPanic_parseTokens cn _ _ _
  have hiff : parsePmcfgRule cn ct cw i = .panic ↔ ∃ i₁ h, parseToken cn i = .done i₁ h ∧ ∃ i₂, Skips i₁ i₂ ∧ ∃ i₃, ArrowReads i₂ i₃ ∧ ∃ i₄, Skips i₃ i₄ ∧
      (parseComposition ct i₄ = .panic ∨ ∃ i₅ c, parseComposition ct i₄ = .done i₅ c ∧ ∃ i₆, Skips i₅ i₆ ∧ ∃ i₇ l, parseSuccessors cn i₆ = .done i₇ l ∧
        ∃ i₈, Skips i₇ i₈ ∧ parsePmcfgWeight cw i₈ = .panic) := by
    rw [parsePmcfgRule]
    simp only [chain_panic_of (noPanic_parseToken cn), thn_skip_panic, parseArrow_panic, chain_panic_iff (p := parseComposition ct), chain_panic_of hsucc',
      chain_panic_iff (p := parsePmcfgWeight cw), hend _ _, and_false, exists_false, or_false]
  rw [hiff]
  constructor
  · rintro ⟨i₁, h, h1, i₂, h2, i₃, h3, i₄, h4, h5 | ⟨i₅, c, h5, i₆, h6, i₇, l, h7, i₈, h8, h9⟩⟩
    · exact .var ((parseToken_iff cn _ _ _).mp h1) h2 h3 h4 ((parseComposition_panic _).mp h5)
    · exact .weight ((parseToken_iff cn _ _ _).mp h1) h2 h3 h4 ((parseComposition_iff _ _ _).mp h5) h6 ((hsucc _ _ _).mp h7) h8 ((parsePmcfgWeight_panic _).mp h9)
  · intro h
    cases h with
    | var h1 h2 h3 h4 h5 => exact ⟨_, _, (parseToken_iff cn _ _ _).mpr h1, _, h2, _, h3, _, h4, .inl ((parseComposition_panic _).mpr h5)⟩
    | weight h1 h2 h3 h4 h5 h6 h7 h8 h9 =>
      exact ⟨_, _, (parseToken_iff cn _ _ _).mpr h1, _, h2, _, h3, _, h4, .inr ⟨_, _, (parseComposition_iff _ _ _).mpr h5, _, h6, _, _, (hsucc _ _ _).mpr h7,
        _, h8, (parsePmcfgWeight_panic _).mpr h9⟩⟩

/-! ### Transitions -/

theorem transition_panic_iff [One W] {read : List Nat → Option (Option I)} {instr : I → List Nat → Prop} (hi : ∀ i s, read s = some (some i) ↔ instr i s)
    {s : List Nat} : Transition.fromStr (W := W) ct cw read s = none ↔ TransitionPanics ct cw instr s := by
  have hend : ∀ (body : List Nat) (f : I → Transition I T W) (i : List Nat),
      (thn (Nom.takeWhile isSpace) <| thn (opt (complete parseComment)) <| chain (unwrapErr (read body)) fun k => ret (f k)) i = .panic ↔
        ∀ k, ¬ instr k body := by
    intro body f i
    obtain ⟨i', hs⟩ : ∃ i', Nom.takeWhile isSpace i = .done i' (i.takeWhile isSpace) := ⟨_, rfl⟩
    obtain ⟨i'', o, hc⟩ := comment_total i'
    rw [thn_done hs, thn_done hc, chain_panic_iff, unwrapErr_panic]
    simp only [ne_eq, hi, ret_panic, and_false, exists_false, or_false]
  have hbody : NoPanic (delimited (tag [40]) (takeUntil 41) (tag [41])) :=
    noPanic_of_tame (tame_thn hup_false (tame_tag _) (tame_terminated hup_false (tame_takeUntil _) (tame_tag _)))
  have hiff : Transition.fromStr (W := W) ct cw read s = none ↔ ∃ i, s = ascii ['T', 'r', 'a', 'n', 's', 'i', 't', 'i', 'o', 'n'] ++ i ∧ ∃ i₁, Skips i i₁ ∧
      ∃ i₂ word, parseVec (parseToken ct) [91] [93] [44] i₁ = .done i₂ word ∧ ∃ i₃, Skips i₂ i₃ ∧
      ∃ i₄ body, delimited (tag [40]) (takeUntil 41) (tag [41]) i₃ = .done i₄ body ∧ ∃ i₅, Skips i₄ i₅ ∧
      (parsePmcfgWeight cw i₅ = .panic ∨ ∃ i₆ o, parsePmcfgWeight cw i₅ = .done i₆ o ∧ ∀ k, ¬ instr k body) := by
    rw [Transition.fromStr, toResult_none_iff, parseTransition]
    simp only [thn_tag_panic, thn_skip_panic (B := Transition I T W) (q := chain (parseVec (parseToken ct) [91] [93] [44]) _),
      thn_skip_panic (B := Transition I T W) (q := chain (delimited (tag [40]) (takeUntil 41) (tag [41])) _),
      thn_skip_panic (B := Transition I T W) (q := chain (parsePmcfgWeight cw) _),
      chain_panic_of (noPanic_parseTokens ct _ _ _), chain_panic_of hbody,
      chain_panic_iff (p := parsePmcfgWeight cw), hend]
  rw [hiff]
  constructor
  · rintro ⟨i, rfl, i₁, h1, i₂, word, h2, i₃, h3, i₄, body, h4, i₅, h5, h6⟩
    obtain ⟨rfl, h4'⟩ := body_iff.mp h4
    have h2 := (parseTokens_iff ct (.inr rfl) _ _ _).mp h2
    rcases h6 with h6 | ⟨i₆, o, h6, h7⟩
    · exact .weight h1 h2 h3 h4' h5 ((parsePmcfgWeight_panic _).mp h6)
    · refine .instruction h1 h2 h3 h4' h5 ?_ h7
      rcases parsePmcfgWeight_iff.mp h6 with ⟨v, rfl, h6'⟩ | ⟨rfl, rfl, h6'⟩
      · exact .inl ⟨v, _, h6'⟩
      · exact .inr h6'
  · intro h
    cases h with
    | weight h1 h2 h3 h4 h5 h6 =>
      exact ⟨_, rfl, _, h1, _, _, (parseTokens_iff ct (.inr rfl) _ _ _).mpr h2, _, h3, _, _, body_iff.mpr ⟨rfl, h4⟩, _, h5,
        .inl ((parsePmcfgWeight_panic _).mpr h6)⟩
    | instruction h1 h2 h3 h4 h5 h6 h7 =>
      refine ⟨_, rfl, _, h1, _, _, (parseTokens_iff ct (.inr rfl) _ _ _).mpr h2, _, h3, _, _, body_iff.mpr ⟨rfl, h4⟩, _, h5, .inr ?_⟩
      rcases h6 with ⟨v, r, h6⟩ | h6
      · exact ⟨_, _, parsePmcfgWeight_iff.mpr (.inl ⟨v, rfl, h6⟩), h7⟩
      · exact ⟨_, none, parsePmcfgWeight_iff.mpr (.inr ⟨rfl, rfl, h6⟩), h7⟩

theorem transitionPanics_first {instr : I → List Nat → Prop} {s : List Nat} (h : TransitionPanics ct cw instr s) : ∃ r, s = 84 :: r := by
  cases h <;> exact ⟨_, rfl⟩

/-! ### Files -/

/-- A loop over lines panics iff it reaches a line on which it panics. -/
theorem loop_none {L S : Type _} {F : List L → S → Option (Option S)} (hnil : ∀ s, F [] s = some (some s))
    (hcons : ∀ l ls s, F (l :: ls) s = match F [l] s with
      | some (some s') => F ls s'
      | some none => some none
      | none => none) : ∀ (ls : List L) (s : S), F ls s = none ↔ ∃ ls₁ l ls₂ s', ls = ls₁ ++ l :: ls₂ ∧ F ls₁ s = some (some s') ∧ F [l] s' = none
  | [], s => by
    rw [hnil]
    simp
  | l :: ls, s => by
    rw [hcons]
    constructor
    · intro h
      split at h
      · rename_i s' e
        obtain ⟨ls₁, l', ls₂, s'', rfl, h1, h2⟩ := (loop_none hnil hcons ls s').mp h
        exact ⟨l :: ls₁, l', ls₂, s'', rfl, by rw [hcons, e]; exact h1, h2⟩
      · cases h
      · rename_i e
        exact ⟨[], l, ls, s, rfl, hnil s, e⟩
    · rintro ⟨ls₁, l', ls₂, s'', h, h1, h2⟩
      cases ls₁ with
      | nil =>
        rw [List.nil_append, List.cons.injEq] at h
        rw [hnil, Option.some.injEq, Option.some.injEq] at h1
        rw [h.1, h1, h2]
      | cons k ls₁ =>
        rw [List.cons_append, List.cons.injEq] at h
        obtain ⟨rfl, rfl⟩ := h
        rw [hcons] at h1
        split at h1
        · rename_i s' e
          exact (loop_none hnil hcons _ s').mpr ⟨ls₁, l', ls₂, s'', rfl, h1, h2⟩
        · cases h1
        · cases h1

theorem grammarLoop_none_iff {cn : Codec N} {read : List Nat → Option (Option R)} {rule : R → List Nat → Prop} (hr : ∀ r s, read s = some (some r) ↔ rule r s)
    {P : List Nat → Prop} (hP : ∀ s, read s = none ↔ P s) {s : List Nat} : grammarFromStr cn read s = none ↔ GrammarPanics cn rule P s := by
  have hloop := loop_none (F := fun ls (x : List N × List R) => grammarLoop cn read ls x.1 x.2) (fun x => rfl) (fun l ls x => by
    simp only [grammarLoop]
    split
    · cases (parseInitials cn l).toResult with
      | none => rfl
      | some o => cases o <;> rfl
    · split
      · cases read (trim l) with
        | none => rfl
        | some o => cases o <;> rfl
      · rfl) (lines s) ([], [])
  have hline : ∀ (l : List Nat) (x : List N × List R), grammarLoop cn read [l] x.1 x.2 = none ↔
      ∃ t, Trims l t ∧ l ≠ [] ∧ ¬ ascii ['i', 'n', 'i', 't', 'i', 'a', 'l', ':'] <+: t ∧ ¬ [37] <+: t ∧ P t := by
    intro l x
    have hini := prefix_trim (t := ascii ['i', 'n', 'i', 't', 'i', 'a', 'l', ':']) (l := l) rfl rfl
    have hcom := prefix_trim (t := [37]) (l := l) rfl rfl
    have hP' := hP (trim l)
    simp only [grammarLoop, hini, hcom]
    constructor
    · intro h
      split at h
      · split at h
        · cases h
        · cases h
        · rename_i e
          exact absurd (toResult_none e) (noPanic_of_tame (tame_parseInitials hup_false cn) l)
      · rename_i h0
        split at h
        · rename_i hl
          split at h
          · cases h
          · cases h
          · rename_i e
            exact ⟨trim l, trim_trims l, hl.1, h0, hl.2, hP'.mp e⟩
        · cases h
    · rintro ⟨t, h1, h2, h3, h4, h5⟩
      rw [← trim_iff.mpr h1] at h3 h4 h5
      rw [if_neg h3, if_pos ⟨h2, h4⟩, hP'.mpr h5]
  rw [grammarFromStr, hloop]
  simp only [hline]
  constructor
  · rintro ⟨ls₁, l, ls₂, x, h1, h2, t, h3⟩
    obtain ⟨ns, rs, h4, _, _⟩ := (grammarLoop_iff hr _ _ _ _ _).mp h2
    exact ⟨ls₁, l, ls₂, ns, rs, t, h1 ▸ lines_iff.mp rfl, h4, h3⟩
  · rintro ⟨ls₁, l, ls₂, ns, rs, t, h1, h2, h3⟩
    exact ⟨ls₁, l, ls₂, ([] ++ ns, [] ++ rs), lines_iff.mpr h1, (grammarLoop_iff hr _ _ _ _ _).mpr ⟨ns, rs, h2, rfl, rfl⟩, t, h3⟩

section
variable {c : Codec Q} {read : List Nat → Option (Option R)} {trans : R → List Nat → Prop} {P : List Nat → Prop}

theorem noPanic_parseInitial (c : Codec Q) : NoPanic (parseInitial c) := noPanic_of_tame (tame_thn hup_false (tame_tag _) <|
  tame_thn hup_false (tame_takeWhile _) <| tame_chain hup_false (tame_parseToken hup_false c) fun _ => tame_thn hup_false (tame_takeWhile _) (tame_ret _))

theorem noPanic_parseFinals (c : Codec Q) : NoPanic (parseFinals c) := noPanic_of_tame (tame_thn hup_false (tame_tag _) <|
  tame_thn hup_false (tame_takeWhile _) <| tame_parseVec hup_false (tame_parseToken hup_false c) _ _ _)

/-- What can be said about a line if the rest after white space begins with `T`. -/
theorem trimStart_of_trims {l t : List Nat} (h : Trims l (84 :: t)) : ∃ t', trimStart l = 84 :: t' :=
  trims_start (by decide) h

theorem not_initial (t : List Nat) : ¬ initialTag <+: 84 :: t := fun h => absurd (List.cons_prefix_cons.mp h).1 (by decide)

theorem not_final (t : List Nat) : ¬ finalTag <+: 84 :: t := fun h => absurd (List.cons_prefix_cons.mp h).1 (by decide)

theorem fsaLoop_none_iff (hr : ∀ r s, read s = some (some r) ↔ trans r s) (htr : ∀ t s, trans t s → ∃ r, s = 84 :: r) (hP : ∀ s, read s = none ↔ P s)
    (hPt : ∀ s, P s → ∃ r, s = 84 :: r) {s : List Nat} : fsaLoop c read (lines s) none [] [] = none ↔ AutomatonPanics True c trans P s := by
  have hloop := loop_none (F := fun ls (x : Option Q × List Q × List R) => fsaLoop c read ls x.1 x.2.1 x.2.2) (fun x => rfl) (fun l ls x => by
    simp only [fsaLoop]
    split
    · cases (parseInitial c (trimStart l)).toResult with
      | none => rfl
      | some o => cases o <;> rfl
    · split
      · cases (parseFinals c (trimStart l)).toResult with
        | none => rfl
        | some o => cases o <;> rfl
      · split
        · cases read (trim l) with
          | none => rfl
          | some o => cases o <;> rfl
        · rfl) (lines s) (none, [], [])
  have hline : ∀ (l : List Nat) (x : Option Q × List Q × List R), fsaLoop c read [l] x.1 x.2.1 x.2.2 = none ↔ ∃ t, Trims l t ∧ P t := by
    intro l x
    have hP' := hP (trim l)
    simp only [fsaLoop]
    constructor
    · intro h
      split at h
      · split at h
        · cases h
        · cases h
        · rename_i e
          exact absurd (toResult_none e) (noPanic_parseInitial c _)
      · split at h
        · split at h
          · cases h
          · cases h
          · rename_i e
            exact absurd (toResult_none e) (noPanic_parseFinals c _)
        · split at h
          · split at h
            · cases h
            · cases h
            · rename_i e
              exact ⟨trim l, trim_trims l, hP'.mp e⟩
          · cases h
    · rintro ⟨t, h1, h2⟩
      obtain ⟨r, rfl⟩ := hPt _ h2
      obtain ⟨t', e⟩ := trimStart_of_trims h1
      rw [e, if_neg (not_initial _), if_neg (not_final _),
        if_pos ⟨(by rintro rfl; cases e), fun h => absurd (List.cons_prefix_cons.mp h).1 (by decide)⟩, hP'.mpr (trim_iff.mpr h1 ▸ h2)]
  rw [hloop]
  simp only [hline]
  constructor
  · rintro ⟨ls₁, l, ls₂, x, h1, h2, t, h3⟩
    obtain ⟨ds, h4, _⟩ := (fsaLoop_iff hr htr _ _ _ _ _).mp h2
    exact ⟨ls₁, l, ls₂, ds, t, h1 ▸ lines_iff.mp rfl, h4, h3⟩
  · rintro ⟨ls₁, l, ls₂, ds, t, h1, h2, h3⟩
    exact ⟨ls₁, l, ls₂, declResult ds none [] [], lines_iff.mpr h1, (fsaLoop_iff hr htr _ _ _ _ _).mpr ⟨ds, h2, rfl⟩, t, h3⟩

theorem tsaLoop_none_iff (hr : ∀ r s, read s = some (some r) ↔ trans r s) (htr : ∀ t s, trans t s → ∃ r, s = 84 :: r) (hP : ∀ s, read s = none ↔ P s)
    (hPt : ∀ s, P s → ∃ r, s = 84 :: r) {s : List Nat} : tsaLoop c read (lines s) none [] = none ↔ AutomatonPanics False c trans P s := by
  have hloop := loop_none (F := fun ls (x : Option Q × List R) => tsaLoop c read ls x.1 x.2) (fun x => rfl) (fun l ls x => by
    simp only [tsaLoop]
    split
    · cases (parseInitial c (trimStart l)).toResult with
      | none => rfl
      | some o => cases o <;> rfl
    · split
      · cases read (trim l) with
        | none => rfl
        | some o => cases o <;> rfl
      · rfl) (lines s) (none, [])
  have hline : ∀ (l : List Nat) (x : Option Q × List R), tsaLoop c read [l] x.1 x.2 = none ↔ ∃ t, Trims l t ∧ P t := by
    intro l x
    have hP' := hP (trim l)
    simp only [tsaLoop]
    constructor
    · intro h
      split at h
      · split at h
        · cases h
        · cases h
        · rename_i e
          exact absurd (toResult_none e) (noPanic_parseInitial c _)
      · split at h
        · split at h
          · cases h
          · cases h
          · rename_i e
            exact ⟨trim l, trim_trims l, hP'.mp e⟩
        · cases h
    · rintro ⟨t, h1, h2⟩
      obtain ⟨r, rfl⟩ := hPt _ h2
      obtain ⟨t', e⟩ := trimStart_of_trims h1
      rw [e, if_neg (not_initial _),
        if_pos ⟨(by rintro rfl; cases e), fun h => absurd (List.cons_prefix_cons.mp h).1 (by decide)⟩, hP'.mpr (trim_iff.mpr h1 ▸ h2)]
  rw [hloop]
  simp only [hline]
  constructor
  · rintro ⟨ls₁, l, ls₂, x, h1, h2, t, h3⟩
    obtain ⟨ds, h4, _⟩ := (tsaLoop_iff hr htr _ _ _ _).mp h2
    exact ⟨ls₁, l, ls₂, ds, t, h1 ▸ lines_iff.mp rfl, h4, h3⟩
  · rintro ⟨ls₁, l, ls₂, ds, t, h1, h2, h3⟩
    exact ⟨ls₁, l, ls₂, tsaResult ds none [], lines_iff.mpr h1, (tsaLoop_iff hr htr _ _ _ _).mpr ⟨ds, h2, rfl⟩, t, h3⟩

end

end

end Rustomata
