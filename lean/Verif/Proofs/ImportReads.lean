import Verif.Spec.ImportReads
import Verif.Proofs.Panics
import Verif.Props.ImportTotal

/-!
# What the importers read from an arbitrary text
-/

namespace Rustomata
open Nom Spec

section Lists
variable {A B : Type _} {S : List Nat → List Nat → Prop} {R : A → List Nat → List Nat → Prop} {P : List Nat → Prop} {sep : Parser Nat B} {p : Parser Nat A}

theorem complete_iff {C : Type _} {p : Parser C A} {i r : List C} {a : A} : complete p i = .done r a ↔ p i = .done r a := by
  unfold complete
  cases p i <;> simp

theorem tailReads_iff {l : List A} {i r : List Nat} : TailReads S R P l i r ↔ (l = [] ∧ r = i ∧ ∀ i', S i i' → ¬ P i' ∧ ∀ a r, ¬ R a i' r) ∨
    ∃ a l' i' i'', l = a :: l' ∧ S i i' ∧ R a i' i'' ∧ TailReads S R P l' i'' r := by
  constructor
  · intro h
    cases h with
    | stop h => exact .inl ⟨rfl, rfl, h⟩
    | cons h1 h2 h3 => exact .inr ⟨_, _, _, _, rfl, h1, h2, h3⟩
  · rintro (⟨rfl, rfl, h⟩ | ⟨a, l', i', i'', rfl, h1, h2, h3⟩)
    · exact .stop h
    · exact .cons h1 h2 h3

theorem tailPanics_iff {i : List Nat} : TailPanics S R P i ↔ ∃ i', S i i' ∧ (P i' ∨ ∃ a i'', R a i' i'' ∧ TailPanics S R P i'') := by
  constructor
  · intro h
    cases h with
    | here h1 h2 => exact ⟨_, h1, .inl h2⟩
    | later h1 h2 h3 => exact ⟨_, h1, .inr ⟨_, _, h2, h3⟩⟩
  · rintro ⟨i', h1, h2 | ⟨a, i'', h2, h3⟩⟩
    · exact .here h1 h2
    · exact .later h1 h2 h3

/-- The relations describe the parsers of a list. -/
structure ListSpec (S : List Nat → List Nat → Prop) (R : A → List Nat → List Nat → Prop) (P : List Nat → Prop) (sep : Parser Nat B) (p : Parser Nat A) : Prop where
  sep_done : ∀ i i', S i i' ↔ ∃ b, sep i = .done i' b
  sep_panic : NoPanic sep
  sep_lt : ∀ i i', S i i' → i'.length < i.length
  elem : ∀ a i r, R a i r ↔ p i = .done r a ∧ r.length ≠ i.length
  elem_lt : ∀ a i r, R a i r → r.length < i.length
  elem_panic : ∀ i, P i ↔ p i = .panic

theorem sepGo_iff (h : ListSpec S R P sep p) (n : Nat) (i : List Nat) (acc : List A) (hn : i.length < n) :
    (∀ r l, sepGo (complete sep) (complete p) n i acc = .done r l ↔ ∃ l', l = acc ++ l' ∧ TailReads S R P l' i r) ∧
    (sepGo (complete sep) (complete p) n i acc = .panic ↔ TailPanics S R P i) := by
  induction n generalizing i acc with
  | zero => omega
  | succ n ih =>
    rw [sepGo]
    have hstop : (∀ i', S i i' → ¬ P i' ∧ ∀ a r, ¬ R a i' r) →
        (∀ r l, PResult.done i acc = .done r l ↔ ∃ l', l = acc ++ l' ∧ TailReads S R P l' i r) ∧ ((PResult.done i acc : PResult Nat (List A)) = .panic ↔ TailPanics S R P i) := by
      intro hs
      refine ⟨fun r l => ?_, ?_⟩
      · rw [PResult.done.injEq]
        constructor
        · rintro ⟨rfl, rfl⟩
          exact ⟨[], by simp, .stop hs⟩
        · rintro ⟨l', rfl, ht⟩
          rcases tailReads_iff.mp ht with ⟨rfl, rfl, -⟩ | ⟨a, l'', i', i'', rfl, h1, h2, -⟩
          · simp
          · exact absurd h2 ((hs i' h1).2 a i'')
      · rw [tailPanics_iff]
        constructor
        · intro e; cases e
        · rintro ⟨i', h1, h2 | ⟨a, i'', h2, -⟩⟩
          · exact absurd h2 (hs i' h1).1
          · exact absurd h2 ((hs i' h1).2 a i'')
    have hne : ∀ {i' i''}, S i i' → S i i'' → i' = i'' := by
      intro i' i'' h1 h2
      obtain ⟨b, e1⟩ := (h.sep_done _ _).mp h1
      obtain ⟨c, e2⟩ := (h.sep_done _ _).mp h2
      rw [e1, PResult.done.injEq] at e2
      exact e2.1
    cases h1 : complete sep i with
    | error =>
      refine hstop fun i' hs => ?_
      obtain ⟨b, e⟩ := (h.sep_done _ _).mp hs
      rw [complete_iff.mpr e] at h1
      cases h1
    | incomplete => exact absurd h1 (complete_not_incomplete _ _)
    | panic => exact absurd (complete_panic.mp h1) (h.sep_panic i)
    | done i₂ b =>
      have hs : S i i₂ := (h.sep_done _ _).mpr ⟨b, complete_iff.mp h1⟩
      have hlt := h.sep_lt _ _ hs
      simp only
      rw [if_neg (by omega)]
      cases h2 : complete p i₂ with
      | incomplete => exact absurd h2 (complete_not_incomplete _ _)
      | error =>
        refine hstop fun i' hs' => ?_
        cases hne hs hs'
        refine ⟨fun hp => ?_, fun a r hr => ?_⟩
        · rw [complete_panic.mpr ((h.elem_panic _).mp hp)] at h2
          cases h2
        · rw [complete_iff.mpr ((h.elem _ _ _).mp hr).1] at h2
          cases h2
      | panic =>
        have hp : P i₂ := (h.elem_panic _).mpr (complete_panic.mp h2)
        refine ⟨fun r l => ?_, ?_⟩
        · constructor
          · intro e; cases e
          · rintro ⟨l', rfl, ht⟩
            rcases tailReads_iff.mp ht with ⟨rfl, rfl, hh⟩ | ⟨a, l'', i', i'', rfl, k1, k2, -⟩
            · exact absurd hp (hh _ hs).1
            · cases hne hs k1
              have := complete_panic.mp h2
              rw [((h.elem _ _ _).mp k2).1] at this
              cases this
        · exact ⟨fun _ => .here hs hp, fun _ => rfl⟩
      | done r₂ a =>
        have hd := complete_iff.mp h2
        simp only
        split
        · rename_i hl
          refine hstop fun i' hs' => ?_
          cases hne hs hs'
          refine ⟨fun hp => ?_, fun a' r hr => ?_⟩
          · rw [(h.elem_panic _).mp hp] at hd
            cases hd
          · obtain ⟨e1, e2⟩ := (h.elem _ _ _).mp hr
            rw [hd, PResult.done.injEq] at e1
            exact e2 (e1.1 ▸ hl)
        · rename_i hl
          have hr : R a i₂ r₂ := (h.elem _ _ _).mpr ⟨hd, hl⟩
          have hrl := h.elem_lt _ _ _ hr
          obtain ⟨g1, g2⟩ := ih r₂ (acc ++ [a]) (by omega)
          have hu : ∀ {a' i''}, R a' i₂ i'' → a = a' ∧ r₂ = i'' := by
            intro a' i'' k
            have := ((h.elem _ _ _).mp k).1
            rw [hd, PResult.done.injEq] at this
            exact ⟨this.2, this.1⟩
          have hnp : ¬ P i₂ := fun hp => by
            rw [(h.elem_panic _).mp hp] at hd
            cases hd
          refine ⟨fun r l => ?_, ?_⟩
          · rw [g1]
            constructor
            · rintro ⟨l', rfl, ht⟩
              exact ⟨a :: l', by simp, .cons hs hr ht⟩
            · rintro ⟨l', rfl, ht⟩
              rcases tailReads_iff.mp ht with ⟨rfl, rfl, hh⟩ | ⟨a', l'', i', i'', rfl, k1, k2, k3⟩
              · exact absurd hr ((hh _ hs).2 _ _)
              · cases hne hs k1
                obtain ⟨rfl, rfl⟩ := hu k2
                exact ⟨l'', by simp, k3⟩
          · rw [g2]
            constructor
            · exact fun hp => .later hs hr hp
            · intro hp
              obtain ⟨i', k1, k2 | ⟨a', i'', k2, k3⟩⟩ := tailPanics_iff.mp hp
              · cases hne hs k1
                exact absurd k2 hnp
              · cases hne hs k1
                obtain ⟨rfl, rfl⟩ := hu k2
                exact k3

theorem sepList1_iff (h : ListSpec S R P sep p) (i : List Nat) :
    (∀ r l, sepList1 sep p i = .done r l ↔ List1Reads S R P l i r) ∧ (sepList1 sep p i = .panic ↔ ListPanics S R P i) := by
  rw [sepList1]
  cases h2 : complete p i with
  | incomplete => exact absurd h2 (complete_not_incomplete _ _)
  | error =>
    have h1 : ∀ a r, ¬ R a i r := fun a r hr => by
      rw [complete_iff.mpr ((h.elem _ _ _).mp hr).1] at h2
      cases h2
    refine ⟨fun r l => ⟨fun e => (by cases e), fun e => ?_⟩, ⟨fun e => (by cases e), fun e => ?_⟩⟩
    · cases e with
      | mk k1 _ => exact absurd k1 (h1 _ _)
    · cases e with
      | here hp =>
        rw [complete_panic.mpr ((h.elem_panic _).mp hp)] at h2
        cases h2
      | later k1 _ => exact absurd k1 (h1 _ _)
  | panic =>
    refine ⟨fun r l => ⟨fun e => (by cases e), fun e => ?_⟩, ⟨fun _ => .here ((h.elem_panic _).mpr (complete_panic.mp h2)), fun _ => rfl⟩⟩
    cases e with
    | mk k1 _ =>
      rw [complete_iff.mpr ((h.elem _ _ _).mp k1).1] at h2
      cases h2
  | done r₂ a =>
    have hd := complete_iff.mp h2
    have hnp : ¬ P i := fun hp => by
      rw [(h.elem_panic _).mp hp] at hd
      cases hd
    simp only
    split
    · rename_i hl
      have h1 : ∀ a r, ¬ R a i r := fun a' r hr => by
        obtain ⟨e1, e2⟩ := (h.elem _ _ _).mp hr
        rw [hd, PResult.done.injEq] at e1
        exact e2 (e1.1 ▸ hl)
      refine ⟨fun r l => ⟨fun e => (by cases e), fun e => ?_⟩, ⟨fun e => (by cases e), fun e => ?_⟩⟩
      · cases e with
        | mk k1 _ => exact absurd k1 (h1 _ _)
      · cases e with
        | here hp => exact absurd hp hnp
        | later k1 _ => exact absurd k1 (h1 _ _)
    · rename_i hl
      have hr : R a i r₂ := (h.elem _ _ _).mpr ⟨hd, hl⟩
      have hrl := h.elem_lt _ _ _ hr
      obtain ⟨g1, g2⟩ := sepGo_iff h (i.length + 1) r₂ [a] (by omega)
      have hu : ∀ {a' i''}, R a' i i'' → a = a' ∧ r₂ = i'' := by
        intro a' i'' k
        have := ((h.elem _ _ _).mp k).1
        rw [hd, PResult.done.injEq] at this
        exact ⟨this.2, this.1⟩
      refine ⟨fun r l => ?_, ?_⟩
      · rw [g1]
        constructor
        · rintro ⟨l', rfl, ht⟩
          exact .mk hr ht
        · intro e
          cases e with
          | mk k1 k2 =>
            obtain ⟨rfl, rfl⟩ := hu k1
            exact ⟨_, rfl, k2⟩
      · rw [g2]
        constructor
        · exact fun hp => .later hr hp
        · intro hp
          cases hp with
          | here k => exact absurd k hnp
          | later k1 k2 =>
            obtain ⟨rfl, rfl⟩ := hu k1
            exact k2

theorem sepList_iff (h : ListSpec S R P sep p) (hc : Consumes p) (i : List Nat) :
    (∀ r l, sepList sep p i = .done r l ↔ ListReads S R P l i r) ∧ (sepList sep p i = .panic ↔ ListPanics S R P i) := by
  obtain ⟨h1, h2⟩ := sepList1_iff h i
  by_cases he : complete p i = .error
  · have e1 : sepList1 sep p i = .error := by rw [sepList1, he]
    have e2 : sepList sep p i = .done i [] := by rw [sepList, he]
    have hn : ∀ a r, ¬ R a i r := fun a r hr => by
      rw [complete_iff.mpr ((h.elem _ _ _).mp hr).1] at he
      cases he
    have hp : ¬ P i := fun hp => by
      rw [complete_panic.mpr ((h.elem_panic _).mp hp)] at he
      cases he
    rw [e1] at h1 h2
    rw [e2]
    refine ⟨fun r l => ?_, ⟨fun e => (by cases e), fun e => ?_⟩⟩
    · rw [PResult.done.injEq]
      constructor
      · rintro ⟨rfl, rfl⟩
        exact .nil hp hn
      · intro e
        cases e with
        | nil => exact ⟨rfl, rfl⟩
        | some k => cases (h1 _ _).mpr k
    · cases h2.mpr e
  · have e : sepList sep p i = sepList1 sep p i := by
      rw [sepList, sepList1]
      cases hh : complete p i with
      | error => exact absurd hh he
      | _ => rfl
    rw [e]
    refine ⟨fun r l => ?_, h2⟩
    rw [h1]
    constructor
    · exact .some
    · intro k
      cases k with
      | some k => exact k
      | nil k1 k2 =>
        exfalso
        cases hh : complete p i with
        | error => exact he hh
        | incomplete => exact complete_not_incomplete _ _ hh
        | panic => exact k1 ((h.elem_panic _).mpr (complete_panic.mp hh))
        | done r a =>
          have := hc i r a (complete_iff.mp hh)
          exact k2 a r ((h.elem _ _ _).mpr ⟨complete_iff.mp hh, by omega⟩)

theorem listPanics_false {i : List Nat} : ¬ ListPanics S R (fun _ => False) i := by
  have ht : ∀ i, ¬ TailPanics S R (fun _ => False) i := by
    intro i h
    induction h with
    | here _ h => exact h
    | later _ _ _ ih => exact ih
  intro h
  cases h with
  | here h => exact h
  | later _ h => exact ht _ h

end Lists

section Spans

theorem takeWhile_span {p : Nat → Bool} {P : Nat → Prop} (h : ∀ c, p c = true ↔ P c) {i r s : List Nat} : Nom.takeWhile p i = .done r s ↔ Span P s i r := by
  constructor
  · intro e
    obtain ⟨h1, h2, h3⟩ := takeWhile_inv e
    exact ⟨h1, fun c hc => (h c).mp (h2 c hc), fun b t e hb => by rw [← h, h3 b t e] at hb; cases hb⟩
  · rintro ⟨rfl, h1, h2⟩
    exact takeWhile_append (fun c hc => (h c).mpr (h1 c hc)) fun b t e => Bool.eq_false_iff.mpr fun hb => h2 b t e ((h b).mp hb)

theorem takeWhile1_span {p : Nat → Bool} {P : Nat → Prop} (h : ∀ c, p c = true ↔ P c) {i r s : List Nat} : takeWhile1 p i = .done r s ↔ s ≠ [] ∧ Span P s i r := by
  constructor
  · intro e
    cases i with
    | nil => cases e
    | cons c i =>
      rw [takeWhile1] at e
      split at e
      · rename_i hc
        refine ⟨?_, (takeWhile_span h).mp e⟩
        rintro rfl
        rw [PResult.done.injEq, List.takeWhile_cons_of_pos hc] at e
        cases e.2
      · cases e
  · rintro ⟨h0, rfl, h1, h2⟩
    exact takeWhile1_append h0 (fun c hc => (h c).mpr (h1 c hc)) fun b t e => Bool.eq_false_iff.mpr fun hb => h2 b t e ((h b).mp hb)

theorem span_le {P : Nat → Prop} {s i r : List Nat} (h : Span P s i r) : r.length ≤ i.length := by
  rw [h.1]
  simp

theorem span_lt {P : Nat → Prop} {s i r : List Nat} (hs : s ≠ []) (h : Span P s i r) : r.length < i.length := by
  rw [h.1]
  have := List.length_pos_iff.mpr hs
  simp
  omega

theorem span_unique {P : Nat → Prop} {s s' i r r' : List Nat} (h : Span P s i r) (h' : Span P s' i r') : s = s' ∧ r = r' := by
  classical
  have e1 := (takeWhile_span (p := fun c => decide (P c)) (fun c => by simp)).mpr h
  have e2 := (takeWhile_span (p := fun c => decide (P c)) (fun c => by simp)).mpr h'
  rw [e1, PResult.done.injEq] at e2
  exact ⟨e2.2, e2.1⟩

theorem gapReads_iff {i r : List Nat} : GapReads i r ↔ ∃ g, space i = .done r g := by
  unfold GapReads space many1Of
  simp only [takeWhile1_span (P := Blank) isSpace_iff]

theorem gapReads_lt {i r : List Nat} (h : GapReads i r) : r.length < i.length := by
  obtain ⟨g, h1, h2⟩ := h
  exact span_lt h1 h2

theorem token_iff {i r s : List Nat} : takeWhile1 isToken i = .done r s ↔ s ≠ [] ∧ Span Dark s i r := takeWhile1_span isToken_iff

theorem word_iff {i r s : List Nat} : Nom.takeWhile isToken i = .done r s ↔ Span Dark s i r := takeWhile_span isToken_iff

theorem decimals_iff {i r s : List Nat} : digit i = .done r s ↔ s ≠ [] ∧ Span Decimal s i r := by
  unfold digit many1Of
  exact takeWhile1_span fun c => by simp [Decimal]

theorem nextToken_iff {i r s : List Nat} : nextToken i = .done r s ↔ NextReads s i r := by
  unfold nextToken thn NextReads
  simp only [chain_iff, gapReads_iff, token_iff]
  exact ⟨fun ⟨i', g, h1, h2⟩ => ⟨i', ⟨g, h1⟩, h2⟩, fun ⟨i', ⟨g, h1⟩, h2⟩ => ⟨i', g, h1, h2⟩⟩

theorem noPanic_takeWhile1 {C : Type _} (p : C → Bool) : NoPanic (takeWhile1 p) := noPanic_of_tame (tame_takeWhile1 _)

theorem noPanic_takeWhile {C : Type _} (p : C → Bool) : NoPanic (Nom.takeWhile p) := noPanic_of_tame (tame_takeWhile _)

theorem noPanic_nextToken : NoPanic nextToken := noPanic_of_tame (tame_thn hup_false (tame_takeWhile1 _) (tame_takeWhile1 _))

theorem optComplete_iff {A : Type _} {p : Parser Nat A} (hp : NoPanic p) {i r : List Nat} {o : Option A} :
    opt (complete p) i = .done r o ↔ (∃ a, o = some a ∧ p i = .done r a) ∨ o = none ∧ r = i ∧ ∀ a r', p i ≠ .done r' a := by
  unfold opt complete
  cases h : p i with
  | panic => exact absurd h (hp i)
  | done r' a =>
    simp only [PResult.done.injEq]
    constructor
    · rintro ⟨rfl, rfl⟩
      exact .inl ⟨a, rfl, rfl, rfl⟩
    · rintro (⟨a', rfl, rfl, rfl⟩ | ⟨rfl, rfl, hn⟩)
      · exact ⟨rfl, rfl⟩
      · exact absurd rfl (hn a r')
  | error =>
    simp only [PResult.done.injEq]
    constructor
    · rintro ⟨rfl, rfl⟩
      exact .inr ⟨rfl, rfl, fun a r' e => by cases e⟩
    · rintro (⟨a', rfl, h⟩ | ⟨rfl, rfl, h⟩)
      · cases h
      · exact ⟨rfl, rfl⟩
  | incomplete =>
    simp only [PResult.done.injEq]
    constructor
    · rintro ⟨rfl, rfl⟩
      exact .inr ⟨rfl, rfl, fun a r' e => by cases e⟩
    · rintro (⟨a', rfl, h⟩ | ⟨rfl, rfl, h⟩)
      · cases h
      · exact ⟨rfl, rfl⟩

theorem mapRes_iff {A B : Type _} {p : Parser Nat A} {f : A → Option B} {i r : List Nat} {b : B} : mapRes p f i = .done r b ↔ ∃ a, p i = .done r a ∧ f a = some b := by
  unfold mapRes
  rw [chain_iff]
  constructor
  · rintro ⟨r', a, h1, h2⟩
    split at h2
    · rename_i e
      rw [PResult.done.injEq] at h2
      obtain ⟨rfl, rfl⟩ := h2
      exact ⟨a, h1, e⟩
    · cases h2
  · rintro ⟨a, h1, h2⟩
    exact ⟨r, a, h1, by simp [h2]⟩

theorem mapResPanic_iff {A B : Type _} {p : Parser Nat A} {f : A → Option (Option B)} {i r : List Nat} {b : B} :
    mapResPanic p f i = .done r b ↔ ∃ a, p i = .done r a ∧ f a = some (some b) := by
  unfold mapResPanic
  rw [chain_iff]
  constructor
  · rintro ⟨r', a, h1, h2⟩
    split at h2
    · rename_i e
      rw [PResult.done.injEq] at h2
      obtain ⟨rfl, rfl⟩ := h2
      exact ⟨a, h1, e⟩
    · cases h2
    · cases h2
  · rintro ⟨a, h1, h2⟩
    exact ⟨r, a, h1, by simp [h2]⟩

theorem mapResPanic_panic {A B : Type _} {p : Parser Nat A} (hp : NoPanic p) {f : A → Option (Option B)} {i : List Nat} :
    mapResPanic p f i = .panic ↔ ∃ r a, p i = .done r a ∧ f a = none := by
  unfold mapResPanic
  rw [chain_panic_of hp]
  constructor
  · rintro ⟨r', a, h1, h2⟩
    split at h2
    · cases h2
    · cases h2
    · rename_i e
      exact ⟨r', a, h1, e⟩
  · rintro ⟨r, a, h1, h2⟩
    exact ⟨r, a, h1, by simp [h2]⟩

variable {W : Type _} [Div W] {cw : Codec W}

theorem count_iff {i r : List Nat} {w : W} : parsePseudocount cw i = .done r w ↔ CountReads cw w i r := by
  have hsl : ∀ {j r' t}, thn (tag [47]) digit j = .done r' t ↔ ∃ j', j = 47 :: j' ∧ t ≠ [] ∧ Span Decimal t j' r' := by
    intro j r' t
    rw [thn_tag_iff]
    simp only [decimals_iff]
    rfl
  have hnp : NoPanic (thn (tag [47]) digit) := noPanic_of_tame (tame_thn hup_false (tame_tag _) (tame_takeWhile1 _))
  unfold parsePseudocount
  rw [mapRes_iff]
  simp only [chain_iff, ret_iff, optComplete_iff hnp, Ne, hsl, decimals_iff]
  constructor
  · rintro ⟨⟨s, d⟩, ⟨i₁, s', ⟨h0, h1⟩, i₂, d', h2, rfl, h3⟩, h4⟩
    cases h3
    rcases h2 with ⟨t, rfl, j, rfl, h5, h6⟩ | ⟨rfl, rfl, h5⟩
    · simp only at h4
      split at h4
      · rename_i e1 e2
        cases h4
        exact .fraction h0 h1 h5 h6 e1 e2
      · cases h4
    · refine .number h0 h1 (fun c t e hd => ?_) h4
      have hs := List.takeWhile_append_dropWhile (p := fun c => decide (48 ≤ c) && decide (c ≤ 57)) (l := c :: t)
      have hsp := (takeWhile_span (p := fun c => decide (48 ≤ c) && decide (c ≤ 57)) (P := Decimal) (fun c => by simp [Decimal]) (i := c :: t)).mp rfl
      refine h5 _ _ ⟨c :: t, e, ?_, hsp⟩
      rw [List.takeWhile_cons_of_pos (by simpa [Decimal] using hd)]
      exact List.cons_ne_nil _ _
  · intro h
    cases h with
    | @number _ s _ _ h0 h1 h2 h3 =>
      refine ⟨(s, none), ⟨r, s, ⟨h0, h1⟩, r, none, .inr ⟨rfl, rfl, ?_⟩, rfl, rfl⟩, h3⟩
      rintro t r' ⟨j, rfl, h5, h6⟩
      obtain ⟨c, t', rfl⟩ := List.exists_cons_of_ne_nil h5
      obtain ⟨rfl, h7, -⟩ := h6
      exact h2 c _ rfl (h7 c (by simp))
    | @fraction a b s t _ i' _ h0 h1 h2 h3 h4 h5 =>
      refine ⟨(s, some t), ⟨47 :: i', s, ⟨h0, h1⟩, r, some t, .inl ⟨t, rfl, i', rfl, h2, h3⟩, rfl, rfl⟩, ?_⟩
      simp only [h4, h5]

theorem noPanic_count : NoPanic (parsePseudocount cw) := noPanic_of_tame (tame_parsePseudocount hup_false)

theorem countReads_lt {i r : List Nat} {w : W} (h : CountReads cw w i r) : r.length < i.length := by
  cases h with
  | number h0 h1 => exact span_lt h0 h1
  | fraction h0 h1 h2 h3 =>
    have e1 := span_lt h0 h1
    have e2 := span_lt h2 h3
    simp only [List.length_cons] at e1
    omega

end Spans

section Disco

theorem bits_of {s : List Nat} (h : ∀ c ∈ s, isBinaryDigit c = true) : ∃ b, s = bitText b := by
  induction s with
  | nil => exact ⟨[], rfl⟩
  | cons c s ih =>
    obtain ⟨b, rfl⟩ := ih fun c hc => h c (by simp [hc])
    have := h c (by simp)
    simp only [isBinaryDigit, Bool.or_eq_true, decide_eq_true_eq] at this
    rcases this with rfl | rfl
    · exact ⟨false :: b, rfl⟩
    · exact ⟨true :: b, rfl⟩

theorem bitText_inj {b b' : List Bool} (h : bitText b = bitText b') : b = b' := by
  refine List.map_injective_iff.mpr ?_ h
  intro x y e
  cases x <;> cases y <;> first | rfl | (exact absurd e (by decide))

theorem fromBinaryGo_none (bits : List Bool) (k : Nat) (o : Option Nat) : fromBinaryGo k o (bitText bits) = none ↔ ∃ j, 64 ≤ k + j ∧ bits[j]? = some true := by
  induction bits generalizing k o with
  | nil => simp [bitText, fromBinaryGo]
  | cons b bits ih =>
    have step : (∃ j, 64 ≤ k + j ∧ (b :: bits)[j]? = some true) ↔ (64 ≤ k ∧ b = true) ∨ ∃ j, 64 ≤ k + 1 + j ∧ bits[j]? = some true := by
      constructor
      · rintro ⟨j, h1, h2⟩
        cases j with
        | zero => exact .inl ⟨h1, by simpa using h2⟩
        | succ j => exact .inr ⟨j, by omega, by simpa using h2⟩
      · rintro (⟨h1, rfl⟩ | ⟨j, h1, h2⟩)
        · exact ⟨0, h1, rfl⟩
        · exact ⟨j + 1, by omega, by simpa using h2⟩
    rw [step]
    cases b with
    | false =>
      have : fromBinaryGo k o (bitText (false :: bits)) = fromBinaryGo (k + 1) (o.bind fun s => some (0 + s)) (bitText bits) := rfl
      rw [this, ih]
      simp
    | true =>
      have : fromBinaryGo k o (bitText (true :: bits)) = (match binaryValue k 49 with | none => none | some ov => fromBinaryGo (k + 1) (o.bind fun s => ov.map fun v => v + s) (bitText bits)) := rfl
      rw [this]
      by_cases hk : k < 64
      · have : binaryValue k 49 = some (some (2 ^ k)) := by simp [binaryValue, pow64, hk]
        rw [this]
        simp only
        rw [ih]
        simp [show ¬ 64 ≤ k by omega]
      · have : binaryValue k 49 = none := by simp [binaryValue, pow64, hk]
        rw [this]
        exact ⟨fun _ => .inl ⟨by omega, rfl⟩, fun _ => rfl⟩

theorem fromBinaryGo_some (bits : List Bool) (k s : Nat) (h : ∀ j, 64 ≤ k + j → bits[j]? ≠ some true) :
    fromBinaryGo k (some s) (bitText bits) = some (some (2 ^ k * bitVal bits + s)) := by
  induction bits generalizing k s with
  | nil => simp [bitText, fromBinaryGo, bitVal]
  | cons b bits ih =>
    have h' : ∀ j, 64 ≤ k + 1 + j → bits[j]? ≠ some true := fun j hj => by simpa using h (j + 1) (by omega)
    cases b with
    | false =>
      have : fromBinaryGo k (some s) (bitText (false :: bits)) = fromBinaryGo (k + 1) (some (0 + s)) (bitText bits) := rfl
      rw [this, ih _ _ h']
      simp only [bitVal, Nat.bit_false]
      congr 2
      rw [Nat.pow_succ]; ring
    | true =>
      have hk : k < 64 := by
        by_contra hk
        exact h 0 (by omega) rfl
      have : fromBinaryGo k (some s) (bitText (true :: bits)) = fromBinaryGo (k + 1) (some (2 ^ k + s)) (bitText bits) := by
        show (match binaryValue k 49 with | none => none | some ov => fromBinaryGo (k + 1) _ (bitText bits)) = _
        have : binaryValue k 49 = some (some (2 ^ k)) := by simp [binaryValue, pow64, hk]
        rw [this]; rfl
      rw [this, ih _ _ h']
      simp only [bitVal, Nat.bit_true]
      congr 2
      rw [Nat.pow_succ]; ring

/-- The parser of a component. -/
def componentParser : Parser Nat (Nat × Nat) := mapResPanic (Nom.takeWhile isBinaryDigit) fun bs => match fromBinary bs with
    | none => none
    | some none => some none
    | some (some payload) => some (some (bs.length % 256, payload))

theorem isBinaryDigit_iff (c : Nat) : isBinaryDigit c = true ↔ c = 48 ∨ c = 49 := by simp [isBinaryDigit]

theorem binary_span {i r s : List Nat} : Nom.takeWhile isBinaryDigit i = .done r s ↔ Span (fun c => c = 48 ∨ c = 49) s i r := takeWhile_span isBinaryDigit_iff

theorem component_iff {a : Nat × Nat} {i r : List Nat} : ComponentReads a i r ↔ componentParser i = .done r a ∧ r.length ≠ i.length := by
  unfold componentParser
  rw [mapResPanic_iff]
  simp only [binary_span]
  constructor
  · intro h
    cases h with
    | @mk b m _ h1 h2 h3 h4 =>
      have hv : fromBinary (bitText b) = some (some (bitVal b)) := by
        unfold fromBinary
        rw [fromBinaryGo_some b 0 0 (by simpa using h2)]
        simp
      have hm : m = bitVal b := Nat.eq_of_testBit_eq fun k => by rw [h3, bitVal_testBit]
      refine ⟨⟨bitText b, ⟨rfl, fun c hc => (isBinaryDigit_iff c).mp (bitText_bin b c hc), fun c t e hc => ?_⟩, ?_⟩, ?_⟩
      · have := h4 c t e
        omega
      · simp only [hv, bitText_length, hm]
      · have := List.length_pos_iff.mpr h1
        simp [bitText_length]
        exact fun e => h1 e
  · rintro ⟨⟨s, ⟨rfl, h1, h2⟩, h3⟩, h4⟩
    obtain ⟨b, rfl⟩ := bits_of fun c hc => (isBinaryDigit_iff c).mpr (h1 c hc)
    have hb : ∀ k : Nat, 64 ≤ k → b[k]? ≠ some true := by
      intro k hk e
      have : fromBinary (bitText b) = none := (fromBinaryGo_none b 0 _).mpr ⟨k, by omega, e⟩
      rw [this] at h3
      cases h3
    have hv : fromBinary (bitText b) = some (some (bitVal b)) := by
      unfold fromBinary
      rw [fromBinaryGo_some b 0 0 (by simpa using hb)]
      simp
    rw [hv] at h3
    simp only [Option.some.injEq] at h3
    rw [← h3, bitText_length]
    refine .mk ?_ hb (bitVal_testBit b) fun c t e => ?_
    · rintro rfl
      exact h4 rfl
    · have := h2 c t e
      omega

theorem component_panic {i : List Nat} : ComponentPanics i ↔ componentParser i = .panic := by
  unfold componentParser
  rw [mapResPanic_panic (noPanic_takeWhile _)]
  simp only [binary_span]
  constructor
  · rintro ⟨b, r, k, rfl, hk, h⟩
    have hsp := (binary_span (i := bitText b ++ r)).mp rfl
    obtain ⟨b', hb'⟩ := bits_of (s := (bitText b ++ r).takeWhile isBinaryDigit) fun c hc => List.mem_takeWhile_imp hc
    refine ⟨_, _, hsp, ?_⟩
    have hpre : ∃ t, b' = b ++ t := by
      rw [List.takeWhile_append_of_pos (bitText_bin b)] at hb'
      obtain ⟨t, ht⟩ := bits_of (s := r.takeWhile isBinaryDigit) fun c hc => List.mem_takeWhile_imp hc
      refine ⟨t, bitText_inj ?_⟩
      rw [← hb', ht]
      simp [bitText]
    obtain ⟨t, rfl⟩ := hpre
    have hn : fromBinary (bitText (b ++ t)) = none := (fromBinaryGo_none _ 0 _).mpr ⟨k, by omega, by
      rw [List.getElem?_append_left (List.getElem?_eq_some_iff.mp h).1, h]⟩
    rw [hb', hn]
  · rintro ⟨r, s, ⟨rfl, h1, h2⟩, h3⟩
    obtain ⟨b, rfl⟩ := bits_of fun c hc => (isBinaryDigit_iff c).mpr (h1 c hc)
    have hn : fromBinary (bitText b) = none := by
      cases e : fromBinary (bitText b) with
      | none => rfl
      | some o => cases o <;> simp [e] at h3
    obtain ⟨k, hk, e⟩ := (fromBinaryGo_none _ 0 _).mp hn
    exact ⟨b, r, k, rfl, by omega, e⟩

theorem tagSep_iff (c : Nat) {i i' : List Nat} : i = c :: i' ↔ ∃ b, tag [c] i = .done i' b := by
  simp only [tag_iff]
  exact ⟨fun h => ⟨(), h⟩, fun ⟨_, h⟩ => h⟩

theorem tagSep_lt {c : Nat} {i i' : List Nat} (h : i = c :: i') : i'.length < i.length := by simp [h]

theorem noPanic_tag {C : Type _} [DecidableEq C] (t : List C) : NoPanic (tag t) := noPanic_of_tame (tame_tag _)

theorem yieldSpec : ListSpec Comma ComponentReads ComponentPanics (tag [44]) componentParser where
  sep_done _ _ := tagSep_iff 44
  sep_panic := noPanic_tag _
  sep_lt _ _ := tagSep_lt
  elem _ _ _ := component_iff
  elem_lt a i r h := by
    cases h with
    | mk h1 =>
      have := List.length_pos_iff.mpr h1
      simp [bitText_length]
      exact this
  elem_panic _ := component_panic

theorem yield_iff {y : DiscoYield} {i : List Nat} : (parseYield i).toResult = some (some y) ↔ YieldReads y i := by
  rw [toResult_iff]
  exact exists_congr fun r => (sepList1_iff yieldSpec i).1 r y

theorem yield_panic {i : List Nat} : (parseYield i).toResult = none ↔ YieldPanics i := by
  rw [toResult_none_iff]
  exact (sepList1_iff yieldSpec i).2

variable {N T W : Type _} [Div W] {cn : Codec N} {ct : Codec T} {cw : Codec W}

theorem discoRule_iff {d : DiscoDeriv N} {y w : List Nat} {x : DiscoDeriv N × DiscoYield × W} :
    discoRule cw d y w = some (some x) ↔ ∃ r', x.1 = d ∧ YieldReads x.2.1 y ∧ CountReads cw x.2.2 w r' := by
  rw [← yield_iff]
  simp only [← count_iff]
  unfold discoRule
  cases h1 : (parseYield y).toResult with
  | none => simp
  | some o =>
    cases o with
    | none => simp
    | some ys =>
      cases h2 : (parsePseudocount cw w).toResult with
      | none =>
        rw [toResult_none_iff] at h2
        simp [h2]
      | some o =>
        cases o with
        | none =>
          simp only [Option.some.injEq, reduceCtorEq, false_iff]
          rintro ⟨r', -, -, e⟩
          have := toResult_iff.mpr ⟨r', e⟩
          rw [h2] at this
          cases this
        | some c =>
          obtain ⟨r', e⟩ := toResult_iff.mp h2
          simp only [Option.some.injEq, e, PResult.done.injEq]
          obtain ⟨x1, x2, x3⟩ := x
          constructor
          · rintro h
            cases h
            exact ⟨r', rfl, rfl, rfl, rfl⟩
          · rintro ⟨_, rfl, rfl, _, rfl⟩
            rfl

theorem discoRule_none {d : DiscoDeriv N} {y w : List Nat} : discoRule cw d y w = none ↔ YieldPanics y := by
  rw [← yield_panic]
  unfold discoRule
  cases h1 : (parseYield y).toResult with
  | none => simp
  | some o =>
    cases o with
    | none => simp
    | some ys =>
      cases h2 : (parsePseudocount cw w).toResult with
      | none => exact absurd (toResult_none_iff.mp h2) (noPanic_count _)
      | some o => cases o <;> simp

/-- The tokens of a line. -/
def lineParser : Parser Nat (List Nat × List Nat × List Nat × List Nat × Option (List Nat)) :=
  chain (takeWhile1 isToken) fun lhs => chain nextToken fun rhs => chain nextToken fun rhsOrY => chain nextToken fun yOrW =>
    chain (opt (complete nextToken)) fun ow => ret (lhs, rhs, rhsOrY, yOrW, ow)

theorem noPanic_line : NoPanic lineParser := by
  have hn : Tame (fun _ : List Nat => False) nextToken := tame_thn hup_false (tame_takeWhile1 _) (tame_takeWhile1 _)
  exact noPanic_of_tame <| tame_chain hup_false (tame_takeWhile1 _) fun _ => tame_chain hup_false hn fun _ => tame_chain hup_false hn fun _ => tame_chain hup_false hn fun _ =>
    tame_chain hup_false (tame_opt (tame_complete hn)) fun _ => tame_ret _

theorem line_iff {i r a b c d : List Nat} {o : Option (List Nat)} : lineParser i = .done r (a, b, c, d, o) ↔
    ∃ i₁ i₂ i₃ i₄, (a ≠ [] ∧ Span Dark a i i₁) ∧ NextReads b i₁ i₂ ∧ NextReads c i₂ i₃ ∧ NextReads d i₃ i₄ ∧
      ((∃ w, o = some w ∧ NextReads w i₄ r) ∨ o = none ∧ r = i₄ ∧ ∀ s r', ¬ NextReads s i₄ r') := by
  unfold lineParser
  simp only [chain_iff, ret_iff, optComplete_iff noPanic_nextToken, nextToken_iff, token_iff, Ne]
  constructor
  · rintro ⟨i₁, a', h1, i₂, b', h2, i₃, c', h3, i₄, d', h4, i₅, o', h5, rfl, e⟩
    cases e
    exact ⟨i₁, i₂, i₃, i₄, h1, h2, h3, h4, h5⟩
  · rintro ⟨i₁, i₂, i₃, i₄, h1, h2, h3, h4, h5⟩
    exact ⟨i₁, a, h1, i₂, b, h2, i₃, c, h3, i₄, d, h4, r, o, h5, rfl, rfl⟩

/-- The two cases of a line whose names can be read. -/
theorem fields_iff {F : DiscoDeriv N → List Nat → List Nat → Prop} {i r : List Nat} :
    (∃ d y w, FieldsRead cn d y w i r ∧ F d y w) ↔ ∃ a b c e o, lineParser i = .done r (a, b, c, e, o) ∧ ∃ lhs rhs, cn.read a = some lhs ∧ cn.read b = some rhs ∧
      ((∃ w rhs₂, o = some w ∧ cn.read c = some rhs₂ ∧ F (.binary lhs rhs rhs₂) e w) ∨ o = none ∧ F (.chain lhs rhs) c e) := by
  simp only [line_iff]
  constructor
  · rintro ⟨d, y, w, h, hF⟩
    cases h with
    | chain h1 h2 h3 h4 h5 h6 h7 h8 => exact ⟨_, _, _, _, _, ⟨_, _, _, _, ⟨h1, h2⟩, h3, h4, h5, .inr ⟨rfl, rfl, h6⟩⟩, _, _, h7, h8, .inr ⟨rfl, hF⟩⟩
    | binary h1 h2 h3 h4 h5 h6 h7 h8 h9 =>
      exact ⟨_, _, _, _, _, ⟨_, _, _, _, ⟨h1, h2⟩, h3, h4, h5, .inl ⟨_, rfl, h6⟩⟩, _, _, h7, h8, .inl ⟨_, _, rfl, h9, hF⟩⟩
  · rintro ⟨a, b, c, e, o, ⟨i₁, i₂, i₃, i₄, ⟨h1, h2⟩, h3, h4, h5, h6⟩, lhs, rhs, h7, h8, h9⟩
    rcases h9 with ⟨w, rhs₂, rfl, h9, hF⟩ | ⟨rfl, hF⟩
    · rcases h6 with ⟨w', e', h6⟩ | ⟨e', -⟩
      · cases e'
        exact ⟨_, _, _, .binary h1 h2 h3 h4 h5 h6 h7 h8 h9, hF⟩
      · cases e'
    · rcases h6 with ⟨w', e', h6⟩ | ⟨-, rfl, h6⟩
      · cases e'
      · exact ⟨_, _, _, .chain h1 h2 h3 h4 h5 h6 h7 h8, hF⟩

theorem discoLine_some {a b c e : List Nat} {o : Option (List Nat)} {x : Option (DiscoDeriv N × DiscoYield × W)} :
    (discoLine cn cw (a, b, c, e, o) = x.map some ∧ x ≠ none ∨ discoLine cn cw (a, b, c, e, o) = none ∧ x = none) ↔
      ∃ lhs rhs, cn.read a = some lhs ∧ cn.read b = some rhs ∧
      ((∃ w rhs₂, o = some w ∧ cn.read c = some rhs₂ ∧ discoRule cw (.binary lhs rhs rhs₂) e w = x.map some) ∨ o = none ∧ discoRule cw (.chain lhs rhs) c e = x.map some) := by
  simp only [discoLine]
  cases h1 : cn.read a with
  | none => cases x <;> simp
  | some lhs =>
    cases h2 : cn.read b with
    | none => cases x <;> simp
    | some rhs =>
      cases o with
      | none => cases x <;> simp
      | some w =>
        cases h3 : cn.read c with
        | none => cases x <;> simp
        | some rhs₂ => cases x <;> simp

theorem constituent_iff {x : DiscoDeriv N × DiscoYield × W} {i r : List Nat} : parseConstituent cn cw i = .done r x ↔ ConstituentReads cn cw x i r := by
  have h0 : parseConstituent cn cw i = .done r x ↔ ∃ a b c e o, lineParser i = .done r (a, b, c, e, o) ∧ discoLine cn cw (a, b, c, e, o) = some (some x) := by
    unfold parseConstituent
    rw [mapResPanic_iff]
    exact ⟨fun ⟨⟨a, b, c, e, o⟩, h⟩ => ⟨a, b, c, e, o, h⟩, fun ⟨a, b, c, e, o, h⟩ => ⟨(a, b, c, e, o), h⟩⟩
  rw [h0]
  have h1 : ∀ a b c e o, discoLine cn cw (a, b, c, e, o) = some (some x) ↔ ∃ lhs rhs, cn.read a = some lhs ∧ cn.read b = some rhs ∧
      ((∃ w rhs₂, o = some w ∧ cn.read c = some rhs₂ ∧ discoRule cw (.binary lhs rhs rhs₂) e w = some (some x)) ∨ o = none ∧ discoRule cw (.chain lhs rhs) c e = some (some x)) := by
    intro a b c e o
    simpa using discoLine_some (cn := cn) (cw := cw) (a := a) (b := b) (c := c) (e := e) (o := o) (x := some x)
  simp only [h1]
  rw [← fields_iff (F := fun d y w => discoRule cw d y w = some (some x))]
  simp only [discoRule_iff]
  obtain ⟨d, ys, w⟩ := x
  constructor
  · rintro ⟨d', y, w', h, r', e, h1, h2⟩
    cases e
    exact .mk h h1 h2
  · intro h
    cases h with
    | mk h1 h2 h3 => exact ⟨_, _, _, h1, _, rfl, h2, h3⟩

theorem constituent_panic {i : List Nat} : parseConstituent cn cw i = .panic ↔ ConstituentPanics cn i := by
  have h0 : parseConstituent cn cw i = .panic ↔ ∃ r a b c e o, lineParser i = .done r (a, b, c, e, o) ∧ discoLine cn cw (a, b, c, e, o) = none := by
    have e : parseConstituent cn cw i = mapResPanic lineParser (discoLine cn cw) i := rfl
    rw [e, mapResPanic_panic noPanic_line]
    exact ⟨fun ⟨r, ⟨a, b, c, e, o⟩, h⟩ => ⟨r, a, b, c, e, o, h⟩, fun ⟨r, a, b, c, e, o, h⟩ => ⟨r, (a, b, c, e, o), h⟩⟩
  rw [h0]
  have h1 : ∀ a b c e o, discoLine cn cw (a, b, c, e, o) = none ↔ ∃ lhs rhs, cn.read a = some lhs ∧ cn.read b = some rhs ∧
      ((∃ w rhs₂, o = some w ∧ cn.read c = some rhs₂ ∧ discoRule cw (.binary lhs rhs rhs₂) e w = none) ∨ o = none ∧ discoRule cw (.chain lhs rhs) c e = none) := by
    intro a b c e o
    simpa using discoLine_some (cn := cn) (cw := cw) (a := a) (b := b) (c := c) (e := e) (o := o) (x := none)
  simp only [h1, ConstituentPanics]
  constructor
  · rintro ⟨r, h⟩
    obtain ⟨d, y, w, h2, h3⟩ := (fields_iff (F := fun d y w => discoRule cw d y w = none)).mpr h
    exact ⟨d, y, w, r, h2, discoRule_none.mp h3⟩
  · rintro ⟨d, y, w, r, h2, h3⟩
    exact ⟨r, (fields_iff (F := fun d y w => discoRule cw d y w = none)).mp ⟨d, y, w, h2, discoRule_none.mpr h3⟩⟩

theorem constituentsSpec : ListSpec LineBreak (ConstituentReads cn cw) (ConstituentPanics cn) (tag [10]) (parseConstituent cn cw) where
  sep_done _ _ := tagSep_iff 10
  sep_panic := noPanic_tag _
  sep_lt _ _ := tagSep_lt
  elem a i r := by
    rw [constituent_iff]
    exact ⟨fun h => ⟨h, (constituent_consumes i r a (constituent_iff.mpr h)).ne⟩, fun h => h.1⟩
  elem_lt a i r h := constituent_consumes i r a (constituent_iff.mpr h)
  elem_panic _ := constituent_panic.symm

theorem tag_reads_iff {x : List Nat × W} {i r : List Nat} : tagCount cw i = .done r x ↔ TagReads cw x i r := by
  obtain ⟨p, w⟩ := x
  unfold tagCount terminated
  simp only [chain_iff, ret_iff, count_iff, word_iff]
  constructor
  · rintro ⟨i₂, p', ⟨i₁, p'', h1, i₃, g, h2, rfl, rfl⟩, r', w', h3, rfl, e⟩
    cases e
    exact .mk h1 (gapReads_iff.mpr ⟨g, h2⟩) h3
  · intro h
    cases h with
    | @mk _ _ _ i₁ i₂ _ h1 h2 h3 =>
      obtain ⟨g, h2⟩ := gapReads_iff.mp h2
      exact ⟨i₂, p, ⟨i₁, p, h1, i₂, g, h2, rfl, rfl⟩, r, w, h3, rfl, rfl⟩

theorem tagReads_lt {x : List Nat × W} {i r : List Nat} (h : TagReads cw x i r) : r.length < i.length := by
  cases h with
  | mk h1 h2 h3 =>
    have e1 := span_le h1
    have e2 := gapReads_lt h2
    have e3 := countReads_lt h3
    omega

theorem noPanic_tagCount : NoPanic (tagCount cw) := noPanic_of_tame <|
  tame_chain hup_false (tame_terminated hup_false (tame_takeWhile isToken) (tame_takeWhile1 isSpace)) fun _ => tame_chain hup_false (tame_parsePseudocount hup_false) fun _ => tame_ret _

theorem tagsSpec : ListSpec GapReads (TagReads cw) (fun _ => False) space (tagCount cw) where
  sep_done _ _ := gapReads_iff
  sep_panic := noPanic_takeWhile1 _
  sep_lt _ _ := gapReads_lt
  elem a i r := by
    rw [tag_reads_iff]
    exact ⟨fun h => ⟨h, (tagReads_lt h).ne⟩, fun h => h.1⟩
  elem_lt a i r h := tagReads_lt h
  elem_panic i := ⟨False.elim, fun h => noPanic_tagCount i h⟩

theorem wordLine_iff {x : List Nat × List (List Nat × W)} {i r : List Nat} : parseLexerLine cw i = .done r x ↔ WordReads cw x i r := by
  obtain ⟨s, l⟩ := x
  have h0 : parseLexerLine cw i = .done r (s, l) ↔ ∃ i₁ i₂ g, Nom.takeWhile isToken i = .done i₁ s ∧ space i₁ = .done i₂ g ∧ sepList1 space (tagCount cw) i₂ = .done r l := by
    unfold parseLexerLine terminated
    simp only [chain_iff, ret_iff]
    constructor
    · rintro ⟨i₂, p', ⟨i₁, p'', h1, i₃, g, h2, rfl, rfl⟩, r', w', h3, rfl, e⟩
      cases e
      exact ⟨_, _, g, h1, h2, h3⟩
    · rintro ⟨i₁, i₂, g, h1, h2, h3⟩
      exact ⟨i₂, s, ⟨i₁, s, h1, i₂, g, h2, rfl, rfl⟩, r, l, h3, rfl, rfl⟩
  rw [h0]
  constructor
  · rintro ⟨i₁, i₂, g, h1, h2, h3⟩
    exact .mk (word_iff.mp h1) (gapReads_iff.mpr ⟨g, h2⟩) (((sepList1_iff tagsSpec i₂).1 r l).mp h3)
  · intro h
    cases h with
    | mk h1 h2 h3 =>
      obtain ⟨g, h2⟩ := gapReads_iff.mp h2
      exact ⟨_, _, g, word_iff.mpr h1, h2, ((sepList1_iff tagsSpec _).1 r l).mpr h3⟩

theorem noPanic_wordLine : NoPanic (parseLexerLine cw) := noPanic_of_tame <|
  tame_chain hup_false (tame_terminated hup_false (tame_takeWhile isToken) (tame_takeWhile1 isSpace)) fun _ => tame_chain hup_false (tame_sepList1 hup_false (tame_takeWhile1 isSpace)
    (tame_chain hup_false (tame_terminated hup_false (tame_takeWhile isToken) (tame_takeWhile1 isSpace)) fun _ => tame_chain hup_false (tame_parsePseudocount hup_false) fun _ => tame_ret _)) fun _ => tame_ret _

theorem lexiconSpec : ListSpec LineBreak (WordReads cw) (fun _ => False) (tag [10]) (parseLexerLine cw) where
  sep_done _ _ := tagSep_iff 10
  sep_panic := noPanic_tag _
  sep_lt _ _ := tagSep_lt
  elem a i r := by
    rw [wordLine_iff]
    exact ⟨fun h => ⟨h, (lexerLine_consumes i r a (wordLine_iff.mpr h)).ne⟩, fun h => h.1⟩
  elem_lt a i r h := lexerLine_consumes i r a (wordLine_iff.mpr h)
  elem_panic i := ⟨False.elim, fun h => noPanic_wordLine i h⟩

end Disco

section Rparse
variable {A N W : Type _} {cn : Codec N} {cw : Codec W}

theorem sepList_text {p : Parser Nat A} (hc : Consumes p) (hp : NoPanic p) {text : A → List Nat} (ht : ∀ i r a, p i = .done r a → i = text a ++ r) {t : List Nat} (hne : t ≠ [])
    {i r : List Nat} {l : List A} (h : sepList (tag t) p i = .done r l) : i = t.intercalate (l.map text) ++ r := by
  have hs : ListSpec (fun i i' => i = t ++ i') (fun a i r => p i = .done r a) (fun _ => False) (tag t) p :=
    { sep_done := fun i i' => by
        simp only [tag_iff]
        exact ⟨fun h => ⟨(), h⟩, fun ⟨_, h⟩ => h⟩
      sep_panic := noPanic_tag _
      sep_lt := fun i i' e => by
        have := List.length_pos_iff.mpr hne
        rw [e]
        simp
        exact this
      elem := fun a i r => ⟨fun h => ⟨h, (hc i r a h).ne⟩, fun h => h.1⟩
      elem_lt := fun a i r h => hc i r a h
      elem_panic := fun i => ⟨False.elim, fun h => hp i h⟩ }
  have htail : ∀ {l : List A} {i r : List Nat}, TailReads (fun i i' => i = t ++ i') (fun a i r => p i = .done r a) (fun _ => False) l i r → i = l.flatMap (fun a => t ++ text a) ++ r := by
    intro l i r h
    induction h with
    | stop => rfl
    | cons h1 h2 _ ih => rw [h1, ht _ _ _ h2, ih]; simp
  have h := ((sepList_iff hs hc i).1 r l).mp h
  cases h with
  | nil => rfl
  | some h =>
    cases h with
    | mk h1 h2 =>
      rw [List.map_cons, intercalate_cons', ht _ _ _ h1, htail h2, List.flatMap_map]
      simp

theorem parseBool_inv {i r : List Nat} {b : Bool} (h : parseBool i = .done r b) : i = boolText b ++ r := by
  unfold parseBool alt at h
  split at h
  · unfold pmap at h
    obtain ⟨r', u, h1, h2⟩ := chain_inv h
    rw [ret_iff] at h2
    obtain ⟨rfl, rfl⟩ := h2
    exact tag_iff.mp h1
  · unfold pmap at h
    obtain ⟨r', u, h1, h2⟩ := chain_inv h
    rw [ret_iff] at h2
    obtain ⟨rfl, rfl⟩ := h2
    exact tag_iff.mp h1

theorem tame_parseBool : Tame (fun _ : List Nat => False) parseBool := tame_alt (tame_pmap hup_false (tame_tag _) _) (tame_pmap hup_false (tame_tag _) _)

theorem bool_consumes : Consumes parseBool := by
  intro i r b h
  rw [parseBool_inv h]
  cases b <;> simp [boolText, ascii] <;> omega

/-- The parser of a component. -/
def rparseItem : Parser Nat (List Bool) := delimited (tag (ascii ['['])) (sepList (tag (ascii [',', ' '])) parseBool) (tag (ascii [']']))

theorem tame_rparseItem : Tame (fun _ : List Nat => False) rparseItem :=
  tame_thn hup_false (tame_tag _) (tame_terminated hup_false (tame_sepList hup_false (tame_tag _) tame_parseBool) (tame_tag _))

theorem rparseItem_inv {i r : List Nat} {b : List Bool} (h : rparseItem i = .done r b) : i = (ascii ['['] ++ ((ascii [',', ' ']).intercalate (b.map boolText) ++ ascii [']'])) ++ r := by
  unfold rparseItem delimited terminated at h
  rw [thn_tag_iff] at h
  obtain ⟨i', rfl, h⟩ := h
  obtain ⟨r₁, b', h1, h2⟩ := chain_inv h
  obtain ⟨r₂, u, h3, h4⟩ := chain_inv h2
  rw [ret_iff] at h4
  obtain ⟨rfl, rfl⟩ := h4
  rw [sepList_text bool_consumes (noPanic_of_tame tame_parseBool) (fun _ _ _ => parseBool_inv) (by decide) h1, tag_iff.mp h3]
  simp

theorem rparseItem_consumes : Consumes rparseItem := by
  intro i r b h
  rw [rparseItem_inv h]
  simp [ascii]
  omega

theorem rparseYield_iff {i r : List Nat} {bits : List (List Bool)} : parseRparseYield i = .done r bits ↔ i = rparseYieldText bits ++ r := by
  constructor
  · intro h
    unfold parseRparseYield delimited terminated at h
    rw [thn_tag_iff] at h
    obtain ⟨i', rfl, h⟩ := h
    obtain ⟨r₁, b', h1, h2⟩ := chain_inv h
    obtain ⟨r₂, u, h3, h4⟩ := chain_inv h2
    rw [ret_iff] at h4
    obtain ⟨rfl, rfl⟩ := h4
    rw [sepList_text (p := rparseItem) rparseItem_consumes (noPanic_of_tame tame_rparseItem) (fun _ _ _ => rparseItem_inv) (by decide) h1, tag_iff.mp h3]
    simp [rparseYieldText]
  · rintro rfl
    exact rparseYield_read bits r

theorem noPanic_rparseYield : NoPanic parseRparseYield := noPanic_of_tame <|
  tame_thn hup_false (tame_tag _) (tame_terminated hup_false (tame_sepList hup_false (tame_tag _) tame_rparseItem) (tame_tag _))

/-- The parser of the optional second symbol. -/
def secondParser : Parser Nat (Option (List Nat)) := opt (delimited (pnot (tag (ascii ['[', '[', '[']))) (takeWhile1 isToken) space)

theorem pnot_tag {t i : List Nat} : pnot (tag t) i = if t <+: i then .error else .done i () := by
  unfold pnot tag
  split <;> rename_i h <;> split at h <;> simp_all
  all_goals (split at h <;> simp_all)

theorem second_iff {o : Option (List Nat)} {i r : List Nat} : secondParser i = .done r o ↔ SecondReads o i r := by
  unfold secondParser
  by_cases hb : ascii ['[', '[', '['] <+: i
  · have e : delimited (pnot (tag (ascii ['[', '[', '[']))) (takeWhile1 isToken) space i = .error := by
      unfold delimited thn
      exact chain_error (by rw [pnot_tag, if_pos hb])
    rw [opt_error e, PResult.done.injEq]
    constructor
    · rintro ⟨rfl, rfl⟩
      exact .yield hb
    · intro h
      cases h with
      | some h => exact absurd hb h
      | yield => exact ⟨rfl, rfl⟩
      | none => exact ⟨rfl, rfl⟩
  · have e : delimited (pnot (tag (ascii ['[', '[', '[']))) (takeWhile1 isToken) space i = terminated (takeWhile1 isToken) space i := by
      unfold delimited
      exact thn_done (by rw [pnot_tag, if_neg hb])
    have e' : opt (delimited (pnot (tag (ascii ['[', '[', '[']))) (takeWhile1 isToken) space) i = opt (terminated (takeWhile1 isToken) space) i := by
      unfold opt
      rw [e]
    rw [e']
    have hcase : (∃ s r, terminated (takeWhile1 isToken) space i = .done r s) ∨ terminated (takeWhile1 isToken) space i = .error ∨
        terminated (takeWhile1 isToken) space i = .incomplete := by
      cases h : terminated (takeWhile1 isToken) space i with
      | done r s => exact .inl ⟨s, r, rfl⟩
      | error => exact .inr (.inl rfl)
      | incomplete => exact .inr (.inr rfl)
      | panic => exact absurd h (noPanic_of_tame (tame_terminated hup_false (tame_takeWhile1 _) (tame_takeWhile1 _)) i)
    have hdone : ∀ {s r}, terminated (takeWhile1 isToken) space i = .done r s ↔ ∃ i', (s ≠ [] ∧ Span Dark s i i') ∧ GapReads i' r := by
      intro s r
      unfold terminated
      simp only [chain_iff, ret_iff, token_iff, gapReads_iff]
      constructor
      · rintro ⟨i', s', h1, r', g, h2, rfl, rfl⟩
        exact ⟨i', h1, g, h2⟩
      · rintro ⟨i', h1, g, h2⟩
        exact ⟨i', s, h1, r, g, h2, rfl, rfl⟩
    have herr : terminated (takeWhile1 isToken) space i = .error ↔ ∃ s c t, Span Dark s i (c :: t) ∧ (s ≠ [] → ¬ Blank c) := by
      have hsp := (word_iff (i := i)).mp rfl
      constructor
      · intro h
        cases i with
        | nil => cases h
        | cons a i =>
          by_cases ha : isToken a = true
          · have ht : takeWhile1 isToken (a :: i) = .done ((a :: i).dropWhile isToken) ((a :: i).takeWhile isToken) := by
              rw [takeWhile1, if_pos ha]
            unfold terminated at h
            rw [chain_done ht] at h
            cases hd : (a :: i).dropWhile isToken with
            | nil =>
              rw [hd] at h
              cases h
            | cons c t =>
              rw [hd] at h hsp
              refine ⟨_, c, t, hsp, fun _ hbl => ?_⟩
              have : space (c :: t) = .done ((c :: t).dropWhile isSpace) ((c :: t).takeWhile isSpace) := by
                unfold space many1Of
                rw [takeWhile1, if_pos ((isSpace_iff c).mpr hbl)]
              rw [chain_done this] at h
              cases h
          · refine ⟨[], a, i, ⟨rfl, by simp, fun b t e => ?_⟩, fun h => absurd rfl h⟩
            cases e
            exact fun hd => ha ((isToken_iff _).mpr hd)
      · rintro ⟨s, c, t, hs, hc⟩
        by_cases h0 : s = []
        · subst h0
          obtain ⟨rfl, -, h2⟩ := hs
          have : takeWhile1 isToken ([] ++ c :: t) = .error := by
            rw [List.nil_append, takeWhile1, if_neg]
            exact fun h => h2 c t rfl ((isToken_iff c).mp h)
          unfold terminated
          exact chain_error this
        · unfold terminated
          rw [chain_done (token_iff.mpr ⟨h0, hs⟩)]
          refine chain_error ?_
          unfold space many1Of
          rw [takeWhile1, if_neg]
          exact fun h => hc h0 ((isSpace_iff c).mp h)
    constructor
    · intro h
      rcases hcase with ⟨s, r', h1⟩ | h1 | h1
      · rw [opt_done h1, PResult.done.injEq] at h
        obtain ⟨rfl, rfl⟩ := h
        obtain ⟨i', ⟨k0, k1⟩, k2⟩ := hdone.mp h1
        exact .some hb k0 k1 k2
      · rw [opt_error h1, PResult.done.injEq] at h
        obtain ⟨rfl, rfl⟩ := h
        obtain ⟨s, c, t, k1, k2⟩ := herr.mp h1
        exact .none hb k1 k2
      · rw [opt, h1] at h
        cases h
    · intro h
      cases h with
      | some _ h0 h1 h2 => exact opt_done (hdone.mpr ⟨_, ⟨h0, h1⟩, h2⟩)
      | yield h => exact absurd h hb
      | none _ h1 h2 => exact opt_error (herr.mpr ⟨_, _, _, h1, h2⟩)

theorem noPanic_second : NoPanic secondParser := by
  intro i h
  unfold secondParser at h
  rw [opt_panic] at h
  unfold delimited thn at h
  rcases chain_panic_iff.mp h with h | ⟨r, a, h1, h2⟩
  · rw [pnot_tag] at h
    split at h <;> cases h
  · exact noPanic_of_tame (tame_terminated hup_false (tame_takeWhile1 _) (tame_takeWhile1 _)) r h2

/-- The end of the parser of a clause. -/
def clauseEnd (cn : Codec N) (cw : Codec W) (weight lhs rhs1 : List Nat) (oRhs2 : Option (List Nat)) (y : List (List Bool)) : Parser Nat (W × N × RparseRhs N × List (List Bool)) :=
  chain (unwrapRes (cw.read weight)) fun w => chain (unwrapRes (cn.read lhs)) fun l => match oRhs2 with
    | some rhs2 => chain (unwrapRes (cn.read rhs1)) fun a => chain (unwrapRes (cn.read rhs2)) fun b => ret (w, l, .binary a b, y)
    | none => chain (unwrapRes (cn.read rhs1)) fun a => ret (w, l, .chain a, y)

theorem chain_result {C A B : Type _} {p : Parser C A} (hp : NoPanic p) {f : A → Parser C B} {i : List C} {X : PResult C B} (h1 : X ≠ .error) (h2 : X ≠ .incomplete) :
    chain p f i = X ↔ ∃ r a, p i = .done r a ∧ f a r = X := by
  unfold chain
  cases h : p i with
  | done r a => simp
  | error => simp [h1.symm]
  | incomplete => simp [h2.symm]
  | panic => exact absurd h (hp i)

theorem clause_result {i : List Nat} {X : PResult Nat (W × N × RparseRhs N × List (List Bool))} (h1 : X ≠ .error) (h2 : X ≠ .incomplete) :
    parseRparseClause cn cw i = X ↔ ∃ sw sl sa sb bits r, PartsRead sw sl sa sb bits i r ∧ clauseEnd cn cw sw sl sa sb bits r = X := by
  have hs : ∀ {p : Parser Nat (List Nat)} {q : Parser Nat (W × N × RparseRhs N × List (List Bool))} {i}, NoPanic p → (thn p q i = X ↔ ∃ r a, p i = .done r a ∧ q r = X) := by
    intro p q i hp
    unfold thn
    exact chain_result hp h1 h2
  have hd : NoPanic (terminated digit space) := noPanic_of_tame (tame_terminated hup_false (tame_takeWhile1 _) (tame_takeWhile1 _))
  have ha : NoPanic (delimited space (tag (ascii ['-', '-', '>'])) space) := noPanic_of_tame (tame_thn hup_false (tame_takeWhile1 _) (tame_terminated hup_false (tame_tag _) (tame_takeWhile1 _)))
  have ht : ∀ {q : Parser Nat (W × N × RparseRhs N × List (List Bool))} {i : List Nat}, thn (tag (ascii [':'])) q i = X ↔ ∃ j, i = 58 :: j ∧ q j = X := by
    intro q i
    unfold thn
    rw [chain_result (noPanic_tag _) h1 h2]
    simp only [tag_iff]
    exact ⟨fun ⟨r, _, h⟩ => ⟨r, h⟩, fun ⟨r, h⟩ => ⟨r, (), h⟩⟩
  have hdel : ∀ {i r : List Nat}, (∃ u, delimited space (tag (ascii ['-', '-', '>'])) space i = .done r u) ↔ ∃ j, GapReads i (ascii ['-', '-', '>'] ++ j) ∧ GapReads j r := by
    intro i r
    unfold delimited terminated thn
    simp only [chain_iff, ret_iff, gapReads_iff, tag_iff]
    constructor
    · rintro ⟨u, j, g, k1, j', u', rfl, j'', g', k2, rfl, -⟩
      exact ⟨j', ⟨g, k1⟩, g', k2⟩
    · rintro ⟨j, ⟨g, k1⟩, g', k2⟩
      exact ⟨(), _, g, k1, j, (), rfl, r, g', k2, rfl, trivial⟩
  have hwt : ∀ {i r s}, takeWhile1 (fun c => isToken c && c != 58) i = .done r s ↔ s ≠ [] ∧ Span (fun c => Dark c ∧ c ≠ 58) s i r := by
    intro i r s
    exact takeWhile1_span fun c => by
      rw [Bool.and_eq_true, isToken_iff, bne_iff_ne]
      rfl
  have hyp : NoPanic (complete parseRparseYield) := fun i h => noPanic_rparseYield i (complete_panic.mp h)
  have h0 : parseRparseClause cn cw i = thn (terminated digit space) (chain (takeWhile1 fun c => isToken c && c != 58) fun weight => thn (tag (ascii [':'])) <|
    chain (takeWhile1 isToken) fun lhs => thn (delimited space (tag (ascii ['-', '-', '>'])) space) <| chain (takeWhile1 isToken) fun rhs1 =>
      thn space <| chain secondParser fun oRhs2 => chain (complete parseRparseYield) fun y => clauseEnd cn cw weight lhs rhs1 oRhs2 y) i := rfl
  rw [h0, hs hd]
  constructor
  · rintro ⟨i₂, u, k1, k⟩
    unfold terminated at k1
    simp only [chain_iff, ret_iff, decimals_iff] at k1
    obtain ⟨i₁, n, ⟨k0, k1⟩, _, g, k2, rfl, rfl⟩ := k1
    rw [chain_result (noPanic_takeWhile1 _) h1 h2] at k
    obtain ⟨j, w, k3, k⟩ := k
    obtain ⟨i₃, rfl, k'⟩ := ht.mp k
    clear k
    rename' k' => k
    obtain ⟨k3, k4⟩ := hwt.mp k3
    rw [chain_result (noPanic_takeWhile1 _) h1 h2] at k
    obtain ⟨i₄, l, k5, k⟩ := k
    obtain ⟨k5, k6⟩ := token_iff.mp k5
    unfold thn at k
    rw [chain_result ha h1 h2] at k
    obtain ⟨i₆, u, k7, k⟩ := k
    obtain ⟨i₅, k7, k8⟩ := hdel.mp ⟨u, k7⟩
    rw [chain_result (noPanic_takeWhile1 _) h1 h2] at k
    obtain ⟨i₇, a, k9, k⟩ := k
    obtain ⟨k9, k10⟩ := token_iff.mp k9
    rw [chain_result (p := space) (noPanic_takeWhile1 _) h1 h2] at k
    obtain ⟨i₈, g', k11, k⟩ := k
    rw [chain_result noPanic_second h1 h2] at k
    obtain ⟨i₉, b, k12, k⟩ := k
    rw [chain_result hyp h1 h2] at k
    obtain ⟨r, bits, k13, k⟩ := k
    rw [complete_iff, rparseYield_iff] at k13
    subst k13
    exact ⟨w, l, a, b, bits, r, .mk k0 k1 (gapReads_iff.mpr ⟨g, k2⟩) k3 k4 k5 k6 k7 k8 k9 k10 (gapReads_iff.mpr ⟨g', k11⟩) (second_iff.mp k12), k⟩
  · rintro ⟨w, l, a, b, bits, r, hpt, k⟩
    cases hpt with
    | @mk n _ _ _ _ _ _ i₁ i₂ i₃ i₄ i₅ i₆ i₇ i₈ _ k0 k1 k2 k3 k4 k5 k6 k7 k8 k9 k10 k11 k12 =>
      obtain ⟨g, k2⟩ := gapReads_iff.mp k2
      obtain ⟨g', k11⟩ := gapReads_iff.mp k11
      refine ⟨i₂, n, ?_, ?_⟩
      · unfold terminated
        simp only [chain_iff, ret_iff, decimals_iff]
        exact ⟨i₁, n, ⟨k0, k1⟩, i₂, g, k2, rfl, rfl⟩
      · rw [chain_done (hwt.mpr ⟨k3, k4⟩)]
        refine ht.mpr ⟨i₃, rfl, ?_⟩
        rw [chain_done (token_iff.mpr ⟨k5, k6⟩)]
        obtain ⟨u, k7⟩ := hdel.mpr ⟨i₅, k7, k8⟩
        rw [thn_done k7, chain_done (token_iff.mpr ⟨k9, k10⟩), thn_done k11, chain_done (second_iff.mpr k12), chain_done (complete_iff.mpr (rparseYield_iff.mpr rfl)), k]

theorem clauseEnd_iff {sw sl sa : List Nat} {sb : Option (List Nat)} {bits : List (List Bool)} {i r : List Nat} {x : W × N × RparseRhs N × List (List Bool)} :
    clauseEnd cn cw sw sl sa sb bits i = .done r x ↔ r = i ∧ ∃ w l a, cw.read sw = some w ∧ cn.read sl = some l ∧ cn.read sa = some a ∧
      ((sb = none ∧ x = (w, l, .chain a, bits)) ∨ ∃ s b, sb = some s ∧ cn.read s = some b ∧ x = (w, l, .binary a b, bits)) := by
  unfold clauseEnd
  cases h1 : cw.read sw with
  | none => simp [chain, unwrapRes]
  | some w =>
    cases h2 : cn.read sl with
    | none => simp [chain, unwrapRes]
    | some l =>
      cases h3 : cn.read sa with
      | none => cases sb <;> simp [chain, unwrapRes]
      | some a =>
        cases sb with
        | none =>
          simp [chain, unwrapRes, ret]
          exact and_congr eq_comm eq_comm
        | some s =>
          cases h4 : cn.read s with
          | none => simp [chain, unwrapRes, h4]
          | some b =>
            simp [chain, unwrapRes, ret, h4]
            exact and_congr eq_comm eq_comm

theorem clauseEnd_panic {sw sl sa : List Nat} {sb : Option (List Nat)} {bits : List (List Bool)} {i : List Nat} :
    clauseEnd cn cw sw sl sa sb bits i = .panic ↔ cw.read sw = none ∨ cn.read sl = none ∨ cn.read sa = none ∨ ∃ s, sb = some s ∧ cn.read s = none := by
  unfold clauseEnd
  cases h1 : cw.read sw with
  | none => simp [chain, unwrapRes]
  | some w =>
    cases h2 : cn.read sl with
    | none => simp [chain, unwrapRes]
    | some l =>
      cases h3 : cn.read sa with
      | none => cases sb <;> simp [chain, unwrapRes]
      | some a =>
        cases sb with
        | none => simp [chain, unwrapRes, ret]
        | some s =>
          cases h4 : cn.read s with
          | none => simp [chain, unwrapRes, h4]
          | some b => simp [chain, unwrapRes, ret, h4]

theorem clause_iff {x : W × N × RparseRhs N × List (List Bool)} {i r : List Nat} : parseRparseClause cn cw i = .done r x ↔ ClauseReads cn cw x i r := by
  rw [clause_result (by simp) (by simp)]
  simp only [clauseEnd_iff]
  constructor
  · rintro ⟨sw, sl, sa, sb, bits, r', h, rfl, w, l, a, h1, h2, h3, ⟨rfl, rfl⟩ | ⟨s, b, rfl, h4, rfl⟩⟩
    · exact .chain h h1 h2 h3
    · exact .binary h h1 h2 h3 h4
  · intro h
    cases h with
    | chain h h1 h2 h3 => exact ⟨_, _, _, _, _, _, h, rfl, _, _, _, h1, h2, h3, .inl ⟨rfl, rfl⟩⟩
    | binary h h1 h2 h3 h4 => exact ⟨_, _, _, _, _, _, h, rfl, _, _, _, h1, h2, h3, .inr ⟨_, _, rfl, h4, rfl⟩⟩

theorem clause_panic {i : List Nat} : parseRparseClause cn cw i = .panic ↔ ClausePanics cn cw i := by
  rw [clause_result (by simp) (by simp)]
  simp only [clauseEnd_panic]
  rfl

theorem clausesSpec : ListSpec LineBreak (ClauseReads cn cw) (ClausePanics cn cw) (tag [10]) (parseRparseClause cn cw) where
  sep_done _ _ := tagSep_iff 10
  sep_panic := noPanic_tag _
  sep_lt _ _ := tagSep_lt
  elem a i r := by
    rw [clause_iff]
    exact ⟨fun h => ⟨h, (clause_consumes i r a (clause_iff.mpr h)).ne⟩, fun h => h.1⟩
  elem_lt a i r h := clause_consumes i r a (clause_iff.mpr h)
  elem_panic _ := clause_panic.symm

end Rparse
end Rustomata
