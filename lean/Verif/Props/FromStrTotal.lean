import Verif.Props.FromStr
import Mathlib.Data.List.TakeWhile

/-!
# C56: the parsers of rules return a result for each text

C56: parsing a text as a rule or grammar returns a value or an error, it does not panic.
-/

namespace Rustomata
open Nom Spec

section
variable {C A B : Type _} {P : List C → Prop}

/-- The remaining input is a suffix of the input, and the parser panics only on inputs with the property `P`. -/
def Tame (P : List C → Prop) (p : Parser C A) : Prop :=
  (∀ i, p i = .panic → P i) ∧ ∀ i r a, p i = .done r a → r <:+ i

/-- Properties that are inherited by longer inputs. -/
def Up (P : List C → Prop) : Prop := ∀ r i, r <:+ i → P r → P i

theorem tame_chain' {p : Parser C A} {f : A → Parser C B} (hp : Tame P p)
    (hf : ∀ i r a, p i = .done r a → (f a r = .panic → P i) ∧ ∀ r' b, f a r = .done r' b → r' <:+ i) : Tame P (chain p f) := by
  refine ⟨fun i h => ?_, fun i r b h => ?_⟩
  · rw [chain] at h
    cases e : p i with
    | done r a => rw [e] at h; exact (hf i r a e).1 h
    | panic => exact hp.1 i e
    | _ => rw [e] at h; cases h
  · obtain ⟨r', a, e, h⟩ := chain_inv h
    exact (hf i r' a e).2 r b h

theorem tame_chain (hP : Up P) {p : Parser C A} {f : A → Parser C B} (hp : Tame P p) (hf : ∀ a, Tame P (f a)) : Tame P (chain p f) :=
  tame_chain' hp fun i r a e => ⟨fun h => hP r i (hp.2 i r a e) ((hf a).1 r h), fun r' b h => ((hf a).2 r r' b h).trans (hp.2 i r a e)⟩

theorem tame_ret (a : A) : Tame P (ret a) := by
  refine ⟨fun i h => (by cases h), fun i r b h => ?_⟩
  rw [ret, PResult.done.injEq] at h
  rw [h.1]
  exact List.suffix_rfl

theorem tame_thn (hP : Up P) {p : Parser C A} {q : Parser C B} (hp : Tame P p) (hq : Tame P q) : Tame P (thn p q) := tame_chain hP hp fun _ => hq

theorem tame_terminated (hP : Up P) {p : Parser C A} {q : Parser C B} (hp : Tame P p) (hq : Tame P q) : Tame P (terminated p q) :=
  tame_chain hP hp fun a => tame_chain hP hq fun _ => tame_ret a

theorem tame_exprRes (b : Option B) : Tame P (exprRes b) := by
  refine ⟨fun i h => ?_, fun i r b' h => ?_⟩
  · cases b <;> cases h
  · cases b with
    | none => cases h
    | some b =>
      rw [exprRes, PResult.done.injEq] at h
      rw [h.1]
      exact List.suffix_rfl

theorem tame_mapRes (hP : Up P) {p : Parser C A} (hp : Tame P p) (f : A → Option B) : Tame P (mapRes p f) :=
  tame_chain hP hp fun a => tame_exprRes (f a)

theorem tame_pmap (hP : Up P) {p : Parser C A} (hp : Tame P p) (f : A → B) : Tame P (pmap p f) := tame_chain hP hp fun a => tame_ret (f a)

theorem tame_tag [DecidableEq C] (t : List C) : Tame P (tag t) := by
  refine ⟨fun i h => ?_, fun i r a h => ?_⟩
  · rw [tag] at h
    split at h
    · cases h
    · split at h <;> cases h
  · rw [tag] at h
    split at h
    · rw [PResult.done.injEq] at h
      rw [← h.1]
      exact List.drop_suffix _ _
    · split at h <;> cases h

theorem tame_takeWhile (p : C → Bool) : Tame P (Nom.takeWhile p) := by
  refine ⟨fun i h => (by cases h), fun i r a h => ?_⟩
  rw [Nom.takeWhile, PResult.done.injEq] at h
  rw [← h.1]
  exact List.dropWhile_suffix _

theorem tame_takeWhile1 (p : C → Bool) : Tame P (takeWhile1 p) := by
  refine ⟨fun i h => ?_, fun i r a h => ?_⟩
  · cases i with
    | nil => cases h
    | cons c i =>
      rw [takeWhile1] at h
      split at h <;> cases h
  · cases i with
    | nil => cases h
    | cons c i =>
      rw [takeWhile1] at h
      split at h
      · rw [PResult.done.injEq] at h
        rw [← h.1]
        exact List.dropWhile_suffix _
      · cases h

theorem tame_isNot [DecidableEq C] (arr : List C) : Tame P (isNot arr) := by
  refine ⟨fun i h => ?_, fun i r a h => ?_⟩
  · cases i with
    | nil => cases h
    | cons c i =>
      rw [isNot] at h
      split at h <;> cases h
  · cases i with
    | nil =>
      rw [isNot, PResult.done.injEq] at h
      rw [← h.1]
      exact List.suffix_rfl
    | cons c i =>
      rw [isNot] at h
      split at h
      · cases h
      · rw [PResult.done.injEq] at h
        rw [← h.1]
        exact List.dropWhile_suffix _

theorem tame_alt {p q : Parser C A} (hp : Tame P p) (hq : Tame P q) : Tame P (alt p q) := by
  refine ⟨fun i h => ?_, fun i r a h => ?_⟩
  · rw [alt] at h
    split at h
    · exact hq.1 i h
    · exact hp.1 i h
  · rw [alt] at h
    split at h
    · exact hq.2 i r a h
    · exact hp.2 i r a h

theorem tame_opt {p : Parser C A} (hp : Tame P p) : Tame P (opt p) := by
  refine ⟨fun i h => ?_, fun i r a h => ?_⟩
  · rw [opt] at h
    split at h
    · cases h
    · cases h
    · cases h
    · rename_i e
      exact hp.1 i e
  · rw [opt] at h
    split at h
    · rename_i r' a' e
      rw [PResult.done.injEq] at h
      rw [← h.1]
      exact hp.2 i r' a' e
    · rw [PResult.done.injEq] at h
      rw [← h.1]
      exact List.suffix_rfl
    · cases h
    · cases h

theorem tame_complete {p : Parser C A} (hp : Tame P p) : Tame P (complete p) := by
  refine ⟨fun i h => ?_, fun i r a h => ?_⟩
  · rw [complete] at h
    split at h
    · cases h
    · exact hp.1 i h
  · rw [complete] at h
    split at h
    · cases h
    · exact hp.2 i r a h

theorem tame_eof : Tame P (eof (C := C)) := by
  refine ⟨fun i h => ?_, fun i r a h => ?_⟩
  · rw [eof] at h
    split at h <;> cases h
  · rw [eof] at h
    split at h
    · rename_i e
      rw [PResult.done.injEq] at h
      rw [← h.1, e]
      exact List.suffix_rfl
    · cases h

theorem tame_many0Go [DecidableEq C] (hP : Up P) {p : Parser C A} (hp : Tame P p) : ∀ (n : Nat) (i : List C) (acc : List A),
    (many0Go p n i acc = .panic → P i) ∧ ∀ r a, many0Go p n i acc = .done r a → r <:+ i
  | 0, i, acc => by
    refine ⟨fun h => (by cases h), fun r a h => ?_⟩
    rw [many0Go, PResult.done.injEq] at h
    rw [h.1]
    exact List.suffix_rfl
  | n + 1, i, acc => by
    rw [many0Go]
    split
    · refine ⟨fun h => (by cases h), fun r a h => ?_⟩
      rw [PResult.done.injEq] at h
      rw [h.1]
      exact List.suffix_rfl
    · cases e : p i with
      | error =>
        refine ⟨fun h => (by cases h), fun r a h => ?_⟩
        simp only [PResult.done.injEq] at h
        rw [h.1]
        exact List.suffix_rfl
      | incomplete => exact ⟨fun h => (by cases h), fun r a h => (by cases h)⟩
      | panic => exact ⟨fun _ => hp.1 i e, fun r a h => (by cases h)⟩
      | done r a =>
        simp only
        have hs := hp.2 i r a e
        split
        · exact ⟨fun h => (by cases h), fun r a h => (by cases h)⟩
        · have ih := tame_many0Go hP hp n r (acc ++ [a])
          exact ⟨fun h => hP r i hs (ih.1 h), fun r' a' h => (ih.2 r' a' h).trans hs⟩

theorem tame_many0 [DecidableEq C] (hP : Up P) {p : Parser C A} (hp : Tame P p) : Tame P (many0 p) :=
  ⟨fun i h => (tame_many0Go hP hp _ i []).1 h, fun i r a h => (tame_many0Go hP hp _ i []).2 r a h⟩

end

theorem escaped_tame {P : List Nat → Prop} : Tame P escaped := by
  refine ⟨fun i h => ?_, fun i r s h => ?_⟩
  · exfalso
    suffices ∀ n i, i.length ≤ n → escaped i ≠ .panic from this _ i (Nat.le_refl _) h
    intro n
    induction n with
    | zero =>
      intro i hi
      rw [List.length_eq_zero_iff.mp (Nat.le_zero.mp hi), escaped.eq_def]
      simp
    | succ n ih =>
      intro i hi h
      have hmap : ∀ (f : List Nat → List Nat) (j : List Nat), j.length ≤ n → (escaped j).map f ≠ .panic := by
        intro f j hj h
        cases e : escaped j with
        | panic => exact ih j hj e
        | _ => rw [e] at h; cases h
      cases i with
      | nil =>
        rw [escaped.eq_def] at h
        cases h
      | cons b i =>
        simp only [List.length_cons, Nat.add_le_add_iff_right] at hi
        by_cases h1 : b = 34
        · rw [h1, escaped_quote] at h
          cases h
        · by_cases h2 : b = 92
          · subst h2
            cases i with
            | nil =>
              rw [escaped_end] at h
              cases h
            | cons c i =>
              simp only [List.length_cons] at hi
              by_cases hc : c = 34 ∨ c = 92
              · rw [escaped_esc hc] at h
                exact hmap _ i (by omega) h
              · rw [escaped_bad hc] at h
                cases h
          · rw [escaped_plain h1 h2] at h
            exact hmap _ i hi h
  · obtain ⟨e, _⟩ := escaped_inv _ (Nat.le_refl _) h
    exact ⟨s, e.symm⟩

section
variable {N T W A : Type _} {P : List Nat → Prop}

theorem tame_parseToken (hP : Up P) (c : Codec A) : Tame P (parseToken c) :=
  tame_mapRes hP (tame_alt (tame_thn hP (tame_tag _) (tame_terminated hP escaped_tame (tame_tag _))) (tame_isNot _)) _

theorem tame_parseVec (hP : Up P) {inner : Parser Nat A} (h : Tame P inner) (o cl sep : List Nat) : Tame P (parseVec inner o cl sep) :=
  tame_thn hP (tame_tag _) <| tame_thn hP (tame_takeWhile _) <| tame_chain hP
    (tame_many0 hP <| tame_thn hP (tame_opt (tame_tag _)) <| tame_thn hP (tame_takeWhile _) <| tame_chain hP h fun _ =>
      tame_thn hP (tame_takeWhile _) (tame_ret _)) fun _ => tame_thn hP (tame_tag _) (tame_ret _)

theorem tame_parseArrow : Tame P parseArrow := tame_alt (tame_tag _) (tame_alt (tame_tag _) (tame_tag _))

theorem tame_parseInitials (hP : Up P) (c : Codec A) : Tame P (parseInitials c) :=
  tame_thn hP (tame_tag _) <| tame_thn hP (tame_takeWhile _) <| tame_parseVec hP (tame_parseToken hP c) _ _ _

theorem tame_parseLetterT (hP : Up P) (cn : Codec N) (ct : Codec T) : Tame P (parseLetterT cn ct) :=
  tame_alt (tame_thn hP (tame_tag _) <| tame_thn hP (tame_takeWhile _) <| tame_chain hP (tame_parseToken hP cn) fun _ => tame_ret _)
    (tame_thn hP (tame_tag _) <| tame_thn hP (tame_takeWhile _) <| tame_chain hP (tame_parseToken hP ct) fun _ => tame_ret _)

theorem tame_parseCfgRule [One W] (hP : Up P) (cn : Codec N) (ct : Codec T) (cw : Codec W) : Tame P (parseCfgRule cn ct cw) :=
  tame_chain hP (tame_parseToken hP cn) fun _ => tame_thn hP (tame_takeWhile _) <| tame_thn hP tame_parseArrow <| tame_thn hP (tame_takeWhile _) <|
    tame_chain hP (tame_parseVec hP (tame_parseLetterT hP cn ct) _ _ _) fun _ => tame_thn hP (tame_takeWhile _) <| tame_chain hP
      (tame_opt <| tame_complete <| tame_thn hP (tame_tag _) <| tame_thn hP (tame_takeWhile _) <| tame_chain hP (tame_isNot _) fun _ => tame_exprRes _)
      fun _ => tame_thn hP (tame_takeWhile _) <| tame_thn hP (tame_alt tame_eof (tame_thn hP (tame_tag _) (tame_pmap hP (tame_takeWhile _) _))) <| tame_ret _

theorem takeWhile1_value {p : Nat → Bool} {i r s : List Nat} (h : takeWhile1 p i = .done r s) : s <:+: i ∧ ∀ b ∈ s, p b = true := by
  cases i with
  | nil => cases h
  | cons c i =>
    rw [takeWhile1] at h
    split at h
    · rw [PResult.done.injEq] at h
      rw [← h.2]
      exact ⟨(List.takeWhile_prefix _).isInfix, fun b hb => List.mem_takeWhile_imp hb⟩
    · cases h

theorem isNot_value {arr i r s : List Nat} (h : isNot arr i = .done r s) : s <:+: i ∧ ∀ b ∈ s, b ∉ arr := by
  cases i with
  | nil =>
    rw [isNot, PResult.done.injEq] at h
    rw [← h.2]
    simp
  | cons c i =>
    rw [isNot] at h
    split at h
    · cases h
    · rw [PResult.done.injEq] at h
      rw [← h.2]
      exact ⟨(List.takeWhile_prefix _).isInfix, fun b hb => by simpa using List.mem_takeWhile_imp hb⟩

theorem up_infix (Q : List Nat → Prop) : Up fun i => ∃ t, t <:+: i ∧ Q t := fun _ _ h ⟨t, h1, h2⟩ => ⟨t, h1.trans h.isInfix, h2⟩

theorem up_or {P Q : List Nat → Prop} (h1 : Up P) (h2 : Up Q) : Up fun i => P i ∨ Q i := fun r i h => Or.imp (h1 r i h) (h2 r i h)

theorem tame_parseVarT (hP : Up P) (hn : ∀ i t, t <:+: i → (∀ b ∈ t, 48 ≤ b ∧ b ≤ 57) → 2 ^ 64 ≤ digitsValue t → P i) (ct : Codec T) :
    Tame P (parseVarT ct) := by
  refine tame_alt (tame_thn hP (tame_tag _) <| tame_thn hP (tame_takeWhile _) ?_)
    (tame_thn hP (tame_tag _) <| tame_thn hP (tame_takeWhile _) <| tame_chain hP (tame_parseToken hP ct) fun _ => tame_ret _)
  have hd : ∀ i r s, digit i = .done r s → s <:+: i ∧ ∀ b ∈ s, 48 ≤ b ∧ b ≤ 57 := by
    intro i r s h
    obtain ⟨h1, h2⟩ := takeWhile1_value h
    exact ⟨h1, fun b hb => by simpa using h2 b hb⟩
  have hds : ∀ i r s, digit i = .done r s → r <:+ i := fun i r s h => (tame_takeWhile1 (P := P) _).2 i r s h
  have hu : ∀ i s, s <:+: i → (∀ b ∈ s, 48 ≤ b ∧ b ≤ 57) → parseUsize s = none → P i := by
    intro i s h1 h2 h3
    rw [parseUsize] at h3
    split at h3
    · cases h3
    · exact hn i s h1 h2 (by omega)
  refine tame_chain' (tame_takeWhile1 _) fun i r s hs => ?_
  obtain ⟨hs1, hs2⟩ := hd i r s hs
  have hsr := hds i r s hs
  have hmain : Tame P (thn (Nom.takeWhile isSpace) <| chain digit fun j =>
      chain (unwrapRes (parseUsize s)) fun i => chain (unwrapRes (parseUsize j)) fun j => ret (VarT.var i j : VarT T)) ∨ parseUsize s = none := by
    cases hps : parseUsize s with
    | none => exact .inr rfl
    | some n =>
      left
      refine tame_thn hP (tame_takeWhile _) (tame_chain' (tame_takeWhile1 _) fun i' r' s' hs' => ?_)
      obtain ⟨hs1', hs2'⟩ := hd i' r' s' hs'
      have hsr' := hds i' r' s' hs'
      have e : chain (unwrapRes (some n)) (fun i => chain (unwrapRes (parseUsize s')) fun j => ret (VarT.var i j : VarT T)) r' =
          chain (unwrapRes (parseUsize s')) (fun j => ret (VarT.var n j : VarT T)) r' := chain_done rfl
      rw [e]
      cases hps' : parseUsize s' with
      | none => exact ⟨fun _ => hu i' s' hs1' hs2' hps', fun r b h => (by cases h)⟩
      | some m =>
        refine ⟨fun h => (by cases h), fun r'' b h => ?_⟩
        have : r'' = r' := by
          have h : PResult.done r' (VarT.var n m : VarT T) = .done r'' b := h
          rw [PResult.done.injEq] at h
          exact h.1.symm
        rw [this]
        exact hsr'
  rcases hmain with hmain | hnone
  · exact ⟨fun h => hP r i hsr (hmain.1 r h), fun r' b h => (hmain.2 r r' b h).trans hsr⟩
  · refine ⟨fun _ => hu i s hs1 hs2 hnone, fun r' b h => ?_⟩
    obtain ⟨_, _, _, h⟩ := chain_inv h
    obtain ⟨_, _, _, h⟩ := chain_inv h
    obtain ⟨_, _, h, _⟩ := chain_inv h
    rw [hnone] at h
    cases h

theorem chain_panic {C B : Type _} {p : Parser C A} {f : A → Parser C B} {i : List C} (h : chain p f i = .panic) :
    p i = .panic ∨ ∃ r a, p i = .done r a ∧ f a r = .panic := by
  rw [chain] at h
  cases e : p i with
  | done r a => rw [e] at h; exact .inr ⟨r, a, rfl, h⟩
  | panic => exact .inl rfl
  | _ => rw [e] at h; cases h

theorem takeWhile_inv {C : Type _} {p : C → Bool} {i r s : List C} (h : Nom.takeWhile p i = .done r s) :
    i = s ++ r ∧ (∀ b ∈ s, p b = true) ∧ ∀ b t, r = b :: t → p b = false := by
  rw [Nom.takeWhile, PResult.done.injEq] at h
  rw [← h.1, ← h.2]
  refine ⟨(List.takeWhile_append_dropWhile).symm, fun b hb => List.mem_takeWhile_imp hb, fun b t e => ?_⟩
  have hne : i.dropWhile p ≠ [] := by simp [e]
  have := List.head_dropWhile_not p hne
  simpa [e] using this

theorem isNot_inv {arr i r s : List Nat} (h : isNot arr i = .done r s) : i = s ++ r ∧ (∀ b ∈ s, b ∉ arr) ∧ ∀ b t, r = b :: t → b ∈ arr := by
  cases i with
  | nil =>
    rw [isNot, PResult.done.injEq] at h
    rw [← h.1, ← h.2]
    simp
  | cons c i =>
    rw [isNot] at h
    split at h
    · cases h
    · have := takeWhile_inv (p := fun b => decide (b ∉ arr)) (i := c :: i) (r := r) (s := s) h
      refine ⟨this.1, fun b hb => by simpa using this.2.1 b hb, fun b t e => by simpa using this.2.2 b t e⟩

theorem tag_inv {C : Type _} [DecidableEq C] {t i r : List C} {u : Unit} (h : tag t i = .done r u) : i = t ++ r := by
  rw [tag] at h
  split at h
  · rename_i hp
    rw [PResult.done.injEq] at h
    obtain ⟨s, rfl⟩ := hp
    rw [← h.1]
    simp
  · split at h <;> cases h

theorem weight_panic {cw : Codec W} {i : List Nat} (h : parsePmcfgWeight cw i = .panic) : BadWeight cw i := by
  have h : complete (thn (tag [35]) <| thn (Nom.takeWhile isSpace) <| chain (isNot [32]) fun s => unwrapRes (cw.read s)) i = .panic := by
    unfold parsePmcfgWeight opt at h
    split at h <;> first | assumption | cases h
  have h : (thn (tag [35]) <| thn (Nom.takeWhile isSpace) <| chain (isNot [32]) fun s => unwrapRes (cw.read s)) i = .panic := by
    unfold complete at h
    split at h
    · cases h
    · assumption
  rcases chain_panic h with h | ⟨r, u, h1, h⟩
  · exact ((tame_tag (P := fun _ => False) _).1 i h).elim
  rcases chain_panic h with h | ⟨r₂, w, h2, h⟩
  · exact ((tame_takeWhile (P := fun _ => False) _).1 r h).elim
  rcases chain_panic h with h | ⟨v, t, h3, h⟩
  · exact ((tame_isNot (P := fun _ => False) _).1 r₂ h).elim
  obtain ⟨e2, k2, k2'⟩ := takeWhile_inv h2
  obtain ⟨e3, k3, k3'⟩ := isNot_inv h3
  refine ⟨[], w, t, v, ?_, ?_, ?_, ?_, ?_, ?_⟩
  · rw [tag_inv h1, e2, e3]; rfl
  · intro b hb
    simpa [isSpace] using k2 b hb
  · intro b r e
    have := k2' b r (by rw [e3, e])
    simpa [isSpace] using this
  · exact fun hb => k3 32 hb (by simp)
  · cases v with
    | nil => exact .inl rfl
    | cons b v =>
      have := k3' b v rfl
      simp only [List.mem_singleton] at this
      exact .inr ⟨v, by rw [this]⟩
  · cases e : cw.read t with
    | none => rfl
    | some x => rw [e] at h; cases h

theorem up_badWeight (cw : Codec W) : Up (BadWeight cw) := by
  rintro r i ⟨p, rfl⟩ ⟨u, w, t, v, rfl, h⟩
  exact ⟨p ++ u, w, t, v, by simp, h⟩

theorem tame_parsePmcfgRule [One W] (hP : Up P) (hn : ∀ i t, t <:+: i → (∀ b ∈ t, 48 ≤ b ∧ b ≤ 57) → 2 ^ 64 ≤ digitsValue t → P i)
    (cn : Codec N) (ct : Codec T) (cw : Codec W) (hw : ∀ i, BadWeight cw i → P i) : Tame P (parsePmcfgRule cn ct cw) := by
  refine tame_chain hP (tame_parseToken hP cn) fun _ => tame_thn hP (tame_takeWhile _) <| tame_thn hP tame_parseArrow <| tame_thn hP (tame_takeWhile _) <|
    tame_chain hP (tame_parseVec hP (tame_parseVec hP (tame_parseVarT hP hn ct) _ _ _) _ _ _) fun _ => tame_thn hP (tame_takeWhile _) <|
    tame_chain hP (tame_parseVec hP (tame_parseToken hP cn) _ _ _) fun _ => tame_thn hP (tame_takeWhile _) <| tame_chain hP ?_
      fun _ => tame_thn hP (tame_takeWhile _) <| tame_thn hP (tame_many0 hP (tame_tag _)) <| tame_thn hP (tame_takeWhile _) <| tame_ret _
  refine ⟨fun i h => hw i (weight_panic h), ?_⟩
  have : Tame (fun _ => True) (parsePmcfgWeight cw) := by
    refine tame_opt <| tame_complete <| tame_thn (fun _ _ _ h => h) (tame_tag _) <| tame_thn (fun _ _ _ h => h) (tame_takeWhile _) <|
      tame_chain (fun _ _ _ h => h) (tame_isNot _) fun s => ⟨fun _ _ => trivial, fun i r a h => ?_⟩
    cases hr : cw.read s with
    | none => rw [hr] at h; cases h
    | some w =>
      rw [hr, unwrapRes, PResult.done.injEq] at h
      rw [h.1]
      exact List.suffix_rfl
  exact this.2

theorem toResult_none {C : Type _} {x : PResult C A} (h : x.toResult = none) : x = .panic := by
  cases x <;> first | rfl | cases h

theorem grammarLoop_none {R : Type _} {cn : Codec N} {rule : List Nat → Option (Option R)} :
    ∀ {ls : List (List Nat)} {initial : List N} {rules : List R}, grammarLoop cn rule ls initial rules = none → ∃ l ∈ ls, rule (trim l) = none
  | [], _, _, h => by cases h
  | l :: ls, initial, rules, h => by
    have hrec : ∀ {initial rules}, grammarLoop cn rule ls initial rules = none → ∃ l' ∈ l :: ls, rule (trim l') = none := by
      intro initial rules h
      obtain ⟨l', hl', h'⟩ := grammarLoop_none h
      exact ⟨l', List.mem_cons_of_mem _ hl', h'⟩
    rw [grammarLoop] at h
    split at h
    · split at h
      · exact hrec h
      · cases h
      · rename_i e
        exact ((tame_parseInitials (P := fun _ => False) (fun _ _ _ h => h) cn).1 l (toResult_none e)).elim
    · split at h
      · split at h
        · exact hrec h
        · cases h
        · rename_i e
          exact ⟨l, List.mem_cons_self, e⟩
      · exact hrec h

theorem grammarLoop_total {R : Type _} {cn : Codec N} {rule : List Nat → Option (Option R)} (hrule : ∀ s, rule s ≠ none)
    (ls : List (List Nat)) (initial : List N) (rules : List R) : grammarLoop cn rule ls initial rules ≠ none := by
  intro h
  obtain ⟨l, _, h⟩ := grammarLoop_none h
  exact hrule _ h

end

namespace Props

section
variable {N T W : Type _}

/-- C56 for context-free rules: each text is parsed as a rule or an error is returned. -/
theorem C56_cfg_rule [One W] (cn : Codec N) (ct : Codec T) (cw : Codec W) (s : List Nat) : CFGRule.fromStr cn ct cw s ≠ none := by
  intro h
  exact (tame_parseCfgRule (P := fun _ => False) (fun _ _ _ h => h) cn ct cw).1 s (toResult_none h)

/-- C56 for context-free grammars. -/
theorem C56_cfg [One W] (cn : Codec N) (ct : Codec T) (cw : Codec W) (s : List Nat) : CFG.fromStr cn ct cw s ≠ none := by
  intro h
  rw [CFG.fromStr, Option.map_eq_none_iff] at h
  exact grammarLoop_total (C56_cfg_rule cn ct cw) _ _ _ h

/-- C56 for PMCFG rules. -/
def C56_claim : Prop :=
  ∀ (N T W : Type) [One W] (cn : Codec N) (ct : Codec T) (cw : Codec W) (s : List Nat), PMCFGRule.fromStr cn ct cw s ≠ none

/-- Parsing a PMCFG rule panics only if the text after a `#` is no weight, or if there is a number that does not fit into 64 bits. -/
theorem C56_pmcfg_rule_partial [One W] {cn : Codec N} {ct : Codec T} {cw : Codec W} {s : List Nat} (h : PMCFGRule.fromStr cn ct cw s = none) :
    BadWeight cw s ∨ ∃ t, t <:+: s ∧ (∀ b ∈ t, 48 ≤ b ∧ b ≤ 57) ∧ 2 ^ 64 ≤ digitsValue t := by
  have := tame_parsePmcfgRule
    (P := fun i => BadWeight cw i ∨ ∃ t, t <:+: i ∧ (∀ b ∈ t, 48 ≤ b ∧ b ≤ 57) ∧ 2 ^ 64 ≤ digitsValue t)
    (up_or (up_badWeight cw) (up_infix _)) (fun i t h1 h2 h3 => .inr ⟨t, h1, h2, h3⟩) cn ct cw (fun i h => .inl h)
  exact this.1 s (toResult_none h)

/-- Parsing a PMCFG panics only if a line contains such a weight or such a number. -/
theorem C56_pmcfg_partial [One W] {cn : Codec N} {ct : Codec T} {cw : Codec W} {s : List Nat} (h : PMCFG.fromStr cn ct cw s = none) :
    ∃ l ∈ lines s, BadWeight cw (trim l) ∨ ∃ t, t <:+: trim l ∧ (∀ b ∈ t, 48 ≤ b ∧ b ≤ 57) ∧ 2 ^ 64 ≤ digitsValue t := by
  rw [PMCFG.fromStr, Option.map_eq_none_iff] at h
  obtain ⟨l, hl, h⟩ := grammarLoop_none h
  exact ⟨l, hl, C56_pmcfg_rule_partial h⟩

/-- The same for LCFRS. -/
theorem C56_lcfrs_partial [One W] {cn : Codec N} {ct : Codec T} {cw : Codec W} {s : List Nat} (h : Lcfrs.fromStr cn ct cw s = none) :
    ∃ l ∈ lines s, BadWeight cw (trim l) ∨ ∃ t, t <:+: trim l ∧ (∀ b ∈ t, 48 ≤ b ∧ b ≤ 57) ∧ 2 ^ 64 ≤ digitsValue t := by
  rw [Lcfrs.fromStr, Option.map_eq_none_iff] at h
  obtain ⟨l, hl, h⟩ := grammarLoop_none h
  exact ⟨l, hl, C56_pmcfg_rule_partial h⟩

end

namespace C56Example

open C48Example

/-- `S → [] () # x` -/
def badWeight : List Nat := ascii ['S', ' ', '-', '>', ' ', '[', ']', ' ', '(', ')', ' ', '#', ' ', 'x']

/-- `S → [[Var 18446744073709551616 0]] ()` -/
def badNumber : List Nat := ascii ['S', ' ', '-', '>', ' ', '[', '[', 'V', 'a', 'r', ' ', '1', '8', '4', '4', '6', '7', '4', '4', '0', '7', '3', '7',
  '0', '9', '5', '5', '1', '6', '1', '6', ' ', '0', ']', ']', ' ', '(', ')']

/-- A malformed weight of a PMCFG rule leads to a panic. -/
example : PMCFGRule.fromStr str str num badWeight = none := by decide +kernel

/-- A number that does not fit into 64 bits leads to a panic. -/
example : PMCFGRule.fromStr str str num badNumber = none := by decide +kernel

/-- A malformed weight of a context-free rule leads to an error. -/
example : CFGRule.fromStr str str num (ascii ['S', ' ', '-', '>', ' ', '[', ']', ' ', '#', ' ', 'x']) = some none := by decide +kernel

/-- Without the weight, the rule is accepted with weight one. -/
example : PMCFGRule.fromStr str str num (badWeight.take 11) = some (some ⟨ascii ['S'], [], [], 1⟩) := by decide +kernel

end C56Example

/-- A malformed weight makes the parser of PMCFG rules panic. -/
theorem C56_violated : ¬ C56_claim := fun h =>
  h (List Nat) (List Nat) Nat C48Example.str C48Example.str C48Example.num C56Example.badWeight (by decide +kernel)

end Props

end Rustomata
