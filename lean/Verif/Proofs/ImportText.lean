import Verif.Proofs.Import
import Verif.Proofs.FromStr
import Verif.Props.FromStrTotal

/-!
# Reading the files of disco-dop and rparse
-/

namespace Rustomata
open Spec Nom

section Sep
variable {C A B : Type _}

/-- The rest of a list with separators: the values and the input that is left over. -/
inductive SepTail (sep : Parser C B) (p : Parser C A) : List C → List A → List C → Prop
  | stop {i} : complete sep i = .error → SepTail sep p i [] i
  | last {i r b} : complete sep i = .done r b → r.length < i.length → complete p r = .error → SepTail sep p i [] i
  | step {i i' r rest a b vs} : complete sep i = .done i' b → i'.length < i.length → complete p i' = .done r a → r.length < i'.length →
      SepTail sep p r vs rest → SepTail sep p i (a :: vs) rest

theorem sepGo_tail {sep : Parser C B} {p : Parser C A} {i rest : List C} {vs : List A} (h : SepTail sep p i vs rest) (n : Nat) (hn : i.length < n) (acc : List A) :
    sepGo (complete sep) (complete p) n i acc = .done rest (acc ++ vs) := by
  induction h generalizing n acc with
  | @stop i h =>
    cases n with
    | zero => omega
    | succ n => simp only [sepGo, h, List.append_nil]
  | @last i r b h hl hp =>
    cases n with
    | zero => omega
    | succ n => simp only [sepGo, h, if_neg (show ¬ r.length = i.length by omega), hp, List.append_nil]
  | @step i i' r rest a b vs h1 h2 h3 h4 _ ih =>
    cases n with
    | zero => omega
    | succ n =>
      simp only [sepGo, h1, if_neg (show ¬ i'.length = i.length by omega), h3, if_neg (show ¬ r.length = i'.length by omega)]
      rw [ih n (by omega)]
      simp

theorem sepList1_tail {sep : Parser C B} {p : Parser C A} {i r rest : List C} {a : A} {vs : List A} (h1 : complete p i = .done r a) (h2 : r.length < i.length)
    (h : SepTail sep p r vs rest) : sepList1 sep p i = .done rest (a :: vs) := by
  simp only [sepList1, h1, if_neg (show ¬ r.length = i.length by omega)]
  rw [sepGo_tail h _ (by omega)]
  rfl

theorem sepList_tail {sep : Parser C B} {p : Parser C A} {i r rest : List C} {a : A} {vs : List A} (h1 : complete p i = .done r a) (h2 : r.length < i.length)
    (h : SepTail sep p r vs rest) : sepList sep p i = .done rest (a :: vs) := by
  simp only [sepList, h1, if_neg (show ¬ r.length = i.length by omega)]
  rw [sepGo_tail h _ (by omega)]
  rfl

theorem intercalate_cons' (c x : List C) (l : List (List C)) : c.intercalate (x :: l) = x ++ l.flatMap (c ++ ·) := by
  induction l generalizing x with
  | nil => simp [List.intercalate]
  | cons y l ih =>
    have : c.intercalate (x :: y :: l) = x ++ (c ++ c.intercalate (y :: l)) := by simp [List.intercalate]
    rw [this, ih]
    simp

/-- The rest of a list whose separator is a fixed text. -/
theorem sepTail_texts [DecidableEq C] {c : List C} (hc : c ≠ []) {p : Parser C A} {E : List C → Prop} (hE : ∀ t, E (c ++ t)) {rest : List C} (hr : E rest)
    (hstop : complete (tag c) rest = .error ∨ ∃ t, rest = c ++ t ∧ complete p t = .error) (l : List (List C × A))
    (hl : ∀ x ∈ l, x.1 ≠ [] ∧ ∀ r, E r → p (x.1 ++ r) = .done r x.2) :
    SepTail (tag c) p ((l.map Prod.fst).flatMap (c ++ ·) ++ rest) (l.map Prod.snd) rest := by
  have hcl : 0 < c.length := List.length_pos_iff.2 hc
  induction l with
  | nil =>
    rcases hstop with h | ⟨t, rfl, h⟩
    · exact .stop h
    · exact .last (complete_done (tag_append c t)) (by simp; omega) h
  | cons x l ih =>
    have hx := hl x (by simp)
    have hxl : 0 < x.1.length := List.length_pos_iff.2 hx.1
    have hE' : E ((l.map Prod.fst).flatMap (c ++ ·) ++ rest) := by
      cases l with
      | nil => exact hr
      | cons y l => simpa using hE _
    simp only [List.map_cons, List.flatMap_cons, List.append_assoc]
    refine .step (complete_done (tag_append c _)) ?_ (complete_done (hx.2 _ hE')) ?_ (ih fun y hy => hl y (List.mem_cons_of_mem _ hy))
    · simp; omega
    · simp; omega

/-- A nonempty list with separators. -/
theorem sep_texts [DecidableEq C] {c : List C} (hc : c ≠ []) {p : Parser C A} {E : List C → Prop} (hE : ∀ t, E (c ++ t)) {rest : List C} (hr : E rest)
    (hstop : complete (tag c) rest = .error ∨ ∃ t, rest = c ++ t ∧ complete p t = .error) (l : List (List C × A)) (hne : l ≠ [])
    (hl : ∀ x ∈ l, x.1 ≠ [] ∧ ∀ r, E r → p (x.1 ++ r) = .done r x.2) :
    sepList1 (tag c) p (c.intercalate (l.map Prod.fst) ++ rest) = .done rest (l.map Prod.snd) ∧
    sepList (tag c) p (c.intercalate (l.map Prod.fst) ++ rest) = .done rest (l.map Prod.snd) := by
  cases l with
  | nil => exact absurd rfl hne
  | cons x l =>
    have hx := hl x (by simp)
    have hxl : 0 < x.1.length := List.length_pos_iff.2 hx.1
    have hE' : E ((l.map Prod.fst).flatMap (c ++ ·) ++ rest) := by
      cases l with
      | nil => exact hr
      | cons y l => simpa using hE _
    have ht := sepTail_texts hc hE hr hstop l fun y hy => hl y (List.mem_cons_of_mem _ hy)
    rw [List.map_cons, intercalate_cons', List.append_assoc]
    have h1 := complete_done (hx.2 _ hE')
    exact ⟨sepList1_tail h1 (by simp; omega) ht, sepList_tail h1 (by simp; omega) ht⟩

end Sep

section Tokens

theorem isToken_iff (c : Nat) : isToken c = true ↔ c ∉ whiteSpace := by
  unfold isToken isWhitespace whiteSpace
  simp only [Bool.not_eq_true', Bool.or_eq_false_iff, Bool.and_eq_false_iff, decide_eq_false_iff_not, List.mem_cons, List.not_mem_nil, or_false]
  omega

theorem isToken_space {c : Nat} (h : isToken c = true) : isSpace c = false := by
  rw [isToken_iff] at h
  unfold isSpace
  simp only [whiteSpace, List.mem_cons, not_or] at h
  simp only [Bool.or_eq_false_iff, decide_eq_false_iff_not]
  omega

theorem bare_token {s : List Nat} (h : Bare s) : ∀ c ∈ s, isToken c = true := fun c hc => (isToken_iff c).2 (h.2 c hc)

/-- Ends of tokens. -/
def EndsToken (r : List Nat) : Prop := ∀ b t, r = b :: t → isToken b = false

theorem token_read {s r : List Nat} (h : Bare s) (hr : EndsToken r) : takeWhile1 isToken (s ++ r) = .done r s := takeWhile1_append h.1 (bare_token h) hr

/-- The input does not start with a blank. -/
def NoBlank (r : List Nat) : Prop := ∀ b t, r = b :: t → isSpace b = false

theorem gap_read {g r : List Nat} (h : Gap g) (hr : NoBlank r) : space (g ++ r) = .done r g :=
  takeWhile1_append h.1 (fun c hc => by rcases h.2 c hc with rfl | rfl <;> rfl) hr

theorem gap_ends {g r : List Nat} (h : Gap g) : EndsToken (g ++ r) := by
  intro b t e
  cases g with
  | nil => exact absurd rfl h.1
  | cons c g =>
    cases e
    rcases h.2 b (by simp) with rfl | rfl <;> rfl

theorem bare_noBlank {s r : List Nat} (h : Bare s) : NoBlank (s ++ r) := by
  intro b t e
  cases s with
  | nil => exact absurd rfl h.1
  | cons c s =>
    cases e
    exact isToken_space (bare_token h b (by simp))

theorem nextToken_read {g s r : List Nat} (hg : Gap g) (hs : Bare s) (hr : EndsToken r) : nextToken (g ++ (s ++ r)) = .done r s := by
  unfold nextToken
  rw [thn_done (gap_read hg (bare_noBlank hs)), token_read hs hr]

theorem digits_bare {s : List Nat} (h : Digits s) : Bare s := ⟨h.1, fun c hc => by
  have := h.2 c hc
  simp only [whiteSpace, List.mem_cons, List.not_mem_nil, or_false]
  omega⟩

/-- The input does not start with a digit. -/
def NoDigit (r : List Nat) : Prop := ∀ b t, r = b :: t → b < 48 ∨ 57 < b

theorem digits_read {s r : List Nat} (h : Digits s) (hr : NoDigit r) : digit (s ++ r) = .done r s := by
  rw [digit, many1Of]
  refine takeWhile1_append h.1 (fun c hc => ?_) fun b t e => ?_
  · have := h.2 c hc
    simp [this]
  · have := hr b t e
    simp only [Bool.and_eq_false_iff, decide_eq_false_iff_not]
    omega

variable {W : Type _} [Div W] {cw : Codec W}

theorem countText_bare {w : W} {s : List Nat} (h : CountText cw w s) : Bare s := by
  cases h with
  | number h _ => exact digits_bare h
  | fraction h1 h2 _ _ =>
    refine ⟨by simp, fun c hc => ?_⟩
    rcases List.mem_append.1 hc with hc | hc
    · exact (digits_bare h1).2 c hc
    · rcases List.mem_cons.1 hc with rfl | hc
      · decide
      · exact (digits_bare h2).2 c hc

/-- Ends of pseudo-counts. -/
def EndsCount (r : List Nat) : Prop := ∀ b t, r = b :: t → b < 47 ∨ 57 < b

theorem count_read {w : W} {s r : List Nat} (h : CountText cw w s) (hr : EndsCount r) : parsePseudocount cw (s ++ r) = .done r w := by
  have hr' : NoDigit r := fun b t e => by have := hr b t e; omega
  unfold parsePseudocount mapRes
  cases h with
  | number h1 h2 =>
    have h3 : opt (complete (thn (tag [47]) digit)) r = .done r none := by
      refine opt_error ?_
      cases r with
      | nil => rfl
      | cons b t =>
        unfold complete
        rw [thn_error (tag_ne (by have := hr b t rfl; omega))]
    have h4 : chain digit (fun num => chain (opt (complete (thn (tag [47]) digit))) fun denom => ret (num, denom)) (s ++ r) = .done r (s, none) := by
      rw [chain_done (digits_read h1 hr'), chain_done h3]; rfl
    rw [chain_done h4]
    simp only [h2]
  | @fraction a b s t h1 h2 h3 h4 =>
    have h5 : opt (complete (thn (tag [47]) digit)) (47 :: (t ++ r)) = .done r (some t) := by
      refine opt_done (complete_done ?_)
      rw [thn_done (tag_cons 47 _), digits_read h2 hr']
    have h6 : chain digit (fun num => chain (opt (complete (thn (tag [47]) digit))) fun denom => ret (num, denom)) (s ++ 47 :: t ++ r) = .done r (s, some t) := by
      rw [List.append_assoc, List.cons_append, chain_done (digits_read h1 (fun b t e => by cases e; omega)), chain_done h5]; rfl
    rw [chain_done h6]
    simp only [h3, h4]

end Tokens

section Yield

/-- The value of a sequence of bits, the first bit being the least one. -/
def bitVal : List Bool → Nat
  | [] => 0
  | b :: bs => Nat.bit b (bitVal bs)

theorem bitVal_testBit (bits : List Bool) (i : Nat) : (bitVal bits).testBit i = (bits[i]?).getD false := by
  induction bits generalizing i with
  | nil => simp [bitVal]
  | cons b bits ih =>
    cases i with
    | zero => simp [bitVal]
    | succ i => rw [bitVal, Nat.testBit_bit_succ, ih]; rfl

theorem fromBinaryGo_bits (bits : List Bool) (k s : Nat) (hk : k + bits.length ≤ 64) :
    fromBinaryGo k (some s) (bitText bits) = some (some (2 ^ k * bitVal bits + s)) := by
  induction bits generalizing k s with
  | nil => simp [bitText, fromBinaryGo, bitVal]
  | cons b bits ih =>
    simp only [List.length_cons] at hk
    cases b with
    | false =>
      have : fromBinaryGo k (some s) (bitText (false :: bits)) = fromBinaryGo (k + 1) (some (0 + s)) (bitText bits) := rfl
      rw [this, ih _ _ (by omega)]
      simp only [bitVal, Nat.bit_false]
      congr 2
      rw [Nat.pow_succ]; ring
    | true =>
      have : fromBinaryGo k (some s) (bitText (true :: bits)) = fromBinaryGo (k + 1) (some (2 ^ k + s)) (bitText bits) := by
        show (match binaryValue k 49 with | none => none | some ov => fromBinaryGo (k + 1) _ (bitText bits)) = _
        have : binaryValue k 49 = some (some (2 ^ k)) := by simp [binaryValue, pow64, show k < 64 by omega]
        rw [this]; rfl
      rw [this, ih _ _ (by omega)]
      simp only [bitVal, Nat.bit_true]
      congr 2
      rw [Nat.pow_succ]; ring

theorem bitText_length (bits : List Bool) : (bitText bits).length = bits.length := by simp [bitText]

theorem bitText_bin (bits : List Bool) : ∀ c ∈ bitText bits, isBinaryDigit c = true := by
  intro c hc
  obtain ⟨b, _, rfl⟩ := List.mem_map.1 hc
  cases b <;> rfl

theorem parseYield_read {bits : List (List Bool)} (h : GoodBits bits) :
    parseYield (discoYieldText bits) = .done [] (bits.map fun b => (b.length, bitVal b)) := by
  have := (sep_texts (c := [44]) (by simp) (p := mapResPanic (Nom.takeWhile isBinaryDigit) fun bs => match fromBinary bs with
    | none => none
    | some none => some none
    | some (some payload) => some (some (bs.length % 256, payload))) (E := fun r => ∀ b t, r = b :: t → isBinaryDigit b = false)
    (fun t b t' e => by cases e; rfl) (rest := []) (fun b t e => by cases e) (Or.inl rfl) (bits.map fun b => (bitText b, (b.length, bitVal b)))
    (by simpa using h.1) (by
      intro x hx
      obtain ⟨b, hb, rfl⟩ := List.mem_map.1 hx
      obtain ⟨h1, h2⟩ := h.2 b hb
      refine ⟨by simpa [bitText] using h1, fun r hr => ?_⟩
      unfold mapResPanic
      rw [chain_done (takeWhile_append (bitText_bin b) hr)]
      have : fromBinary (bitText b) = some (some (bitVal b)) := by
        unfold fromBinary
        rw [fromBinaryGo_bits b 0 0 (by omega)]
        simp
      simp only [this, bitText_length]
      rw [Nat.mod_eq_of_lt (by omega)])).1
  simp only [List.map_map, List.append_nil] at this
  exact this

theorem discoYieldText_bare {bits : List (List Bool)} (h : GoodBits bits) : Bare (discoYieldText bits) := by
  have hw : ∀ c ∈ discoYieldText bits, c = 44 ∨ c = 48 ∨ c = 49 := by
    intro c hc
    unfold discoYieldText at hc
    cases bits with
    | nil => simp at hc
    | cons b bits =>
      have hbit : ∀ (b : List Bool), c ∈ bitText b → c = 48 ∨ c = 49 := by
        intro b hb
        obtain ⟨x, _, rfl⟩ := List.mem_map.1 hb
        cases x <;> simp
      rw [List.map_cons, intercalate_cons'] at hc
      rcases List.mem_append.1 hc with hc | hc
      · exact Or.inr (hbit b hc)
      · obtain ⟨y, hy, hc⟩ := List.mem_flatMap.1 hc
        obtain ⟨b', _, rfl⟩ := List.mem_map.1 hy
        rcases List.mem_append.1 hc with hc | hc
        · left; simpa using hc
        · exact Or.inr (hbit b' hc)
  refine ⟨?_, fun c hc => ?_⟩
  · cases bits with
    | nil => exact absurd rfl h.1
    | cons b bits =>
      have hb := (h.2 b (by simp)).1
      unfold discoYieldText
      rw [List.map_cons, intercalate_cons']
      intro e
      have := (List.append_eq_nil_iff.1 e).1
      simp [bitText] at this
      exact hb this
  · rcases hw c hc with rfl | rfl | rfl <;> decide

end Yield

section Constituents
variable {N W : Type _} [Div W] {cn : Codec N} {cw : Codec W}

theorem toResult_done {C A : Type _} (r : List C) (a : A) : (PResult.done r a).toResult = some (some a) := rfl

theorem discoRule_read {deriv : DiscoDeriv N} {bits : List (List Bool)} (hb : GoodBits bits) {w : W} {s : List Nat} (hw : CountText cw w s) :
    discoRule cw deriv (discoYieldText bits) s = some (some (deriv, bits.map (fun b => (b.length, bitVal b)), w)) := by
  unfold discoRule
  rw [parseYield_read hb, toResult_done]
  have := count_read hw (r := []) (fun b t e => by cases e)
  rw [List.append_nil] at this
  simp only [this, toResult_done]

/-- Ends of lines: the end of the input, or white space other than blanks. -/
def EndsLine (r : List Nat) : Prop := ∀ b t, r = b :: t → b ∈ whiteSpace ∧ b ≠ 32 ∧ b ≠ 9

theorem endsLine_nil : EndsLine [] := fun b t e => by cases e

theorem endsLine_cons {c : Nat} (h : c ∈ whiteSpace) (h1 : c ≠ 32) (h2 : c ≠ 9) (t : List Nat) : EndsLine (c :: t) := fun b t' e => by cases e; exact ⟨h, h1, h2⟩

theorem endsLine_newline (t : List Nat) : EndsLine (10 :: t) := endsLine_cons (by decide) (by decide) (by decide) t

theorem endsLine_token {r : List Nat} (h : EndsLine r) : EndsToken r := by
  rintro b t rfl
  cases e : isToken b with
  | false => rfl
  | true => exact absurd (h b t rfl).1 ((isToken_iff b).1 e)

theorem endsLine_space {r : List Nat} (h : EndsLine r) : complete space r = .error := by
  cases r with
  | nil => rfl
  | cons b t =>
    have : isSpace b = false := isSpace_false (h b t rfl).2.1 (h b t rfl).2.2
    simp only [complete, space, many1Of, takeWhile1, this]
    rfl

theorem endsLine_nextToken {r : List Nat} (h : EndsLine r) : opt (complete nextToken) r = .done r none := by
  refine opt_error ?_
  have h := endsLine_space h
  unfold complete at h ⊢
  unfold nextToken thn chain
  cases e : space r <;> rw [e] at h <;> simp_all

theorem constituent_read {deriv : DiscoDeriv N} {bits : List (List Bool)} {w : W} {s : List Nat} (h : ConstituentText cn cw deriv bits w s) {r : List Nat}
    (hr : EndsLine r) : parseConstituent cn cw (s ++ r) = .done r (deriv, bits.map (fun b => (b.length, bitVal b)), w) := by
  unfold parseConstituent mapResPanic
  cases h with
  | @chain lhs rhs _ _ s₁ s₂ s₃ g₁ g₂ g₃ h1 h2 h3 hg1 hg2 hg3 hb =>
    have e : (chain (takeWhile1 isToken) fun lhs => chain nextToken fun rhs => chain nextToken fun rhsOrY => chain nextToken fun yOrW =>
        chain (opt (complete nextToken)) fun ow => ret (lhs, rhs, rhsOrY, yOrW, ow)) (s₁ ++ (g₁ ++ (s₂ ++ (g₂ ++ (discoYieldText bits ++ (g₃ ++ s₃))))) ++ r) =
        .done r (s₁, s₂, discoYieldText bits, s₃, none) := by
      simp only [List.append_assoc]
      rw [chain_done (token_read h1.1 (gap_ends hg1)), chain_done (nextToken_read hg1 h2.1 (gap_ends hg2)),
        chain_done (nextToken_read hg2 (discoYieldText_bare hb) (gap_ends hg3)), chain_done (nextToken_read hg3 (countText_bare h3) (endsLine_token hr)),
        chain_done (endsLine_nextToken hr)]
      rfl
    rw [chain_done e]
    simp only [discoLine, h1.2, h2.2, discoRule_read hb h3]
  | @binary lhs rhs₁ rhs₂ _ _ s₁ s₂ s₃ s₄ g₁ g₂ g₃ g₄ h1 h2 h3 h4 hg1 hg2 hg3 hg4 hb =>
    have e : (chain (takeWhile1 isToken) fun lhs => chain nextToken fun rhs => chain nextToken fun rhsOrY => chain nextToken fun yOrW =>
        chain (opt (complete nextToken)) fun ow => ret (lhs, rhs, rhsOrY, yOrW, ow))
          (s₁ ++ (g₁ ++ (s₂ ++ (g₂ ++ (s₃ ++ (g₃ ++ (discoYieldText bits ++ (g₄ ++ s₄))))))) ++ r) = .done r (s₁, s₂, s₃, discoYieldText bits, some s₄) := by
      simp only [List.append_assoc]
      rw [chain_done (token_read h1.1 (gap_ends hg1)), chain_done (nextToken_read hg1 h2.1 (gap_ends hg2)), chain_done (nextToken_read hg2 h3.1 (gap_ends hg3)),
        chain_done (nextToken_read hg3 (discoYieldText_bare hb) (gap_ends hg4)),
        chain_done (opt_done (complete_done (nextToken_read hg4 (countText_bare h4) (endsLine_token hr))))]
      rfl
    rw [chain_done e]
    simp only [discoLine, h1.2, h2.2, h3.2, discoRule_read hb h4]

theorem constituentText_ne {deriv : DiscoDeriv N} {bits : List (List Bool)} {w : W} {s : List Nat} (h : ConstituentText cn cw deriv bits w s) : s ≠ [] := by
  cases h with
  | chain h1 _ _ _ _ _ _ => simp [h1.1.1]
  | binary h1 _ _ _ _ _ _ _ _ => simp [h1.1.1]

end Constituents

section Files
variable {A : Type _} {p : Parser Nat A}

/-- The lines of a file are read up to a line that cannot be read. -/
theorem file_cut {l : List (List Nat × A)} (hne : l ≠ []) (hl : ∀ x ∈ l, x.1 ≠ [] ∧ ∀ r, EndsLine r → p (x.1 ++ r) = .done r x.2) {rest : List Nat}
    (hr : EndsLine rest) (hstop : complete (tag [10]) rest = .error ∨ ∃ t, rest = 10 :: t ∧ complete p t = .error) :
    sepList (tag [10]) p ([10].intercalate (l.map Prod.fst) ++ rest) = .done rest (l.map Prod.snd) ∧
    sepList1 (tag [10]) p ([10].intercalate (l.map Prod.fst) ++ rest) = .done rest (l.map Prod.snd) := by
  have := sep_texts (c := [10]) (by simp) (E := EndsLine) endsLine_newline hr hstop l hne hl
  exact ⟨this.2, this.1⟩

/-- The lines of a file are read by the parser of a line. -/
theorem file_read (hp : complete p [] = .error) (hp0 : complete p [10] = .error) {l : List (List Nat × A)}
    (hl : ∀ x ∈ l, x.1 ≠ [] ∧ ∀ r, EndsLine r → p (x.1 ++ r) = .done r x.2) {s : List Nat} (hs : FileText (l.map Prod.fst) s) :
    (sepList (tag [10]) p s).toResult = some (some (l.map Prod.snd)) ∧ (l ≠ [] → (sepList1 (tag [10]) p s).toResult = some (some (l.map Prod.snd))) := by
  by_cases hne : l = []
  · subst hne
    refine ⟨?_, fun h => absurd rfl h⟩
    rcases hs with rfl | rfl
    · show (sepList (tag [10]) p []).toResult = _
      simp only [sepList, hp]; rfl
    · show (sepList (tag [10]) p [10]).toResult = _
      simp only [sepList, hp0]; rfl
  · rcases hs with rfl | rfl
    · have := sep_texts (c := [10]) (by simp) (E := EndsLine) endsLine_newline (rest := []) endsLine_nil (Or.inl rfl) l hne hl
      rw [List.append_nil] at this
      rw [this.1, this.2]
      exact ⟨rfl, fun _ => rfl⟩
    · have := sep_texts (c := [10]) (by simp) (E := EndsLine) endsLine_newline (rest := [10]) (endsLine_newline []) (Or.inr ⟨[], rfl, hp⟩) l hne hl
      rw [this.1, this.2]
      exact ⟨rfl, fun _ => rfl⟩

end Files

section Lexicon
variable {N T W : Type _} [Div W] {cn : Codec N} {ct : Codec T} {cw : Codec W}

theorem wordGap_read {g s r : List Nat} (hs : Bare s) (hg : Gap g) (hr : NoBlank r) : terminated (Nom.takeWhile isToken) space (s ++ (g ++ r)) = .done r s := by
  unfold terminated
  rw [chain_done (takeWhile_append (bare_token hs) (gap_ends hg)), chain_done (gap_read hg hr)]
  rfl

theorem gap_endsCount {g r : List Nat} (h : Gap g) : EndsCount (g ++ r) := by
  intro b t e
  cases g with
  | nil => exact absurd rfl h.1
  | cons c g =>
    cases e
    rcases h.2 b (by simp) with rfl | rfl <;> omega

theorem endsLine_count {r : List Nat} (h : EndsLine r) : EndsCount r := by
  rintro b t rfl
  have := (h b t rfl).1
  simp only [whiteSpace, List.mem_cons, List.not_mem_nil, or_false] at this
  omega

/-- The parser of a tag with its count. -/
def tagCount (cw : Codec W) : Parser Nat (List Nat × W) :=
  chain (terminated (Nom.takeWhile isToken) space) fun pos => chain (parsePseudocount cw) fun w => ret (pos, w)

theorem tagCount_read {s t g r : List Nat} {w : W} (hs : Bare s) (hg : Gap g) (hw : CountText cw w t) (hr : EndsCount r) :
    tagCount cw (s ++ (g ++ (t ++ r))) = .done r (s, w) := by
  unfold tagCount
  rw [chain_done (wordGap_read hs hg (bare_noBlank (countText_bare hw))), chain_done (count_read hw hr)]
  rfl

theorem tagsText_noBlank {l : List (N × W)} {s r : List Nat} (h : TagsText cn cw l s) : NoBlank (s ++ r) := by
  cases h with
  | last h1 _ _ => rw [List.append_assoc]; exact bare_noBlank h1.1
  | cons h1 _ _ _ _ => rw [List.append_assoc]; exact bare_noBlank h1.1

theorem tags_read {l : List (N × W)} {s : List Nat} (h : TagsText cn cw l s) :
    ∃ v x, List.Forall₂ (fun (a : List Nat × W) (b : N × W) => cn.read a.1 = some b.1 ∧ a.2 = b.2) (v :: x) l ∧ ∀ r, EndsLine r →
      ∃ r', tagCount cw (s ++ r) = .done r' v ∧ r'.length < (s ++ r).length ∧ SepTail space (tagCount cw) r' x r := by
  have len : ∀ {a b c d : List Nat}, a ≠ [] → d.length < (a ++ (b ++ (c ++ d))).length := by
    intro a b c d h
    have := List.length_pos_iff.2 h
    simp; omega
  induction h with
  | @last p w s t g h1 hg hw =>
    refine ⟨(s, w), [], .cons ⟨h1.2, rfl⟩ .nil, fun r hr => ⟨r, ?_, ?_, .stop ?_⟩⟩
    · simp only [List.append_assoc]
      exact tagCount_read h1.1 hg hw (endsLine_count hr)
    · simp only [List.append_assoc]
      exact len h1.1.1
    · exact endsLine_space hr
  | @cons p w s t g g' l u h1 hg hw hg' hu ih =>
    obtain ⟨v, x, e4, ih⟩ := ih
    have hne : 0 < g'.length := List.length_pos_iff.2 hg'.1
    refine ⟨(s, w), v :: x, .cons ⟨h1.2, rfl⟩ e4, fun r hr => ?_⟩
    obtain ⟨r', e1, e2, e3⟩ := ih r hr
    refine ⟨g' ++ (u ++ r), ?_, ?_, .step (complete_done (gap_read hg' (tagsText_noBlank hu))) ?_ (complete_done e1) e2 e3⟩
    · simp only [List.append_assoc]
      exact tagCount_read h1.1 hg hw (gap_endsCount hg')
    · simp only [List.append_assoc]
      exact len h1.1.1
    · simp; omega

theorem lexiconLine_read {a : T} {l : List (N × W)} {s : List Nat} (h : LexiconText cn ct cw a l s) :
    ∃ v, (∀ r, EndsLine r → parseLexerLine cw (s ++ r) = .done r v) ∧ ct.read v.1 = some a ∧
      List.Forall₂ (fun (a : List Nat × W) (b : N × W) => cn.read a.1 = some b.1 ∧ a.2 = b.2) v.2 l := by
  cases h with
  | @line s g t h1 hg ht =>
    obtain ⟨v, x, e4, h⟩ := tags_read ht
    refine ⟨(s, v :: x), fun r hr => ?_, h1.2, e4⟩
    obtain ⟨r', e1, e2, e3⟩ := h r hr
    unfold parseLexerLine
    simp only [List.append_assoc]
    rw [chain_done (wordGap_read h1.1 hg (tagsText_noBlank ht))]
    have := sepList1_tail (sep := space) (complete_done e1) e2 e3
    unfold tagCount at this
    rw [chain_done this]
    rfl

theorem lexerEntries_read {v : List (List Nat × List (List Nat × W))} {l : List (T × List (N × W))}
    (h : List.Forall₂ (fun x y => ct.read x.1 = some y.1 ∧ List.Forall₂ (fun (a : List Nat × W) (b : N × W) => cn.read a.1 = some b.1 ∧ a.2 = b.2) x.2 y.2) v l) :
    lexerEntries cn ct v = some (l.flatMap fun y => y.2.map fun z => (y.1, z.1, z.2)) := by
  unfold lexerEntries
  rw [mapM_some_iff]
  induction h with
  | nil => exact .nil
  | @cons x y v l h _ ih =>
    obtain ⟨h1, h2⟩ := h
    simp only [List.flatMap_cons]
    refine List.rel_append ?_ ih
    clear ih
    generalize y.2 = y2 at h2
    generalize x.2 = x2 at h2
    induction h2 with
    | nil => exact .nil
    | @cons a b _ _ h _ ih =>
      refine .cons ?_ ih
      simp only [h1, h.1, h.2]

theorem lexicon_lines {lines : List (List Nat)} {l : List (T × List (N × W))} (h : List.Forall₂ (fun s y => LexiconText cn ct cw y.1 y.2 s) lines l) :
    ∃ v : List (List Nat × List Nat × List (List Nat × W)), v.map Prod.fst = lines ∧
      (∀ x ∈ v, x.1 ≠ [] ∧ ∀ r, EndsLine r → parseLexerLine cw (x.1 ++ r) = .done r x.2) ∧
      List.Forall₂ (fun x y => ct.read x.1 = some y.1 ∧ List.Forall₂ (fun (a : List Nat × W) (b : N × W) => cn.read a.1 = some b.1 ∧ a.2 = b.2) x.2 y.2)
        (v.map Prod.snd) l := by
  induction h with
  | nil => exact ⟨[], rfl, by simp, .nil⟩
  | @cons t y lines l h _ ih =>
    obtain ⟨v, e1, e2, e3⟩ := ih
    obtain ⟨x, f1, f2, f3⟩ := lexiconLine_read h
    refine ⟨(t, x) :: v, by rw [List.map_cons, e1], ?_, .cons ⟨f2, f3⟩ e3⟩
    intro z hz
    rcases List.mem_cons.1 hz with rfl | hz
    · refine ⟨?_, f1⟩
      cases h with
      | line h1 _ _ => simp [h1.1.1]
    · exact e2 z hz

/-- A file of a lexicon is read. -/
theorem lexicon_read {lines : List (List Nat)} {l : List (T × List (N × W))} (h : List.Forall₂ (fun s y => LexiconText cn ct cw y.1 y.2 s) lines l) {s : List Nat}
    (hs : FileText lines s) : DiscoLexer.fromStr cn ct cw s = some (some (l.flatMap fun y => y.2.map fun z => (y.1, z.1, z.2))) := by
  obtain ⟨v, hv, hm, hl⟩ := lexicon_lines h
  subst hv
  have := (file_read (p := parseLexerLine cw) rfl rfl hm hs).1
  unfold DiscoLexer.fromStr parseDiscodopLexer mapRes chain
  cases hx : sepList (tag [10]) (parseLexerLine cw) s with
  | done r a =>
    rw [hx] at this
    simp only [PResult.toResult, Option.some.injEq] at this
    subst this
    simp only [lexerEntries_read hl]
    rfl
  | error => rw [hx] at this; simp [PResult.toResult] at this
  | incomplete => rw [hx] at this; simp [PResult.toResult] at this
  | panic => rw [hx] at this; simp [PResult.toResult] at this

theorem constituents_lines {lines : List (List Nat)} {l : List (DiscoDeriv N × List (List Bool) × W)}
    (h : List.Forall₂ (fun s y => ConstituentText cn cw y.1 y.2.1 y.2.2 s) lines l) : ∃ v : List (List Nat × DiscoDeriv N × DiscoYield × W), v.map Prod.fst = lines ∧
      (∀ x ∈ v, x.1 ≠ [] ∧ ∀ r, EndsLine r → parseConstituent cn cw (x.1 ++ r) = .done r x.2) ∧
      v.map Prod.snd = l.map fun y => (y.1, y.2.1.map (fun b => (b.length, bitVal b)), y.2.2) := by
  induction h with
  | nil => exact ⟨[], rfl, by simp, rfl⟩
  | @cons t y lines l h _ ih =>
    obtain ⟨v, e1, e2, e3⟩ := ih
    refine ⟨(t, (y.1, y.2.1.map (fun b => (b.length, bitVal b)), y.2.2)) :: v, by rw [List.map_cons, e1], ?_, by rw [List.map_cons, e3]; rfl⟩
    intro z hz
    rcases List.mem_cons.1 hz with rfl | hz
    · exact ⟨constituentText_ne h, fun r hr => constituent_read h hr⟩
    · exact e2 z hz

/-- A file of rules is read. -/
theorem constituents_read {lines : List (List Nat)} {l : List (DiscoDeriv N × List (List Bool) × W)}
    (h : List.Forall₂ (fun s y => ConstituentText cn cw y.1 y.2.1 y.2.2 s) lines l) {s : List Nat} (hs : FileText lines s) :
    DiscoDopGrammar.fromStr cn cw s = some (some ⟨l.map fun y => (y.1, y.2.1.map (fun b => (b.length, bitVal b)), y.2.2), none⟩) := by
  obtain ⟨v, hv, hm, hl⟩ := constituents_lines h
  subst hv
  have := (file_read (p := parseConstituent cn cw) rfl rfl hm hs).1
  unfold DiscoDopGrammar.fromStr parseDiscodopConstituents
  rw [this, hl]

end Lexicon

section Rparse
variable {N W : Type _} {cn : Codec N} {cw : Codec W}

theorem bool_read (b : Bool) (r : List Nat) : parseBool (boolText b ++ r) = .done r b := by
  unfold parseBool
  cases b with
  | true =>
    refine alt_done ?_
    unfold pmap
    rw [boolText, chain_done (tag_append _ _)]
    rfl
  | false =>
    rw [alt_error (by unfold pmap; exact chain_error (tag_ne (by decide)))]
    unfold pmap
    rw [boolText, chain_done (tag_append _ _)]
    rfl

/-- The text ends with a comma or a closing bracket. -/
def EndsItem (r : List Nat) : Prop := (∃ t, r = ascii [',', ' '] ++ t) ∨ ∃ t, r = 93 :: t

theorem items_read {A : Type _} {p : Parser Nat A} {l : List (List Nat × A)} (hl : ∀ x ∈ l, x.1 ≠ [] ∧ ∀ r, EndsItem r → p (x.1 ++ r) = .done r x.2)
    (hp : ∀ t, complete p (93 :: t) = .error) (t : List Nat) :
    sepList (tag (ascii [',', ' '])) p ((ascii [',', ' ']).intercalate (l.map Prod.fst) ++ 93 :: t) = .done (93 :: t) (l.map Prod.snd) := by
  by_cases hne : l = []
  · subst hne
    show sepList _ p (93 :: t) = _
    simp only [sepList, hp]
    rfl
  · refine (sep_texts (by simp [ascii]) (E := EndsItem) (fun t => Or.inl ⟨t, rfl⟩) (Or.inr ⟨t, rfl⟩) (Or.inl ?_) l hne hl).2
    unfold complete
    rw [tag_ascii_ne _ (by decide)]

theorem rparseYield_read (bits : List (List Bool)) (r : List Nat) : parseRparseYield (rparseYieldText bits ++ r) = .done r bits := by
  have hin : ∀ (b : List Bool) (r : List Nat), delimited (tag (ascii ['['])) (sepList (tag (ascii [',', ' '])) parseBool) (tag (ascii [']']))
      (ascii ['['] ++ ((ascii [',', ' ']).intercalate (b.map boolText) ++ ascii [']']) ++ r) = .done r b := by
    intro b r
    unfold delimited terminated
    rw [List.append_assoc, thn_done (tag_append _ _), List.append_assoc]
    have := items_read (p := parseBool) (l := b.map fun x => (boolText x, x)) (by
      intro x hx
      obtain ⟨y, _, rfl⟩ := List.mem_map.1 hx
      exact ⟨by cases y <;> simp [boolText, ascii], fun r _ => bool_read y r⟩) (fun t => by
        unfold complete parseBool pmap
        rw [alt_error (chain_error (tag_ascii_ne _ (by decide))), chain_error (tag_ascii_ne _ (by decide))]) r
    rw [List.map_map, List.map_map, show (Prod.fst ∘ fun x => (boolText x, x)) = boolText from rfl,
      show (Prod.snd ∘ fun x : Bool => (boolText x, x)) = id from rfl, List.map_id] at this
    rw [show ascii [']'] ++ r = 93 :: r from rfl, chain_done this, show (93 : Nat) :: r = ascii [']'] ++ r from rfl, chain_done (tag_append _ _)]
    rfl
  unfold parseRparseYield rparseYieldText
  rw [delimited, terminated]
  rw [List.append_assoc, thn_done (tag_append _ _), List.append_assoc]
  have := items_read (p := delimited (tag (ascii ['['])) (sepList (tag (ascii [',', ' '])) parseBool) (tag (ascii [']'])))
    (l := bits.map fun b => (ascii ['['] ++ ((ascii [',', ' ']).intercalate (b.map boolText) ++ ascii [']']), b)) (by
      intro x hx
      obtain ⟨y, _, rfl⟩ := List.mem_map.1 hx
      exact ⟨by simp [ascii], fun r _ => hin y r⟩) (fun t => by
        unfold complete delimited
        rw [thn_error (tag_ascii_ne _ (by decide))]) (93 :: r)
  rw [List.map_map, List.map_map] at this
  simp only [Function.comp_def, List.map_id'] at this
  rw [show ascii [']', ']'] ++ r = 93 :: 93 :: r from rfl, chain_done this, show (93 : Nat) :: 93 :: r = ascii [']', ']'] ++ r from rfl, chain_done (tag_append _ _)]
  rfl

theorem rparseYield_start {bits : List (List Bool)} (h : bits ≠ []) (r : List Nat) : ∃ t, rparseYieldText bits ++ r = ascii ['[', '[', '['] ++ t := by
  cases bits with
  | nil => exact absurd rfl h
  | cons b bits =>
    unfold rparseYieldText
    rw [List.map_cons, intercalate_cons']
    exact ⟨_, rfl⟩

theorem noBlank_cons {c : Nat} (h : isSpace c = false) (t : List Nat) : NoBlank (c :: t) := fun _ _ e => by cases e; exact h

theorem gap_noDigit {g r : List Nat} (h : Gap g) : NoDigit (g ++ r) := by
  intro b t e
  cases g with
  | nil => exact absurd rfl h.1
  | cons c g =>
    cases e
    rcases h.2 b (by simp) with rfl | rfl <;> omega

theorem rparseYield_noBlank (bits : List (List Bool)) (r : List Nat) : NoBlank (rparseYieldText bits ++ r) := by
  unfold rparseYieldText
  exact noBlank_cons (c := 91) rfl _

theorem pnot_read {s r : List Nat} (h : ¬ ascii ['[', '[', '['] <+: s) (hg : EndsToken r) (hs : Bare s) :
    pnot (tag (ascii ['[', '[', '['])) (s ++ r) = .done (s ++ r) () := by
  have hp : ¬ ascii ['[', '[', '['] <+: s ++ r := by
    intro hh
    apply h
    by_cases hl : 3 ≤ s.length
    · exact List.prefix_of_prefix_length_le hh (List.prefix_append s r) (by simpa [ascii] using hl)
    · exfalso
      obtain ⟨t, ht⟩ := hh
      have hlen : s.length < 3 := by omega
      have hget : ∀ i, i < 3 → (s ++ r)[i]? = some 91 := by
        intro i hi
        rw [← ht]
        match i, hi with
        | 0, _ => rfl
        | 1, _ => rfl
        | 2, _ => rfl
      have h3 := hget s.length hlen
      rw [List.getElem?_append_right (by omega), Nat.sub_self] at h3
      cases r with
      | nil => simp at h3
      | cons b t =>
        simp only [List.getElem?_cons_zero, Option.some.injEq] at h3
        subst h3
        have := hg 91 t rfl
        simp [isToken, isWhitespace] at this
  unfold pnot tag
  rw [if_neg hp]
  split <;> rename_i h <;> (split at h <;> cases h) <;> rfl

theorem clause_read {x : W × N × RparseRhs N × List (List Bool)} {s : List Nat} (h : ClauseText cn cw x s) (r : List Nat) :
    parseRparseClause cn cw (s ++ r) = .done r x := by
  unfold parseRparseClause
  have hnum : ∀ {s₀ g₁ s₁ t}, Digits s₀ → Gap g₁ → Bare s₁ → terminated digit space (s₀ ++ (g₁ ++ (s₁ ++ t))) = .done (s₁ ++ t) s₀ := by
    intro s₀ g₁ s₁ t h1 h2 h3
    unfold terminated
    rw [chain_done (digits_read h1 (gap_noDigit h2)), chain_done (gap_read h2 (bare_noBlank h3))]
    rfl
  have hw : ∀ {s₁ t}, Bare s₁ → 58 ∉ s₁ → takeWhile1 (fun c => isToken c && c != 58) (s₁ ++ 58 :: t) = .done (58 :: t) s₁ := by
    intro s₁ t h1 h2
    refine takeWhile1_append h1.1 (fun c hc => ?_) (fun b t e => by cases e; rfl)
    simp only [Bool.and_eq_true, bne_iff_ne]
    exact ⟨bare_token h1 c hc, fun e => h2 (e ▸ hc)⟩
  have harr : ∀ {g₂ g₃ s t}, Gap g₂ → Gap g₃ → Bare s →
      delimited space (tag (ascii ['-', '-', '>'])) space (g₂ ++ (ascii ['-', '-', '>'] ++ (g₃ ++ (s ++ t)))) = .done (s ++ t) () := by
    intro g₂ g₃ s t h1 h2 h3
    unfold delimited terminated
    have hb : NoBlank (ascii ['-', '-', '>'] ++ (g₃ ++ (s ++ t))) := noBlank_cons (c := 45) rfl _
    rw [thn_done (gap_read h1 hb), chain_done (tag_append _ _), chain_done (gap_read h2 (bare_noBlank h3))]
    rfl
  cases h with
  | @chain w lhs rhs bits s₀ s₁ s₂ s₃ g₁ g₂ g₃ g₄ h0 h1 hc h2 h3 hg1 hg2 hg3 hg4 hb =>
    simp only [List.append_assoc, List.cons_append]
    rw [thn_done (hnum h0 hg1 h1.1), chain_done (hw h1.1 hc), show ascii [':'] = [58] from rfl, thn_done (tag_cons 58 _),
      chain_done (token_read h2.1 (gap_ends hg2)), thn_done (harr hg2 hg3 h3.1), chain_done (token_read h3.1 (gap_ends hg4)),
      thn_done (gap_read hg4 (rparseYield_noBlank bits r))]
    obtain ⟨t, ht⟩ := rparseYield_start hb r
    have hopt : opt (delimited (pnot (tag (ascii ['[', '[', '[']))) (takeWhile1 isToken) space) (rparseYieldText bits ++ r) =
        .done (rparseYieldText bits ++ r) none := by
      refine opt_error ?_
      unfold delimited
      refine thn_error ?_
      unfold pnot
      rw [ht, tag_append]
    rw [chain_done hopt, chain_done (complete_done (rparseYield_read bits r))]
    simp only [h1.2, h2.2, h3.2]
    rfl
  | @binary w lhs rhs₁ rhs₂ bits s₀ s₁ s₂ s₃ s₄ g₁ g₂ g₃ g₄ g₅ h0 h1 hc h2 h3 h4 hn hg1 hg2 hg3 hg4 hg5 =>
    simp only [List.append_assoc, List.cons_append]
    rw [thn_done (hnum h0 hg1 h1.1), chain_done (hw h1.1 hc), show ascii [':'] = [58] from rfl, thn_done (tag_cons 58 _),
      chain_done (token_read h2.1 (gap_ends hg2)), thn_done (harr hg2 hg3 h3.1), chain_done (token_read h3.1 (gap_ends hg4)),
      thn_done (gap_read hg4 (bare_noBlank h4.1))]
    have hopt : opt (delimited (pnot (tag (ascii ['[', '[', '[']))) (takeWhile1 isToken) space) (s₄ ++ (g₅ ++ (rparseYieldText bits ++ r))) =
        .done (rparseYieldText bits ++ r) (some s₄) := by
      refine opt_done ?_
      unfold delimited terminated
      rw [thn_done (pnot_read hn (gap_ends hg5) h4.1), chain_done (token_read h4.1 (gap_ends hg5)), chain_done (gap_read hg5 (rparseYield_noBlank bits r))]
      rfl
    rw [chain_done hopt, chain_done (complete_done (rparseYield_read bits r))]
    simp only [h1.2, h2.2, h3.2, h4.2]
    rfl

theorem clauses_lines {lines : List (List Nat)} {l : RparseClauses N W} (h : List.Forall₂ (fun s y => ClauseText cn cw y s) lines l) : ∃ v : List (List Nat × W × N × RparseRhs N × List (List Bool)), v.map Prod.fst = lines ∧
      (∀ x ∈ v, x.1 ≠ [] ∧ ∀ r, EndsLine r → parseRparseClause cn cw (x.1 ++ r) = .done r x.2) ∧ v.map Prod.snd = l := by
  induction h with
  | nil => exact ⟨[], rfl, by simp, rfl⟩
  | @cons t y lines l h _ ih =>
    obtain ⟨v, e1, e2, e3⟩ := ih
    refine ⟨(t, y) :: v, by rw [List.map_cons, e1], ?_, by rw [List.map_cons, e3]⟩
    intro z hz
    rcases List.mem_cons.1 hz with rfl | hz
    · refine ⟨?_, fun r _ => clause_read h r⟩
      cases h with
      | chain h0 => simp [h0.1]
      | binary h0 => simp [h0.1]
    · exact e2 z hz

/-- A file of rparse is read. -/
theorem clauses_read {lines : List (List Nat)} {l : RparseClauses N W} (h : List.Forall₂ (fun s y => ClauseText cn cw y s) lines l) (hne : l ≠ [])
    {s : List Nat} (hs : FileText lines s) : RparseClauses.fromStr cn cw s = some (some l) := by
  obtain ⟨v, hv, hm, hl⟩ := clauses_lines h
  subst hv
  have := (file_read (p := parseRparseClause cn cw) rfl rfl hm hs).2 (by rintro rfl; exact hne hl.symm)
  unfold RparseClauses.fromStr parseRparseClauses
  rw [this, hl]

end Rparse

end Rustomata
