import Verif.Spec.Reading
import Verif.Props.FromStrTotal

/-!
# Parsers and the grammars of the texts they read
-/

namespace Rustomata
open Nom Spec

section
variable {A B : Type _}

/-- The parser reads what the relation describes. -/
def Reads (p : Parser Nat A) (R : A → List Nat → List Nat → Prop) : Prop := ∀ i r a, p i = .done r a ↔ R a i r

theorem isSpace_iff (b : Nat) : isSpace b = true ↔ b = 32 ∨ b = 9 := by simp [isSpace]

theorem skips_iff {i r : List Nat} : Skips i r ↔ ∃ w, Nom.takeWhile isSpace i = .done r w := by
  constructor
  · rintro ⟨w, rfl, h1, h2⟩
    exact ⟨w, takeWhile_append (fun b hb => (isSpace_iff b).mpr (h1 b hb)) fun b t e => isSpace_false (h2 b t e).1 (h2 b t e).2⟩
  · rintro ⟨w, h⟩
    obtain ⟨h1, h2, h3⟩ := takeWhile_inv h
    refine ⟨w, h1, fun b hb => (isSpace_iff b).mp (h2 b hb), fun b t e => ?_⟩
    have := h3 b t e
    rw [← Bool.not_eq_true, isSpace_iff] at this
    exact ⟨fun h => this (.inl h), fun h => this (.inr h)⟩

theorem chain_iff {C : Type _} {p : Parser C A} {f : A → Parser C B} {i r : List C} {b : B} :
    chain p f i = .done r b ↔ ∃ r' a, p i = .done r' a ∧ f a r' = .done r b := by
  constructor
  · exact chain_inv
  · rintro ⟨r', a, h1, h2⟩
    rw [chain_done h1, h2]

theorem ret_iff {C : Type _} {a b : A} {i r : List C} : ret a i = .done r b ↔ i = r ∧ a = b := by rw [ret, PResult.done.injEq]

theorem tag_iff {C : Type _} [DecidableEq C] {t i r : List C} {u : Unit} : tag t i = .done r u ↔ i = t ++ r := by
  constructor
  · exact tag_inv
  · rintro rfl
    exact tag_append t r

theorem skip_iff {f : List Nat → Parser Nat B} {i r : List Nat} {b : B} {q : Parser Nat B} (hf : ∀ w, f w = q) :
    chain (Nom.takeWhile isSpace) f i = .done r b ↔ ∃ i', Skips i i' ∧ q i' = .done r b := by
  rw [chain_iff]
  constructor
  · rintro ⟨r', a, h1, h2⟩
    exact ⟨r', skips_iff.mpr ⟨a, h1⟩, hf a ▸ h2⟩
  · rintro ⟨i', h1, h2⟩
    obtain ⟨w, h⟩ := skips_iff.mp h1
    exact ⟨i', w, h, (hf w).symm ▸ h2⟩

theorem thn_skip_iff {q : Parser Nat B} {i r : List Nat} {b : B} :
    thn (Nom.takeWhile isSpace) q i = .done r b ↔ ∃ i', Skips i i' ∧ q i' = .done r b := skip_iff fun _ => rfl

theorem thn_tag_iff {t : List Nat} {q : Parser Nat B} {i r : List Nat} {b : B} :
    thn (tag t) q i = .done r b ↔ ∃ i', i = t ++ i' ∧ q i' = .done r b := by
  rw [thn, chain_iff]
  simp only [tag_iff]
  constructor
  · rintro ⟨r', _, h1, h2⟩
    exact ⟨r', h1, h2⟩
  · rintro ⟨r', h1, h2⟩
    exact ⟨r', (), h1, h2⟩

theorem toResult_iff {C D : Type _} {x : PResult C D} {a : D} : x.toResult = some (some a) ↔ ∃ r, x = .done r a := by
  cases x <;> simp [PResult.toResult]

theorem skips_unique {i r r' : List Nat} (h : Skips i r) (h' : Skips i r') : r = r' := by
  obtain ⟨w, h⟩ := skips_iff.mp h
  obtain ⟨w', h'⟩ := skips_iff.mp h'
  rw [h, PResult.done.injEq] at h'
  exact h'.1

theorem parseToken_iff (c : Codec A) : Reads (parseToken c) (TokenReads c) := by
  intro i r a
  constructor
  · intro h
    obtain ⟨r', s, h1, h2⟩ := chain_inv h
    have h3 : r' = r ∧ c.read s = some a := by
      split at h2
      · rename_i b e
        rw [PResult.done.injEq] at h2
        exact ⟨h2.1, e.trans (by rw [h2.2])⟩
      · cases h2
    obtain ⟨rfl, h3⟩ := h3
    rw [alt] at h1
    split at h1
    · rename_i e
      cases i with
      | nil => cases e
      | cons b i =>
        obtain ⟨e1, e2, e3⟩ := isNot_inv h1
        rw [e1]
        refine .bare ?_ e2 h3 e3
        rintro rfl
        rw [List.nil_append] at e1
        rw [isNot] at h1
        split at h1
        · cases h1
        · rename_i hb
          exact hb (e3 b i e1.symm)
    · rename_i e
      rw [delimited, thn_tag_iff] at h1
      obtain ⟨i', rfl, h1⟩ := h1
      obtain ⟨r'', s', k1, k2⟩ := chain_inv h1
      obtain ⟨r₃, _, k3, k4⟩ := chain_inv k2
      rw [ret_iff] at k4
      obtain ⟨rfl, rfl⟩ := k4
      obtain ⟨e1, e2⟩ := escaped_inv _ (Nat.le_refl _) k1
      rw [e1, tag_inv k3]
      exact .quoted e2 h3
  · intro h
    cases h with
    | quoted h1 h2 => exact parseToken_quoted h1 h2 r
    | bare h1 h2 h3 h4 => exact parseToken_unquoted h1 h2 h3 h4

theorem tokenReads_lt {c : Codec A} {a : A} {i r : List Nat} (h : TokenReads c a i r) : r.length < i.length := by
  cases h with
  | quoted => simp; omega
  | bare h1 => simp [List.length_pos_iff, h1]

/-- The parser of an element of `parse_vec`. -/
def itemParser (inner : Parser Nat A) : Parser Nat A :=
  thn (opt (tag [44])) <| thn (Nom.takeWhile isSpace) <| chain inner fun a => thn (Nom.takeWhile isSpace) (ret a)

theorem itemParser_iff {inner : Parser Nat A} {R : A → List Nat → List Nat → Prop} (h : Reads inner R) {i r : List Nat} {a : A} :
    itemParser inner i = .done r a ↔ ∃ i₁ i₂ i₃, (i = 44 :: i₁ ∨ i = i₁ ∧ (∀ t, i ≠ 44 :: t) ∧ i ≠ []) ∧ Skips i₁ i₂ ∧ R a i₂ i₃ ∧ Skips i₃ r := by
  have hopt : ∀ i₁ o, opt (tag [44]) i = .done i₁ o → (i = 44 :: i₁ ∨ i = i₁ ∧ (∀ t, i ≠ 44 :: t) ∧ i ≠ []) := by
    intro i₁ o ho
    cases i with
    | nil => cases ho
    | cons b i =>
      by_cases hb : b = 44
      · subst hb
        rw [opt_done (tag_cons _ _), PResult.done.injEq] at ho
        exact .inl (by rw [ho.1])
      · rw [opt_error (tag_ne (Ne.symm hb)), PResult.done.injEq] at ho
        exact .inr ⟨ho.1, fun t e => hb (List.cons.inj e).1, List.cons_ne_nil _ _⟩
  have hopt' : ∀ i₁, (i = 44 :: i₁ ∨ i = i₁ ∧ (∀ t, i ≠ 44 :: t) ∧ i ≠ []) → ∃ o, opt (tag [44]) i = .done i₁ o := by
    rintro i₁ (rfl | ⟨rfl, h1, h2⟩)
    · exact ⟨_, opt_done (tag_cons _ _)⟩
    · obtain ⟨b, t, rfl⟩ := List.exists_cons_of_ne_nil h2
      exact ⟨_, opt_error (tag_ne (fun e => h1 t (by rw [e])))⟩
  rw [itemParser, thn, chain_iff]
  simp only [thn_skip_iff, chain_iff, ret_iff]
  constructor
  · rintro ⟨i₁, o, h1, i₂, h2, i₃, a', h3, i₄, h4, rfl, rfl⟩
    exact ⟨i₁, i₂, i₃, hopt i₁ o h1, h2, (h _ _ _).mp h3, h4⟩
  · rintro ⟨i₁, i₂, i₃, h1, h2, h3, h4⟩
    obtain ⟨o, ho⟩ := hopt' i₁ h1
    exact ⟨i₁, o, ho, i₂, h2, i₃, a, (h _ _ _).mpr h3, r, h4, rfl, rfl⟩

theorem skips_le {i r : List Nat} (h : Skips i r) : r.length ≤ i.length := by
  obtain ⟨w, rfl, _⟩ := h
  simp

theorem item_lt {inner : Parser Nat A} {R : A → List Nat → List Nat → Prop} (h : Reads inner R) (hlt : ∀ a i r, R a i r → r.length < i.length)
    {i r : List Nat} {a : A} (hi : itemParser inner i = .done r a) : r.length < i.length := by
  obtain ⟨i₁, i₂, i₃, h1, h2, h3, h4⟩ := (itemParser_iff h).mp hi
  have e1 : i₁.length ≤ i.length := by
    rcases h1 with rfl | ⟨rfl, _⟩ <;> simp
  have := skips_le h2
  have := skips_le h4
  have := hlt _ _ _ h3
  omega

theorem items_inv {inner : Parser Nat A} {R : A → List Nat → List Nat → Prop} (h : Reads inner R) :
    ∀ (n : Nat) (i r : List Nat) (acc l : List A), many0Go (itemParser inner) n i acc = .done r l → ∃ l', l = acc ++ l' ∧ ItemsRead R l' i r
  | 0, i, r, acc, l, he => by
    rw [many0Go, PResult.done.injEq] at he
    exact ⟨[], by simp [he.2], he.1 ▸ .nil⟩
  | n + 1, i, r, acc, l, he => by
    rw [many0Go] at he
    split at he
    · rw [PResult.done.injEq] at he
      exact ⟨[], by simp [he.2], he.1 ▸ .nil⟩
    · split at he
      · rw [PResult.done.injEq] at he
        exact ⟨[], by simp [he.2], he.1 ▸ .nil⟩
      · cases he
      · cases he
      · rename_i r' a e
        split at he
        · cases he
        · obtain ⟨l', rfl, hl⟩ := items_inv h n r' r (acc ++ [a]) l he
          obtain ⟨i₁, i₂, i₃, h1, h2, h3, h4⟩ := (itemParser_iff h).mp e
          exact ⟨a :: l', by simp, .cons h1 h2 h3 h4 hl⟩

theorem items_go {inner : Parser Nat A} {R : A → List Nat → List Nat → Prop} (h : Reads inner R) (hlt : ∀ a i r, R a i r → r.length < i.length)
    {cl : Nat} (hcl : ∀ r, itemParser inner (cl :: r) = .error) {l : List A} {i r : List Nat} (hi : ItemsRead R l i r) :
    ∀ (n : Nat) (acc : List A), i.length < n → (∃ r', r = cl :: r') → many0Go (itemParser inner) n i acc = .done r (acc ++ l) := by
  induction hi with
  | nil =>
    rintro n acc hn ⟨r', rfl⟩
    obtain ⟨n, rfl⟩ := Nat.exists_eq_add_of_lt (Nat.zero_lt_of_lt hn)
    rw [Nat.zero_add, many0Go, if_neg (by simp), hcl]
    simp
  | @cons a l i i₁ i₂ i₃ i₄ r h1 h2 h3 h4 _ ih =>
    intro n acc hn hr
    have e : itemParser inner i = .done i₄ a := (itemParser_iff h).mpr ⟨i₁, i₂, i₃, h1, h2, h3, h4⟩
    have hl := item_lt h hlt e
    obtain ⟨n, rfl⟩ := Nat.exists_eq_add_of_lt (Nat.zero_lt_of_lt hn)
    rw [Nat.zero_add, many0Go, if_neg (by rintro rfl; simp at hl), e]
    simp only
    rw [if_neg (by rintro rfl; omega), ih n (acc ++ [a]) (by omega) hr]
    simp

theorem parseVec_iff {inner : Parser Nat A} {R : A → List Nat → List Nat → Prop} (h : Reads inner R) (hlt : ∀ a i r, R a i r → r.length < i.length)
    {o cl : Nat} (hcl : cl ≠ 44 ∧ cl ≠ 32 ∧ cl ≠ 9) (he : ∀ r, inner (cl :: r) = .error) : Reads (parseVec inner [o] [cl] [44]) (VecReads R o cl) := by
  obtain ⟨hc1, hc2, hc3⟩ := hcl
  have hitem : ∀ r, itemParser inner (cl :: r) = .error := by
    intro r
    rw [itemParser, thn_done (opt_error (tag_ne (Ne.symm hc1))), thn_done (takeWhile_none (not_space_of_cons (isSpace_false hc2 hc3))), chain_error (he r)]
  intro i r l
  have hp : parseVec inner [o] [cl] [44] i = .done r l ↔ ∃ i', i = [o] ++ i' ∧ ∃ i₁, Skips i' i₁ ∧ ∃ i₂ l', many0 (itemParser inner) i₁ = .done i₂ l' ∧
      ∃ i₃, i₂ = [cl] ++ i₃ ∧ i₃ = r ∧ l' = l := by
    rw [parseVec, thn_tag_iff]
    simp only [thn_skip_iff, chain_iff, thn_tag_iff, ret_iff]
    rfl
  rw [hp]
  constructor
  · rintro ⟨i', rfl, i₁, h1, i₂, l', h2, i₃, rfl, rfl, rfl⟩
    obtain ⟨l'', rfl, h3⟩ := items_inv h _ _ _ _ _ h2
    exact .mk h1 h3
  · intro hv
    cases hv with
    | mk h1 h2 =>
      rename_i i i₁
      exact ⟨i, rfl, i₁, h1, cl :: r, l, by rw [many0, items_go h hlt hitem h2 _ [] (Nat.lt_succ_self _) ⟨r, rfl⟩, List.nil_append], r, rfl, rfl, rfl⟩

theorem itemsRead_le {R : A → List Nat → List Nat → Prop} (hlt : ∀ a i r, R a i r → r.length < i.length) {l : List A} {i r : List Nat} (h : ItemsRead R l i r) :
    r.length ≤ i.length := by
  induction h with
  | nil => exact Nat.le_refl _
  | @cons a l i i₁ i₂ i₃ i₄ r h1 h2 h3 h4 _ ih =>
    have e1 : i₁.length ≤ i.length := by
      rcases h1 with rfl | ⟨rfl, _⟩ <;> simp
    have := skips_le h2
    have := skips_le h4
    have := hlt _ _ _ h3
    omega

theorem vecReads_lt {R : A → List Nat → List Nat → Prop} (hlt : ∀ a i r, R a i r → r.length < i.length) {o cl : Nat} {l : List A} {i r : List Nat}
    (h : VecReads R o cl l i r) : r.length < i.length := by
  cases h with
  | mk h1 h2 =>
    have := skips_le h1
    have := itemsRead_le hlt h2
    simp only [List.length_cons] at this ⊢
    omega

theorem parseTokens_iff (c : Codec A) {o cl : Nat} (hcl : cl = 41 ∨ cl = 93) : Reads (parseVec (parseToken c) [o] [cl] [44]) (VecReads (TokenReads c) o cl) :=
  parseVec_iff (parseToken_iff c) (fun _ _ _ => tokenReads_lt) (by rcases hcl with rfl | rfl <;> decide) fun r =>
    parseToken_stop (by rcases hcl with rfl | rfl <;> decide) (by rcases hcl with rfl | rfl <;> decide)

end

/-! ### Lines and white space -/

theorem linesGo_end : ∀ (l cur : List Nat), 10 ∉ l → linesGo cur l = if cur ++ l = [] then [] else [cur ++ l]
  | [], cur, _ => by simp [linesGo]
  | b :: l, cur, h => by
    rw [List.mem_cons, not_or] at h
    rw [linesGo, if_neg (fun e => h.1 e.symm), linesGo_end l (cur ++ [b]) h.2, List.append_assoc]
    rfl

theorem linesGo_lf : ∀ (l cur s : List Nat), 10 ∉ l →
    linesGo cur (l ++ 10 :: s) = (if (cur ++ l).getLast? = some 13 then (cur ++ l).dropLast else cur ++ l) :: linesGo [] s
  | [], cur, s, _ => by simp [linesGo]
  | b :: l, cur, s, h => by
    rw [List.mem_cons, not_or] at h
    rw [List.cons_append, linesGo, if_neg (fun e => h.1 e.symm), linesGo_lf l (cur ++ [b]) s h.2, List.append_assoc]
    rfl

theorem linesOf_lines {ls : List (List Nat)} {s : List Nat} (h : LinesOf ls s) : lines s = ls := by
  induction h with
  | nil => rfl
  | last h1 h2 => rw [lines, linesGo_end _ [] h2, List.nil_append, if_neg h1]
  | lf h1 h2 _ ih => rw [lines, linesGo_lf _ [] _ h1, List.nil_append, if_neg h2, ← ih]; rfl
  | @crlf l ls s h1 _ ih =>
    have h3 : (10 : Nat) ∉ l ++ [13] := by simp [h1]
    have := linesGo_lf (l ++ [13]) [] s h3
    rw [List.append_assoc] at this
    rw [lines, show l ++ 13 :: 10 :: s = l ++ ([13] ++ 10 :: s) from rfl, this, List.nil_append, if_pos (by simp), List.dropLast_concat, ← ih]
    rfl

theorem lines_iff {ls : List (List Nat)} {s : List Nat} : lines s = ls ↔ LinesOf ls s := by
  refine ⟨?_, linesOf_lines⟩
  suffices ∀ n (s : List Nat), s.length ≤ n → LinesOf (lines s) s from fun h => h ▸ this _ s (Nat.le_refl _)
  intro n
  induction n with
  | zero =>
    intro s hs
    rw [List.length_eq_zero_iff.mp (Nat.le_zero.mp hs)]
    exact .nil
  | succ n ih =>
    intro s hs
    by_cases h : 10 ∈ s
    · obtain ⟨l, t, rfl, hl⟩ := List.eq_append_cons_of_mem h
      have ht := ih t (by simp only [List.length_append, List.length_cons] at hs; omega)
      by_cases h13 : l.getLast? = some 13
      · obtain ⟨l', rfl⟩ := List.getLast?_eq_some_iff.mp h13
        have := LinesOf.crlf (l := l') (fun h => hl (by simp [h])) ht
        rw [List.append_assoc, show l' ++ ([13] ++ 10 :: t) = l' ++ 13 :: 10 :: t from rfl, linesOf_lines this]
        exact this
      · have := LinesOf.lf hl h13 ht
        rwa [linesOf_lines this]
    · cases s with
      | nil => exact .nil
      | cons b s =>
        have := LinesOf.last (List.cons_ne_nil b s) h
        rwa [linesOf_lines this]

end Rustomata
