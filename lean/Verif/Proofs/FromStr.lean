import Verif.Spec.FromStr

/-!
# Proofs about the parsers and printers of rules
-/

namespace Rustomata
open Nom Spec

section
variable {C A B : Type _}

theorem chain_done {p : Parser C A} {f : A → Parser C B} {i r : List C} {a : A} (h : p i = .done r a) : chain p f i = f a r := by
  simp only [chain, h]

theorem chain_error {p : Parser C A} {f : A → Parser C B} {i : List C} (h : p i = .error) : chain p f i = .error := by
  simp only [chain, h]

theorem thn_done {p : Parser C A} {q : Parser C B} {i r : List C} {a : A} (h : p i = .done r a) : thn p q i = q r := chain_done h

theorem thn_error {p : Parser C A} {q : Parser C B} {i : List C} (h : p i = .error) : thn p q i = .error := chain_error h

theorem alt_done {p q : Parser C A} {i r : List C} {a : A} (h : p i = .done r a) : alt p q i = .done r a := by simp only [alt, h]

theorem alt_error {p q : Parser C A} {i : List C} (h : p i = .error) : alt p q i = q i := by simp only [alt, h]

theorem opt_done {p : Parser C A} {i r : List C} {a : A} (h : p i = .done r a) : opt p i = .done r (some a) := by simp only [opt, h]

theorem opt_error {p : Parser C A} {i : List C} (h : p i = .error) : opt p i = .done i none := by simp only [opt, h]

theorem complete_done {p : Parser C A} {i r : List C} {a : A} (h : p i = .done r a) : complete p i = .done r a := by simp only [complete, h]

theorem tag_append [DecidableEq C] (t r : List C) : tag t (t ++ r) = .done r () := by simp [tag]

theorem tag_cons [DecidableEq C] (b : C) (r : List C) : tag [b] (b :: r) = .done r () := tag_append [b] r

theorem tag_ne [DecidableEq C] {b c : C} {t r : List C} (h : b ≠ c) : tag (b :: t) (c :: r) = .error := by
  have h' : c ≠ b := fun e => h e.symm
  simp [tag, List.cons_prefix_cons, h, h']

theorem takeWhile_append {p : C → Bool} {s r : List C} (hs : ∀ b ∈ s, p b = true) (hr : ∀ b t, r = b :: t → p b = false) :
    Nom.takeWhile p (s ++ r) = .done r s := by
  have h1 : (s ++ r).takeWhile p = s := by
    rw [List.takeWhile_append_of_pos hs]
    cases r with
    | nil => simp
    | cons b t => simp [hr b t rfl]
  have h2 : (s ++ r).dropWhile p = r := by
    rw [List.dropWhile_append_of_pos hs]
    cases r with
    | nil => simp
    | cons b t => simp [hr b t rfl]
  simp only [Nom.takeWhile, h1, h2]

theorem takeWhile_none {p : C → Bool} {r : List C} (hr : ∀ b t, r = b :: t → p b = false) : Nom.takeWhile p r = .done r [] :=
  takeWhile_append (s := []) (by simp) hr

theorem takeWhile_all {r : List C} : Nom.takeWhile (fun _ => true) r = .done [] r := by
  have := takeWhile_append (p := fun _ : C => true) (s := r) (r := []) (by simp) (by simp)
  simpa using this

theorem takeWhile1_append {p : C → Bool} {s r : List C} (hne : s ≠ []) (hs : ∀ b ∈ s, p b = true) (hr : ∀ b t, r = b :: t → p b = false) :
    takeWhile1 p (s ++ r) = .done r s := by
  have h := takeWhile_append hs hr
  cases s with
  | nil => exact absurd rfl hne
  | cons b s =>
    simp only [Nom.takeWhile] at h
    simp only [takeWhile1, List.cons_append, hs b List.mem_cons_self, if_true]
    exact h

theorem isNot_append [DecidableEq C] {arr s r : List C} (hne : s ≠ []) (hs : ∀ b ∈ s, b ∉ arr) (hr : ∀ b t, r = b :: t → b ∈ arr) :
    isNot arr (s ++ r) = .done r s := by
  have h := takeWhile_append (p := fun b => decide (b ∉ arr)) (s := s) (r := r) (by simpa using hs) (by simpa using hr)
  cases s with
  | nil => exact absurd rfl hne
  | cons b s =>
    simp only [Nom.takeWhile] at h
    simp only [isNot, List.cons_append, hs b List.mem_cons_self, if_false]
    exact h

theorem many0Go_spec [DecidableEq C] {p : Parser C A} {tail : List C} (ht : tail = [] ∨ p tail = .error) :
    ∀ (l : List (List C × A)) (acc : List A) (n : Nat), (l.flatMap Prod.fst ++ tail).length < n → (∀ x ∈ l, x.1 ≠ []) →
      (∀ l₁ x l₂, l = l₁ ++ x :: l₂ → p (x.1 ++ (l₂.flatMap Prod.fst ++ tail)) = .done (l₂.flatMap Prod.fst ++ tail) x.2) →
      many0Go p n (l.flatMap Prod.fst ++ tail) acc = .done tail (acc ++ l.map Prod.snd)
  | [], acc, n + 1, _, _, _ => by
    rcases ht with rfl | ht
    · simp [many0Go]
    · by_cases htl : tail = []
      · simp [many0Go, htl]
      · simp [many0Go, htl, ht]
  | x :: l, acc, n + 1, hn, hne, hp => by
    have h1 := hp [] x l rfl
    have hx := hne x List.mem_cons_self
    have hlen : 0 < x.1.length := List.length_pos_iff.mpr hx
    have hin : (x :: l).flatMap Prod.fst ++ tail = x.1 ++ (l.flatMap Prod.fst ++ tail) := by simp
    rw [hin] at hn ⊢
    have hne' : x.1 ++ (l.flatMap Prod.fst ++ tail) ≠ [] := by simp [hx]
    have hr : l.flatMap Prod.fst ++ tail ≠ x.1 ++ (l.flatMap Prod.fst ++ tail) := by
      intro e
      have := congrArg List.length e
      simp only [List.length_append] at this
      omega
    simp only [many0Go, if_neg hne', h1, if_neg hr]
    rw [many0Go_spec ht l (acc ++ [x.2]) n (by simp only [List.length_append] at hn ⊢; omega) (fun y hy => hne y (List.mem_cons_of_mem _ hy))
      (fun l₁ y l₂ e => hp (x :: l₁) y l₂ (by simp [e]))]
    simp

theorem many0_spec [DecidableEq C] {p : Parser C A} {tail : List C} (ht : tail = [] ∨ p tail = .error) (l : List (List C × A))
    (hne : ∀ x ∈ l, x.1 ≠ [])
    (hp : ∀ l₁ x l₂, l = l₁ ++ x :: l₂ → p (x.1 ++ (l₂.flatMap Prod.fst ++ tail)) = .done (l₂.flatMap Prod.fst ++ tail) x.2) :
    many0 p (l.flatMap Prod.fst ++ tail) = .done tail (l.map Prod.snd) := by
  rw [many0, many0Go_spec ht l [] _ (Nat.lt_succ_self _) hne hp, List.nil_append]

end

/-! ### Tokens -/

theorem escaped_plain {b : Nat} {i : List Nat} (h1 : b ≠ 34) (h2 : b ≠ 92) : escaped (b :: i) = (escaped i).map (b :: ·) := by
  rw [escaped.eq_def]
  simp only [h1, h2, if_false]

theorem escaped_quote (i : List Nat) : escaped (34 :: i) = .done (34 :: i) [] := by
  rw [escaped.eq_def]
  simp

theorem escaped_esc {c : Nat} {i : List Nat} (h : c = 34 ∨ c = 92) :
    escaped (92 :: c :: i) = (escaped i).map fun s => 92 :: c :: s := by
  rw [escaped.eq_def]
  simp [Or.comm.mp h]

theorem escaped_bad {c : Nat} {i : List Nat} (h : ¬ (c = 34 ∨ c = 92)) : escaped (92 :: c :: i) = .error := by
  rw [escaped.eq_def]
  have h' : ¬ (c = 92 ∨ c = 34) := fun e => h (Or.comm.mp e)
  simp [h']

theorem escaped_end : escaped [92] = .error := by
  rw [escaped.eq_def]
  simp

theorem escaped_quotable {s : List Nat} (hs : Quotable s) (rest : List Nat) : escaped (s ++ 34 :: rest) = .done (34 :: rest) s := by
  induction hs with
  | nil => exact escaped_quote rest
  | plain h1 h2 _ ih => rw [List.cons_append, escaped_plain h1 h2, ih, PResult.map]
  | esc h _ ih => rw [List.cons_append, List.cons_append, escaped_esc h, ih, PResult.map]

theorem parseToken_quoted {A : Type _} {c : Codec A} {a : A} {s : List Nat} (hs : Quotable s) (ha : c.read s = some a) (rest : List Nat) :
    parseToken c (34 :: (s ++ 34 :: rest)) = .done rest a := by
  have h1 : delimited (tag [34]) escaped (tag [34]) (34 :: (s ++ 34 :: rest)) = .done rest s := by
    rw [delimited, thn_done (tag_cons _ _), terminated, chain_done (escaped_quotable hs rest), chain_done (tag_cons _ _), ret]
  rw [parseToken, mapRes, chain_done (alt_done h1), ha]

theorem parseToken_stop {A : Type _} {c : Codec A} {b : Nat} {r : List Nat} (h1 : b ≠ 34) (h2 : b ∈ tokenStop) :
    parseToken c (b :: r) = .error := by
  have h : delimited (tag [34]) escaped (tag [34]) (b :: r) = .error := by
    rw [delimited, thn_error (tag_ne (Ne.symm h1))]
  rw [parseToken, mapRes, chain_error (by rw [alt_error h]; simp only [isNot, h2, if_true])]

theorem parseToken_unquoted {A : Type _} {c : Codec A} {a : A} {s rest : List Nat} (hne : s ≠ []) (hs : ∀ b ∈ s, b ∉ tokenStop)
    (ha : c.read s = some a) (hr : ∀ b t, rest = b :: t → b ∈ tokenStop) : parseToken c (s ++ rest) = .done rest a := by
  obtain ⟨b, s', rfl⟩ := List.exists_cons_of_ne_nil hne
  have hb : (34 : Nat) ≠ b := by
    rintro rfl
    exact hs 34 List.mem_cons_self (by decide)
  have h : delimited (tag [34]) escaped (tag [34]) (b :: s' ++ rest) = .error := by
    rw [delimited, List.cons_append, thn_error (tag_ne hb)]
  rw [parseToken, mapRes, chain_done (by rw [alt_error h, isNot_append hne hs hr]), ha]

/-! ### Lists -/

theorem isSpace_false {b : Nat} (h1 : b ≠ 32) (h2 : b ≠ 9) : isSpace b = false := by simp [isSpace, h1, h2]

theorem commaSep_cons {A : Type _} (f : A → List Nat) (a : A) (l : List A) :
    commaSep f (a :: l) = f a ++ l.flatMap fun b => 44 :: 32 :: f b := by
  induction l generalizing a with
  | nil => simp [commaSep]
  | cons b l ih => simp [commaSep, ih, ascii]

section
variable {A : Type _} {inner : Parser Nat A} {f : A → List Nat} {cl : Nat}

/-- The first byte of the text of an element is neither a comma nor a space. -/
def Starts (s : List Nat) : Prop := ∃ b t, s = b :: t ∧ b ≠ 44 ∧ b ≠ 32 ∧ b ≠ 9

theorem elem_first {a : A} {r : List Nat} (hf : Starts (f a)) (hi : inner (f a ++ r) = .done r a) (hr : ∀ b t, r = b :: t → isSpace b = false) :
    (thn (opt (tag [44])) <| thn (Nom.takeWhile isSpace) <| chain inner fun a => thn (Nom.takeWhile isSpace) (ret a)) (f a ++ r) = .done r a := by
  obtain ⟨b, t, e, h1, h2, h3⟩ := hf
  have ho : opt (tag [44]) (f a ++ r) = .done (f a ++ r) none := opt_error (by rw [e, List.cons_append, tag_ne (Ne.symm h1)])
  rw [thn_done ho, thn_done (takeWhile_none (by
    intro b' t' e'
    rw [e, List.cons_append, List.cons.injEq] at e'
    rw [← e'.1]
    exact isSpace_false h2 h3)), chain_done hi, thn_done (takeWhile_none hr), ret]

theorem elem_next {a : A} {r : List Nat} (hf : Starts (f a)) (hi : inner (f a ++ r) = .done r a) (hr : ∀ b t, r = b :: t → isSpace b = false) :
    (thn (opt (tag [44])) <| thn (Nom.takeWhile isSpace) <| chain inner fun a => thn (Nom.takeWhile isSpace) (ret a)) (44 :: 32 :: f a ++ r) =
      .done r a := by
  obtain ⟨b, t, e, h1, h2, h3⟩ := hf
  have ho : opt (tag [44]) (44 :: 32 :: f a ++ r) = .done ([32] ++ (f a ++ r)) (some ()) := opt_done (by simp [tag])
  have hs : Nom.takeWhile isSpace ([32] ++ (f a ++ r)) = .done (f a ++ r) [32] := takeWhile_append (by simp [isSpace]) (by
    intro b' t' e'
    rw [e, List.cons_append, List.cons.injEq] at e'
    rw [← e'.1]
    exact isSpace_false h2 h3)
  rw [thn_done ho, thn_done hs, chain_done hi, thn_done (takeWhile_none hr), ret]

theorem parseVec_spec {o : Nat} {l : List A} {rest : List Nat} (hcl : cl ≠ 44 ∧ cl ≠ 32 ∧ cl ≠ 9) (hf : ∀ a ∈ l, Starts (f a))
    (hi : ∀ a ∈ l, ∀ b r, b = 44 ∨ b = cl → inner (f a ++ b :: r) = .done (b :: r) a) (he : ∀ r, inner (cl :: r) = .error) :
    parseVec inner [o] [cl] [44] (o :: (commaSep f l ++ cl :: rest)) = .done rest l := by
  obtain ⟨hc1, hc2, hc3⟩ := hcl
  have hcs : isSpace cl = false := isSpace_false hc2 hc3
  have htail : (thn (opt (tag [44])) <| thn (Nom.takeWhile isSpace) <| chain inner fun a => thn (Nom.takeWhile isSpace) (ret a)) (cl :: rest) =
      .error := by
    rw [thn_done (opt_error (tag_ne (Ne.symm hc1))), thn_done (takeWhile_none (by
      intro b t e
      rw [List.cons.injEq] at e
      rw [← e.1]
      exact hcs)), chain_error (he rest)]
  have hm : many0 (thn (opt (tag [44])) <| thn (Nom.takeWhile isSpace) <| chain inner fun a => thn (Nom.takeWhile isSpace) (ret a))
      (commaSep f l ++ cl :: rest) = .done (cl :: rest) l := by
    cases l with
    | nil =>
      have := many0_spec (Or.inr htail) [] (by simp) (by simp)
      simpa [commaSep] using this
    | cons a l =>
      have hrest : ∀ (l₂ : List A), ∃ b r, ((l₂.map fun b => (44 :: 32 :: f b, b)).flatMap Prod.fst ++ cl :: rest) = b :: r ∧ (b = 44 ∨ b = cl) := by
        intro l₂
        cases l₂ with
        | nil => exact ⟨cl, rest, rfl, Or.inr rfl⟩
        | cons b l₂ => exact ⟨44, _, rfl, Or.inl rfl⟩
      have hsp : ∀ b r', (b = 44 ∨ b = cl) → ∀ b' t', b :: r' = b' :: t' → isSpace b' = false := by
        intro b r' hb b' t' e
        rw [List.cons.injEq] at e
        rw [← e.1]
        rcases hb with rfl | rfl
        · rfl
        · exact hcs
      have := many0_spec (Or.inr htail) ((f a, a) :: l.map fun b => (44 :: 32 :: f b, b)) (by
        intro x hx
        rw [List.mem_cons] at hx
        rcases hx with rfl | hx
        · obtain ⟨b, t, e, _⟩ := hf a List.mem_cons_self
          simp [e]
        · obtain ⟨b, _, rfl⟩ := List.mem_map.mp hx
          simp) (by
        intro l₁ x l₂ e
        cases l₁ with
        | nil =>
          rw [List.nil_append, List.cons.injEq] at e
          obtain ⟨rfl, rfl⟩ := e
          obtain ⟨b, r, hr, hb⟩ := hrest l
          simp only [hr]
          exact elem_first (hf a List.mem_cons_self) (hi a List.mem_cons_self b r hb) (hsp b r hb)
        | cons y l₁ =>
          rw [List.cons_append, List.cons.injEq] at e
          obtain ⟨k₁, k₂, hk, hk₁, hk₂⟩ := List.map_eq_append_iff.mp e.2
          obtain ⟨a', k₃, rfl, rfl, rfl⟩ := List.map_eq_cons_iff.mp hk₂
          obtain ⟨b, r, hr, hb⟩ := hrest k₃
          have ha' : a' ∈ a :: l := by simp [hk]
          simp only [hr]
          exact elem_next (hf a' ha') (hi a' ha' b r hb) (hsp b r hb))
      rw [commaSep_cons]
      simpa [List.flatMap_map, Function.comp_def] using this
  have hstart : ∀ b t, commaSep f l ++ cl :: rest = b :: t → isSpace b = false := by
    intro b t e
    cases l with
    | nil =>
      simp only [commaSep, List.nil_append, List.cons.injEq] at e
      rw [← e.1]
      exact hcs
    | cons a l =>
      obtain ⟨b', t', e', h1, h2, h3⟩ := hf a List.mem_cons_self
      rw [commaSep_cons, e', List.cons_append, List.cons_append, List.cons.injEq] at e
      rw [← e.1]
      exact isSpace_false h2 h3
  rw [parseVec, thn_done (tag_cons _ _), thn_done (takeWhile_none hstart), chain_done hm, thn_done (tag_cons _ _), ret]

end

/-! ### Numbers -/

theorem digitsValue_append (s : List Nat) (d : Nat) : digitsValue (s ++ [d]) = 10 * digitsValue s + (d - 48) := by
  simp [digitsValue]

theorem digitsValue_digits : ∀ (l : List Nat), digitsValue (l.reverse.map (48 + ·)) = Nat.ofDigits 10 l
  | [] => rfl
  | d :: l => by
    rw [List.reverse_cons, List.map_append, List.map_singleton, digitsValue_append, digitsValue_digits l, Nat.ofDigits_cons]
    omega

theorem digitsValue_natText (n : Nat) : digitsValue (natText n) = n := by
  rw [natText]
  split
  · rename_i h
    rw [h]
    rfl
  · rw [digitsValue_digits, Nat.ofDigits_digits]

theorem natText_ne_nil (n : Nat) : natText n ≠ [] := by
  rw [natText]
  split
  · simp
  · rename_i h
    simpa [Nat.digits_eq_nil_iff_eq_zero] using h

theorem natText_digit (n : Nat) : ∀ b ∈ natText n, (decide (48 ≤ b) && decide (b ≤ 57)) = true := by
  intro b hb
  rw [natText] at hb
  split at hb
  · simp only [List.mem_singleton] at hb
    subst hb
    rfl
  · obtain ⟨d, hd, rfl⟩ := List.mem_map.mp hb
    have := Nat.digits_lt_base (b := 10) (by omega) (List.mem_reverse.mp hd)
    simp only [Bool.and_eq_true, decide_eq_true_eq]
    omega

theorem digit_natText {n : Nat} {r : List Nat} (hr : ∀ b t, r = b :: t → b < 48 ∨ 57 < b) : digit (natText n ++ r) = .done r (natText n) := by
  rw [digit, many1Of, takeWhile1_append (natText_ne_nil n) (natText_digit n) (by
    intro b t e
    have := hr b t e
    simp only [Bool.and_eq_false_iff, decide_eq_false_iff_not]
    omega)]

theorem parseUsize_natText {n : Nat} (h : n < 2 ^ 64) : parseUsize (natText n) = some n := by
  rw [parseUsize, digitsValue_natText, if_pos h]

/-! ### Rules -/

theorem not_space_of_cons {c : Nat} {r : List Nat} (h : isSpace c = false) : ∀ b t, c :: r = b :: t → isSpace b = false := by
  intro b t e
  rw [List.cons.injEq] at e
  rw [← e.1]
  exact h

theorem not_space_arrow (r : List Nat) : ∀ b t, arrow ++ r = b :: t → isSpace b = false := not_space_of_cons (c := 0xE2) rfl

theorem tag_ascii_ne {c : Char} {l : List Char} {b : Nat} (r : List Nat) (h : c.toNat ≠ b) : tag (ascii (c :: l)) (b :: r) = .error := tag_ne h

theorem skip_space (r : List Nat) (h : ∀ b t, r = b :: t → isSpace b = false) : Nom.takeWhile isSpace (32 :: r) = .done r [32] :=
  takeWhile_append (s := [32]) (by simp [isSpace]) h

section
variable {N T W : Type _} {cn : Codec N} {ct : Codec T} {cw : Codec W}

theorem parseLetterT_text {x : LetterT N T} (hl : ∀ n, x = .label n → GoodSymbol cn n) (hv : ∀ t, x = .value t → GoodSymbol ct t) (r : List Nat) :
    parseLetterT cn ct (LetterT.text cn ct x ++ r) = .done r x := by
  cases x with
  | label n =>
    obtain ⟨h1, h2⟩ := hl n rfl
    have e : LetterT.text cn ct (.label n : LetterT N T) ++ r = ascii ['N', 't'] ++ 32 :: 34 :: (cn.text n ++ 34 :: r) := by
      simp [LetterT.text, quoted, ascii]
    rw [e, parseLetterT, alt_done]
    rw [thn_done (tag_append _ _), thn_done (skip_space _ (not_space_of_cons rfl)), chain_done (parseToken_quoted h2 h1 r), ret]
  | value t =>
    obtain ⟨h1, h2⟩ := hv t rfl
    have e : LetterT.text cn ct (.value t : LetterT N T) ++ r = ascii ['T'] ++ 32 :: 34 :: (ct.text t ++ 34 :: r) := by
      simp [LetterT.text, quoted, ascii]
    have hne : tag (ascii ['N', 't']) (ascii ['T'] ++ 32 :: 34 :: (ct.text t ++ 34 :: r)) = .error := tag_ascii_ne _ (by decide)
    rw [e, parseLetterT, alt_error (thn_error hne)]
    rw [thn_done (tag_append _ _), thn_done (skip_space _ (not_space_of_cons rfl)), chain_done (parseToken_quoted h2 h1 r), ret]

theorem parseLetterT_error {b : Nat} {r : List Nat} (h1 : b ≠ 78) (h2 : b ≠ 84) : parseLetterT cn ct (b :: r) = .error := by
  rw [parseLetterT, alt_error (thn_error (tag_ascii_ne _ (Ne.symm h1))), thn_error (tag_ascii_ne _ (Ne.symm h2))]

theorem parseArrow_arrow (r : List Nat) : parseArrow (arrow ++ r) = .done r () := by
  rw [parseArrow, alt_done (tag_append _ _)]

theorem weight_parts {w : W} (hw : GoodWeight cw w) :
    ∃ b t, cw.text w = b :: t ∧ isSpace b = false ∧ isNot [32] (cw.text w) = .done [] (cw.text w) := by
  obtain ⟨_, hne, hb⟩ := hw
  obtain ⟨b, t, e⟩ := List.exists_cons_of_ne_nil hne
  refine ⟨b, t, e, ?_, ?_⟩
  · have := hb b (by simp [e])
    exact isSpace_false (by omega) (by omega)
  · have := isNot_append (arr := [32]) (s := cw.text w) (r := []) hne (by
      intro x hx
      have := hb x hx
      simp only [List.mem_singleton]
      omega) (by simp)
    simpa using this

theorem parseCfgRule_text [One W] {r : CFGRule N T W} (h : GoodCfgRule cn ct cw r) : parseCfgRule cn ct cw (CFGRule.text cn ct cw r) = .done [] r := by
  obtain ⟨hh, hl, hv, hw⟩ := h
  obtain ⟨b, t, e, hb, hnot⟩ := weight_parts hw
  have et : CFGRule.text cn ct cw r = 34 :: (cn.text r.head ++ 34 :: 32 :: (arrow ++
      32 :: 91 :: (commaSep (LetterT.text cn ct) r.composition ++ 93 :: 32 :: 32 :: 35 :: 32 :: cw.text r.weight))) := by
    simp [CFGRule.text, quoted, ascii]
  have hvec : ∀ rest, parseVec (parseLetterT cn ct) [91] [93] [44] (91 :: (commaSep (LetterT.text cn ct) r.composition ++ 93 :: rest)) =
      .done rest r.composition := by
    intro rest
    refine parseVec_spec (by decide) ?_ ?_ ?_
    · intro x _
      cases x with
      | label n => exact ⟨78, _, rfl, by decide, by decide, by decide⟩
      | value n => exact ⟨84, _, rfl, by decide, by decide, by decide⟩
    · intro x hx b' r' _
      exact parseLetterT_text (fun n e => hl n (e ▸ hx)) (fun n e => hv n (e ▸ hx)) _
    · intro r'
      exact parseLetterT_error (by decide) (by decide)
  have hsp : Nom.takeWhile isSpace (32 :: 32 :: 35 :: 32 :: cw.text r.weight) = .done (35 :: 32 :: cw.text r.weight) [32, 32] :=
    takeWhile_append (s := [32, 32]) (by simp [isSpace]) (not_space_of_cons rfl)
  have hwt : parseCfgWeight cw (35 :: 32 :: cw.text r.weight) = .done [] (some r.weight) := by
    refine opt_done (complete_done ?_)
    rw [thn_done (tag_cons _ _), thn_done (skip_space _ (by rw [e]; exact not_space_of_cons hb)), chain_done hnot, hw.1, exprRes]
  rw [et, parseCfgRule, chain_done (parseToken_quoted hh.2 hh.1 _), thn_done (skip_space _ (not_space_arrow _)),
    thn_done (parseArrow_arrow _), thn_done (skip_space _ (not_space_of_cons rfl)), chain_done (hvec _), thn_done hsp, chain_done hwt,
    thn_done (takeWhile_none (by simp)), thn_done (alt_done (a := ()) (r := []) (by simp [eof])), ret]
  rfl

theorem parseVarT_text {x : VarT T} (hv : ∀ i j, x = .var i j → i < 2 ^ 64 ∧ j < 2 ^ 64) (ht : ∀ t, x = .t t → GoodSymbol ct t) {b : Nat} {r : List Nat}
    (hb : b < 48 ∨ 57 < b) : parseVarT ct (VarT.text ct x ++ b :: r) = .done (b :: r) x := by
  cases x with
  | var i j =>
    obtain ⟨hi, hj⟩ := hv i j rfl
    have e : VarT.text ct (.var i j : VarT T) ++ b :: r = ascii ['V', 'a', 'r'] ++ 32 :: (natText i ++ 32 :: (natText j ++ b :: r)) := by
      simp [VarT.text, ascii]
    have hsp : ∀ n r' b t, natText n ++ r' = b :: t → isSpace b = false := by
      intro n r' b t e
      obtain ⟨c, s, hc⟩ := List.exists_cons_of_ne_nil (natText_ne_nil n)
      have := natText_digit n c (by simp [hc])
      rw [hc, List.cons_append, List.cons.injEq] at e
      rw [← e.1]
      simp only [Bool.and_eq_true, decide_eq_true_eq] at this
      exact isSpace_false (by omega) (by omega)
    rw [e, parseVarT, alt_done]
    rw [thn_done (tag_append _ _), thn_done (skip_space _ (hsp _ _)), chain_done (digit_natText (by
        intro b t e
        rw [List.cons.injEq] at e
        omega)), thn_done (skip_space _ (hsp _ _)), chain_done (digit_natText (by
        intro b' t e
        rw [List.cons.injEq] at e
        omega)), chain_done (a := i) (by rw [parseUsize_natText hi, unwrapRes]), chain_done (a := j) (by rw [parseUsize_natText hj, unwrapRes]), ret]
  | t x =>
    obtain ⟨h1, h2⟩ := ht x rfl
    have e : VarT.text ct (.t x : VarT T) ++ b :: r = ascii ['T'] ++ 32 :: 34 :: (ct.text x ++ 34 :: b :: r) := by
      simp [VarT.text, quoted, ascii]
    have hne : tag (ascii ['V', 'a', 'r']) (ascii ['T'] ++ 32 :: 34 :: (ct.text x ++ 34 :: b :: r)) = .error := tag_ascii_ne _ (by decide)
    rw [e, parseVarT, alt_error (thn_error hne)]
    rw [thn_done (tag_append _ _), thn_done (skip_space _ (not_space_of_cons rfl)), chain_done (parseToken_quoted h2 h1 _), ret]

theorem parseVarT_error {b : Nat} {r : List Nat} (h1 : b ≠ 86) (h2 : b ≠ 84) : parseVarT ct (b :: r) = .error := by
  rw [parseVarT, alt_error (thn_error (tag_ascii_ne _ (Ne.symm h1))), thn_error (tag_ascii_ne _ (Ne.symm h2))]

theorem parseProjection_text {l : List (VarT T)} (hv : ∀ i j, .var i j ∈ l → i < 2 ^ 64 ∧ j < 2 ^ 64) (ht : ∀ t, .t t ∈ l → GoodSymbol ct t)
    (rest : List Nat) : parseProjection ct (([91] ++ commaSep (VarT.text ct) l ++ [93]) ++ rest) = .done rest l := by
  have e : ([91] ++ commaSep (VarT.text ct) l ++ [93]) ++ rest = 91 :: (commaSep (VarT.text ct) l ++ 93 :: rest) := by simp
  rw [e, parseProjection]
  refine parseVec_spec (by decide) ?_ ?_ ?_
  · intro x _
    cases x with
    | var i j => exact ⟨86, _, rfl, by decide, by decide, by decide⟩
    | t n => exact ⟨84, _, rfl, by decide, by decide, by decide⟩
  · intro x hx b r hb
    refine parseVarT_text (fun i j e => hv i j (e ▸ hx)) (fun t e => ht t (e ▸ hx)) ?_
    rcases hb with rfl | rfl <;> decide
  · intro r
    exact parseVarT_error (by decide) (by decide)

theorem parseComposition_text {c : Composition T} (hv : ∀ i j, .var i j ∈ c.flatten → i < 2 ^ 64 ∧ j < 2 ^ 64)
    (ht : ∀ t, .t t ∈ c.flatten → GoodSymbol ct t) (rest : List Nat) :
    parseComposition ct (Composition.text ct c ++ rest) = .done rest c := by
  have e : Composition.text ct c ++ rest = 91 :: (commaSep (fun proj => [91] ++ commaSep (VarT.text ct) proj ++ [93]) c ++ 93 :: rest) := by
    simp [Composition.text]
  rw [e, parseComposition]
  refine parseVec_spec (by decide) ?_ ?_ ?_
  · intro x _
    exact ⟨91, _, rfl, by decide, by decide, by decide⟩
  · intro x hx b r _
    exact parseProjection_text (fun i j h => hv i j (List.mem_flatten_of_mem hx h)) (fun t h => ht t (List.mem_flatten_of_mem hx h)) _
  · intro r
    rw [parseProjection, parseVec, thn_error (tag_ne (by decide))]

theorem parseTokens_text {o cl : Nat} (hcl : cl = 41 ∨ cl = 93) {l : List N} (hl : ∀ n ∈ l, GoodSymbol cn n) (rest : List Nat) :
    parseVec (parseToken cn) [o] [cl] [44] (o :: (commaSep (quoted cn) l ++ cl :: rest)) = .done rest l := by
  refine parseVec_spec (by rcases hcl with rfl | rfl <;> decide) ?_ ?_ ?_
  · intro x _
    exact ⟨34, _, rfl, by decide, by decide, by decide⟩
  · intro x hx b r _
    have := parseToken_quoted (hl x hx).2 (hl x hx).1 (b :: r)
    simpa [quoted] using this
  · intro r
    exact parseToken_stop (by rcases hcl with rfl | rfl <;> decide) (by rcases hcl with rfl | rfl <;> decide)

theorem parsePmcfgRule_text [One W] {r : PMCFGRule N T W} (h : GoodPmcfgRule cn ct cw r) :
    parsePmcfgRule cn ct cw (PMCFGRule.text cn ct cw r) = .done [] r := by
  obtain ⟨hh, htl, ht, hv, hw⟩ := h
  obtain ⟨b, t, e, hb, hnot⟩ := weight_parts hw
  have et : PMCFGRule.text cn ct cw r = 34 :: (cn.text r.head ++ 34 :: 32 :: (arrow ++ 32 :: (Composition.text ct r.composition ++
      32 :: 40 :: (commaSep (quoted cn) r.tail ++ 41 :: 32 :: 32 :: 35 :: 32 :: cw.text r.weight)))) := by
    simp [PMCFGRule.text, quoted, ascii]
  have hcs : ∀ rest b t, Composition.text ct r.composition ++ rest = b :: t → isSpace b = false := by
    intro rest
    exact not_space_of_cons rfl
  have hsp : Nom.takeWhile isSpace (32 :: 32 :: 35 :: 32 :: cw.text r.weight) = .done (35 :: 32 :: cw.text r.weight) [32, 32] :=
    takeWhile_append (s := [32, 32]) (by simp [isSpace]) (not_space_of_cons rfl)
  have hwt : parsePmcfgWeight cw (35 :: 32 :: cw.text r.weight) = .done [] (some r.weight) := by
    refine opt_done (complete_done ?_)
    rw [thn_done (tag_cons _ _), thn_done (skip_space _ (by rw [e]; exact not_space_of_cons hb)), chain_done hnot, hw.1, unwrapRes]
  have hm : many0 (tag [37]) ([] : List Nat) = .done [] [] := many0_spec (Or.inl rfl) [] (by simp) (by simp)
  rw [et, parsePmcfgRule, chain_done (parseToken_quoted hh.2 hh.1 _), thn_done (skip_space _ (not_space_arrow _)),
    thn_done (parseArrow_arrow _), thn_done (skip_space _ (hcs _)), chain_done (parseComposition_text hv ht _),
    thn_done (skip_space _ (not_space_of_cons rfl)), parseSuccessors, chain_done (parseTokens_text (Or.inl rfl) htl _), thn_done hsp, chain_done hwt,
    thn_done (takeWhile_none (by simp)), thn_done hm, thn_done takeWhile_all, ret]
  rfl

end

end Rustomata
