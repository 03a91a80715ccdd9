import Verif.Spec.AutomatonText
import Verif.Props.FromStr

/-!
# Lemmas about the text of automata
-/

namespace Rustomata
open Nom Spec

/-! ### White space -/

theorem skip_spaces {w : List Nat} (hw : Spaces w) (r : List Nat) (h : ∀ b t, r = b :: t → isSpace b = false) :
    Nom.takeWhile isSpace (w ++ r) = .done r w := takeWhile_append (fun b hb => by rw [hw b hb]; rfl) h

theorem trim_append {u s v : List Nat} {b : Nat} {t : List Nat} (hu : Whites u) (hs : s = b :: t) (hb : isWhite b = false)
    (hc : ∀ c, White c → ¬ c <:+ s) (hv : Whites v) : trim (u ++ s ++ v) = s :=
  trim_iff.mpr ⟨u, v, rfl, hu, hv, by rw [hs]; exact no_white_prefix hb t, hc⟩

/-! ### Tokens and lists -/

section
variable {A T W I Q : Type _}

theorem tokenText_starts {c : Codec A} {a : A} {s : List Nat} (h : TokenText c a s) : Starts s := by
  cases h with
  | quoted h1 h2 => exact ⟨34, _, rfl, by decide, by decide, by decide⟩
  | bare h1 h2 h3 =>
    cases s with
    | nil => exact absurd rfl h1
    | cons b s =>
      have := h2 b List.mem_cons_self
      simp only [List.mem_cons, not_or] at this
      exact ⟨b, s, rfl, by omega, by omega, by omega⟩

theorem parseToken_tokenText {c : Codec A} {a : A} {s : List Nat} (h : TokenText c a s) {r : List Nat} (hr : ∀ b t, r = b :: t → b ∈ tokenStop) :
    parseToken c (s ++ r) = .done r a := by
  cases h with
  | quoted h1 h2 => simpa using parseToken_quoted h1 h2 r
  | bare h1 h2 h3 => exact parseToken_unquoted h1 (fun b hb => (h2 b hb).1) h3 hr

/-- The parser of an element of a list. -/
abbrev elemParser (c : Codec A) : Parser Nat A :=
  thn (opt (tag [44])) <| thn (Nom.takeWhile isSpace) <| chain (parseToken c) fun a => thn (Nom.takeWhile isSpace) (ret a)

/-- The bytes of an element of a list with the comma and the spaces before it and the spaces after it. -/
def ElemText (c : Codec A) (x : List Nat × A) : Prop :=
  ∃ pre s w, x.1 = pre ++ (s ++ w) ∧ (pre = [] ∨ ∃ w', pre = 44 :: w' ∧ Spaces w') ∧ TokenText c x.2 s ∧ Spaces w

theorem spaces_next {w r : List Nat} (hw : Spaces w) (hr : ∃ b t, r = b :: t ∧ (b = 44 ∨ b = 93)) : ∀ b t, w ++ r = b :: t → b ∈ tokenStop := by
  intro b t e
  cases w with
  | nil =>
    obtain ⟨b', t', rfl, hb⟩ := hr
    rw [List.nil_append, List.cons.injEq] at e
    rw [← e.1]
    rcases hb with rfl | rfl <;> decide
  | cons x w =>
    rw [List.cons_append, List.cons.injEq] at e
    rw [← e.1, hw x List.mem_cons_self]
    decide

theorem starts_space {s r : List Nat} (h : Starts s) : ∀ b t, s ++ r = b :: t → isSpace b = false := by
  obtain ⟨b, t, rfl, h1, h2, h3⟩ := h
  intro b' t' e
  rw [List.cons_append, List.cons.injEq] at e
  rw [← e.1]
  exact isSpace_false h2 h3

theorem elemParser_text {c : Codec A} {x : List Nat × A} (h : ElemText c x) {r : List Nat} (hr : ∃ b t, r = b :: t ∧ (b = 44 ∨ b = 93)) :
    elemParser c (x.1 ++ r) = .done r x.2 := by
  obtain ⟨pre, s, w, e, hpre, hs, hw⟩ := h
  have hst := tokenText_starts hs
  have h1 : parseToken c (s ++ (w ++ r)) = .done (w ++ r) x.2 := parseToken_tokenText hs (spaces_next hw hr)
  have h2 : Nom.takeWhile isSpace (w ++ r) = .done r w := skip_spaces hw r (by
    obtain ⟨b, t, rfl, hb⟩ := hr
    exact not_space_of_cons (by rcases hb with rfl | rfl <;> rfl))
  have h3 : (chain (parseToken c) fun a => thn (Nom.takeWhile isSpace) (ret a)) (s ++ (w ++ r)) = .done r x.2 := by
    rw [chain_done h1, thn_done h2, ret]
  rw [e, List.append_assoc, List.append_assoc]
  rcases hpre with rfl | ⟨w', rfl, hw'⟩
  · have ho : opt (tag [44]) (s ++ (w ++ r)) = .done (s ++ (w ++ r)) none := by
      obtain ⟨b, t, rfl, k1, _⟩ := hst
      exact opt_error (tag_ne (Ne.symm k1))
    rw [List.nil_append, elemParser, thn_done ho, thn_done (takeWhile_none (starts_space hst)), h3]
  · rw [List.cons_append, elemParser, thn_done (opt_done (tag_cons _ _)), thn_done (skip_spaces hw' _ (starts_space hst)), h3]

theorem elemsText_items {c : Codec A} {l : List A} {t : List Nat} (h : ElemsText c l t) : ∀ {pre : List Nat},
    (pre = [] ∨ ∃ w', pre = 44 :: w' ∧ Spaces w') → ∃ xs : List (List Nat × A), (∀ x ∈ xs, ElemText c x) ∧ xs.map Prod.snd = l ∧
      xs.flatMap Prod.fst = pre ++ t ∧ ∀ x ∈ xs.tail, ∃ r, x.1 = 44 :: r := by
  induction h with
  | @one a s w h1 h2 =>
    intro pre hpre
    exact ⟨[(pre ++ (s ++ w), a)], by simpa using ⟨pre, s, w, rfl, hpre, h1, h2⟩, rfl, by simp, by simp⟩
  | @cons a s w w' l t h1 h2 h3 h4 ih =>
    intro pre hpre
    obtain ⟨xs, k1, k2, k3, k4⟩ := ih (pre := 44 :: w') (.inr ⟨w', rfl, h3⟩)
    refine ⟨(pre ++ (s ++ w), a) :: xs, ?_, by simp [k2], by simp [k3], ?_⟩
    · intro x hx
      rcases List.mem_cons.mp hx with rfl | hx
      · exact ⟨pre, s, w, rfl, hpre, h1, h2⟩
      · exact k1 x hx
    · intro x hx
      cases xs with
      | nil => cases hx
      | cons y xs =>
        rcases List.mem_cons.mp hx with rfl | hx
        · have he := k1 x List.mem_cons_self
          obtain ⟨p, s', w'', e, hp, hs, _⟩ := he
          rcases hp with rfl | ⟨w₂, rfl, _⟩
          · exfalso
            obtain ⟨b, t', rfl, hb, _⟩ := tokenText_starts hs
            simp [e] at k3
            exact hb k3.1
          · exact ⟨_, by rw [e]; rfl⟩
        · exact k4 x hx

theorem elemParser_close (c : Codec A) (r : List Nat) : elemParser c (93 :: r) = .error := by
  rw [elemParser, thn_done (opt_error (tag_ne (by decide))), thn_done (takeWhile_none (not_space_of_cons rfl)), chain_error]
  exact parseToken_stop (by decide) (by decide)

theorem elems_many {c : Codec A} {xs : List (List Nat × A)} (h1 : ∀ x ∈ xs, ElemText c x) (h2 : ∀ x ∈ xs.tail, ∃ r, x.1 = 44 :: r) (r : List Nat) :
    many0 (elemParser c) (xs.flatMap Prod.fst ++ 93 :: r) = .done (93 :: r) (xs.map Prod.snd) := by
  refine many0_spec (Or.inr (elemParser_close c r)) xs ?_ ?_
  · intro x hx
    obtain ⟨pre, s, w, e, _, hs, _⟩ := h1 x hx
    obtain ⟨b, t, rfl, _⟩ := tokenText_starts hs
    simp [e]
  · intro l₁ x l₂ e
    refine elemParser_text (h1 x (by simp [e])) ?_
    cases l₂ with
    | nil => exact ⟨93, r, rfl, .inr rfl⟩
    | cons y l₂ =>
      have hy : y ∈ xs.tail := by
        rw [e]
        cases l₁ <;> simp
      obtain ⟨r', hr'⟩ := h2 y hy
      refine ⟨44, r' ++ (l₂.flatMap Prod.fst ++ 93 :: r), ?_, .inl rfl⟩
      simp [hr']

theorem parseList_text {c : Codec A} {l : List A} {s : List Nat} (h : ListText c l s) (r : List Nat) :
    parseVec (parseToken c) [91] [93] [44] (s ++ r) = .done r l := by
  cases h with
  | @nil w hw =>
    have h1 : [91] ++ w ++ [93] ++ r = 91 :: (w ++ 93 :: r) := by simp
    have h2 : many0 (elemParser c) (93 :: r) = .done (93 :: r) [] := elems_many (c := c) (xs := []) (by simp) (by simp) r
    rw [h1, parseVec, thn_done (tag_cons _ _), thn_done (skip_spaces hw _ (not_space_of_cons rfl)), chain_done h2, thn_done (tag_cons _ _), ret]
  | @elems w l t hw ht =>
    obtain ⟨xs, k1, k2, k3, k4⟩ := elemsText_items ht (pre := []) (.inl rfl)
    have h1 : [91] ++ w ++ t ++ [93] ++ r = 91 :: (w ++ (xs.flatMap Prod.fst ++ 93 :: r)) := by simp [k3]
    have h2 := elems_many k1 k4 r
    have h3 : ∀ b t', xs.flatMap Prod.fst ++ 93 :: r = b :: t' → isSpace b = false := by
      rw [k3, List.nil_append]
      have hst : Starts t := by
        cases ht with
        | one h _ =>
          obtain ⟨b, t', rfl, hb⟩ := tokenText_starts h
          exact ⟨b, _, rfl, hb⟩
        | cons h _ _ _ =>
          obtain ⟨b, t', rfl, hb⟩ := tokenText_starts h
          exact ⟨b, _, rfl, hb⟩
      exact starts_space hst
    rw [h1, parseVec, thn_done (tag_cons _ _), thn_done (skip_spaces hw _ h3), chain_done h2, thn_done (tag_cons _ _), ret, k2]

/-! ### Numbers and instructions -/

theorem readUsize_text {n : Nat} {s : List Nat} (h : NumberText n s) : readUsize s = some n := by
  obtain ⟨hn, ds, h1, h2, h3, h4⟩ := h
  have hd : ∀ b ∈ ds.reverse.map (48 + ·), (decide (48 ≤ b) && decide (b ≤ 57)) = true := by
    intro b hb
    obtain ⟨d, hd, rfl⟩ := List.mem_map.mp hb
    have := h2 d (List.mem_reverse.mp hd)
    simp only [Bool.and_eq_true, decide_eq_true_eq]
    omega
  have hne : ds.reverse.map (48 + ·) ≠ [] := by simpa using h1
  have hp : parseUsize (ds.reverse.map (48 + ·)) = some n := by
    rw [parseUsize, digitsValue_digits, h3, if_pos hn]
  have hall : (ds.reverse.map (48 + ·)).all (fun b => decide (48 ≤ b) && decide (b ≤ 57)) = true := List.all_eq_true.mpr hd
  rcases h4 with rfl | rfl
  · have hh : (ds.reverse.map (48 + ·)).head? ≠ some 43 := by
      intro e
      have := hd 43 (List.mem_of_mem_head? e)
      simp at this
    simp only [readUsize, if_neg hh]
    rw [if_pos ⟨hne, hall⟩, hp]
  · simp only [readUsize, List.head?_cons, if_true, List.tail_cons]
    rw [if_pos ⟨hne, hall⟩, hp]

theorem fsInstr_read {c : Codec Q} {i : FsInstr Q} {t : List Nat} (h : FsInstrText c i t) : FsInstr.fromStr c t = some (some i) := by
  cases h with
  | mk h1 h2 h3 h4 => simp only [FsInstr.fromStr, splitWhite_words h4, if_pos h3, h1, h2]

theorem tsInstr_read {c : Codec A} {i : TsInstr A} {t : List Nat} (h : TsInstrText c i t) : TsInstr.fromStr c t = some (some i) := by
  cases h with
  | up hn h1 h2 h3 h => simp only [TsInstr.fromStr, splitWhite_words h, readUsize_text hn, h1, h2, h3, if_true]
  | push hn h1 h3 h => simp only [TsInstr.fromStr, splitWhite_words h, readUsize_text hn, h1, h3, if_true]
  | down h1 h2 h3 h =>
    have : ascii ['D', 'o', 'w', 'n'] ≠ ascii ['P', 'u', 's', 'h'] := by decide
    simp only [TsInstr.fromStr, splitWhite_words h, h1, h2, h3, if_true, if_neg this]

/-! ### Transitions -/

theorem takeUntil_spec {b : Nat} {s r : List Nat} (h : b ∉ s) : takeUntil b (s ++ b :: r) = .done (b :: r) s := by
  have h1 := takeWhile_append (p := fun x => decide (x ≠ b)) (s := s) (r := b :: r) (fun x hx => by
    simp only [ne_eq, decide_not, Bool.not_eq_eq_eq_not, Bool.not_true, decide_eq_false_iff_not]
    rintro rfl
    exact h hx) (by
    intro x t e
    rw [List.cons.injEq] at e
    simp [e.1])
  rw [Nom.takeWhile, PResult.done.injEq] at h1
  have h2 : s ++ b :: r ≠ [] := by simp
  have h3 : b ∈ s ++ b :: r := by simp
  rw [takeUntil.eq_def]
  cases e : s ++ b :: r with
  | nil => exact absurd e h2
  | cons x y =>
    simp only []
    rw [← e, if_pos h3, h1.1, h1.2]

theorem word_first {s : List Nat} (h : WordText s) : ∀ b t, s = b :: t → isSpace b = false := by
  intro b t e
  have hm : b ∈ s := by rw [e]; exact List.mem_cons_self
  exact isSpace_false (by rintro rfl; exact wordText_lead h (by decide) (by decide) hm) (by rintro rfl; exact wordText_lead h (by decide) (by decide) hm)

/-- The parser of the part of a transition after the instruction. -/
abbrev tailParser (cw : Codec W) : Parser Nat (Option W) :=
  chain (parsePmcfgWeight cw) fun weight => thn (Nom.takeWhile isSpace) <| thn (opt (complete parseComment)) <| ret weight

theorem noWeight {cw : Codec W} {r : List Nat} (h : ∀ b t, r = b :: t → b ≠ 35) : parsePmcfgWeight cw r = .done r none := by
  refine opt_error ?_
  cases r with
  | nil => rfl
  | cons b t =>
    have h1 : tag [35] (b :: t) = .error := tag_ne (Ne.symm (h b t rfl))
    have : ∀ (q : Parser Nat W), thn (tag [35]) q (b :: t) = .error := fun q => thn_error h1
    rw [complete, this]

theorem comment_read (r : List Nat) : opt (complete parseComment) (37 :: r) = .done [] (some ()) :=
  opt_done (complete_done (by rw [parseComment, thn_done (tag_cons _ _), thn_done takeWhile_all, ret]))

theorem no_comment {r : List Nat} (h : ∀ b t, r = b :: t → b ≠ 37) : opt (complete parseComment) r = .done r none := by
  refine opt_error ?_
  cases r with
  | nil => rfl
  | cons b t =>
    have h1 : parseComment (b :: t) = .error := thn_error (tag_ne (Ne.symm (h b t rfl)))
    rw [complete, h1]

theorem weight_read {cw : Codec W} {v : W} {w s r : List Nat} (hw : Spaces w) (hs : WordText s) (hv : cw.read s = some v)
    (hr : ∀ b t, r = b :: t → b = 32) : parsePmcfgWeight cw (35 :: (w ++ (s ++ r))) = .done r (some v) := by
  have hns : ∀ b t, s ++ r = b :: t → isSpace b = false := by
    intro b t e
    cases hs' : s with
    | nil => exact absurd hs' hs.1
    | cons x y =>
      rw [hs', List.cons_append, List.cons.injEq] at e
      exact e.1 ▸ word_first hs x y hs'
  refine opt_done (complete_done ?_)
  have h1 : isNot [32] (s ++ r) = .done r s := isNot_append hs.1 (fun b hb => by
    rw [List.mem_singleton]
    rintro rfl
    exact wordText_lead hs (by decide) (by decide) hb) (fun b t e => by simp [hr b t e])
  rw [thn_done (tag_cons _ _), thn_done (skip_spaces hw _ hns), chain_done h1, hv]
  rfl

theorem tail_read [One W] {cw : Codec W} {v : W} {tail : List Nat} (h : TailText cw v tail) :
    ∃ o : Option W, o.getD 1 = v ∧ tailParser cw tail = .done [] o := by
  cases h with
  | none => exact ⟨none, rfl, rfl⟩
  | @comment r =>
    refine ⟨none, rfl, ?_⟩
    rw [tailParser, chain_done (noWeight (r := 37 :: r) (by intro b t e; rw [List.cons.injEq] at e; omega)),
      thn_done (takeWhile_none (not_space_of_cons rfl)), thn_done (comment_read r), ret]
  | @weight v w s h1 h2 h3 =>
    refine ⟨some v, rfl, ?_⟩
    have := weight_read h1 h2 h3 (r := []) (by simp)
    have e : [35] ++ w ++ s = 35 :: (w ++ (s ++ [])) := by simp
    rw [tailParser, e, chain_done this]
    rfl
  | @both v w s w' r h1 h2 h3 h4 =>
    refine ⟨some v, rfl, ?_⟩
    have := weight_read h1 h2 h3 (r := 32 :: (w' ++ 37 :: r)) (by intro b t e; rw [List.cons.injEq] at e; exact e.1.symm)
    have e : [35] ++ w ++ s ++ [32] ++ w' ++ 37 :: r = 35 :: (w ++ (s ++ 32 :: (w' ++ 37 :: r))) := by simp
    have h5 : Spaces (32 :: w') := by
      intro b hb
      rcases List.mem_cons.mp hb with rfl | hb
      · rfl
      · exact h4 b hb
    have h6 := skip_spaces h5 (37 :: r) (not_space_of_cons rfl)
    rw [List.cons_append] at h6
    rw [tailParser, e, chain_done this, thn_done h6, thn_done (comment_read r), ret]

theorem tail_first [One W] {cw : Codec W} {v : W} {tail : List Nat} (h : TailText cw v tail) : ∀ b t, tail = b :: t → isSpace b = false := by
  cases h with
  | none => simp
  | comment => exact not_space_of_cons rfl
  | weight => exact not_space_of_cons rfl
  | both => exact not_space_of_cons rfl

theorem listText_first {c : Codec A} {l : List A} {s : List Nat} (h : ListText c l s) : ∃ t, s = 91 :: t := by
  cases h <;> exact ⟨_, rfl⟩

/-- The parser of transitions up to the instruction. -/
theorem parseTransition_front [One W] {ct : Codec T} {cw : Codec W} {instr : List Nat → Option (Option I)} {word : List T} {w₁ l w₂ body w₃ rest : List Nat}
    (h1 : Spaces w₁) (h2 : ListText ct word l) (h3 : Spaces w₂) (h4 : 41 ∉ body) (h5 : Spaces w₃) (h6 : ∀ b t, rest = b :: t → isSpace b = false) :
    parseTransition ct cw instr (ascii ['T', 'r', 'a', 'n', 's', 'i', 't', 'i', 'o', 'n'] ++ w₁ ++ l ++ w₂ ++ [40] ++ body ++ [41] ++ w₃ ++ rest) =
      (chain (parsePmcfgWeight cw) fun weight => thn (Nom.takeWhile isSpace) <| thn (opt (complete parseComment)) <|
        chain (unwrapErr (instr body)) fun i => ret ⟨word, weight.getD 1, i⟩) rest := by
  obtain ⟨l', hl'⟩ := listText_first h2
  have e : ascii ['T', 'r', 'a', 'n', 's', 'i', 't', 'i', 'o', 'n'] ++ w₁ ++ l ++ w₂ ++ [40] ++ body ++ [41] ++ w₃ ++ rest =
      ascii ['T', 'r', 'a', 'n', 's', 'i', 't', 'i', 'o', 'n'] ++ (w₁ ++ (l ++ (w₂ ++ 40 :: (body ++ 41 :: (w₃ ++ rest))))) := by
    simp only [List.append_assoc, List.singleton_append, List.cons_append, List.nil_append]
  have hd : delimited (tag [40]) (takeUntil 41) (tag [41]) (40 :: (body ++ 41 :: (w₃ ++ rest))) = .done (w₃ ++ rest) body := by
    rw [delimited, thn_done (tag_cons _ _), terminated, chain_done (takeUntil_spec h4), chain_done (tag_cons _ _), ret]
  rw [e, parseTransition, thn_done (tag_append _ _),
    thn_done (skip_spaces h1 _ (by rw [hl']; exact not_space_of_cons rfl)), chain_done (parseList_text h2 _),
    thn_done (skip_spaces h3 _ (not_space_of_cons rfl)), chain_done hd, thn_done (skip_spaces h5 _ h6)]

theorem parseTransition_text [One W] {ct : Codec T} {cw : Codec W} {read : List Nat → Option (Option I)} {instr : I → List Nat → Prop}
    (hi : ∀ i s, instr i s → read s = some (some i)) {t : Transition I T W} {s : List Nat} (h : TransitionText ct cw instr t s) :
    parseTransition ct cw read s = .done [] t := by
  cases h with
  | @mk word i v w₁ l w₂ body w₃ tail h1 h2 h3 h4 h5 h6 h7 =>
    obtain ⟨o, ho, hp⟩ := tail_read h7
    rw [parseTransition_front h1 h2 h3 h5 h6 (tail_first h7)]
    obtain ⟨r, w, hw, hp⟩ := chain_inv hp
    obtain ⟨r', _, hsp, hp⟩ := chain_inv hp
    obtain ⟨r'', _, hc, hp⟩ := chain_inv hp
    rw [ret, PResult.done.injEq] at hp
    rw [chain_done hw, thn_done hsp, thn_done hc, chain, hi i body h4]
    simp only [unwrapErr, ret, hp.1, hp.2, ho]

theorem transition_read [One W] {ct : Codec T} {cw : Codec W} {read : List Nat → Option (Option I)} {instr : I → List Nat → Prop}
    (hi : ∀ i s, instr i s → read s = some (some i)) {t : Transition I T W} {s : List Nat} (h : TransitionText ct cw instr t s) :
    Transition.fromStr ct cw read s = some (some t) := by
  rw [Transition.fromStr, parseTransition_text hi h]
  rfl

theorem transitionText_first [One W] {ct : Codec T} {cw : Codec W} {instr : I → List Nat → Prop} {t : Transition I T W} {s : List Nat}
    (h : TransitionText ct cw instr t s) : ∃ r, s = 84 :: r := by
  cases h
  exact ⟨_, rfl⟩

/-! ### Lines and files -/

theorem initial_read {c : Codec Q} {q : Q} {w s r : List Nat} (hw : Spaces w) (hs : TokenText c q s)
    (hr : r = [] ∨ (∃ r', r = 32 :: r') ∨ ∃ r', r = 37 :: r') : parseInitial c (initialTag ++ (w ++ (s ++ r))) = .done [] q := by
  have h1 : parseToken c (s ++ r) = .done r q := parseToken_tokenText hs (by
    intro b t e
    rcases hr with rfl | ⟨r', rfl⟩ | ⟨r', rfl⟩
    · cases e
    · rw [List.cons.injEq] at e; rw [← e.1]; decide
    · rw [List.cons.injEq] at e; rw [← e.1]; decide)
  rw [parseInitial, initialTag, thn_done (tag_append _ _), thn_done (skip_spaces hw _ (starts_space (tokenText_starts hs))), chain_done h1,
    thn_done takeWhile_all, ret]

theorem finals_read {c : Codec Q} {qs : List Q} {w s r : List Nat} (hw : Spaces w) (hs : ListText c qs s) :
    parseFinals c (finalTag ++ (w ++ (s ++ r))) = .done r qs := by
  obtain ⟨s', hs'⟩ := listText_first hs
  rw [parseFinals, finalTag, thn_done (tag_append _ _), thn_done (skip_spaces hw _ (by rw [hs']; exact not_space_of_cons rfl)), parseList_text hs]

theorem file_lines {D : Type _} {line : D → List Nat → Prop} {ds : List D} {s : List Nat} (h : AutFile line ds s) :
    List.Forall₂ line ds (lines s) := by
  induction h with
  | nil => exact .nil
  | @last d l h1 h2 h3 =>
    have : ∀ (l cur : List Nat), 10 ∉ l → linesGo cur l = if cur ++ l = [] then [] else [cur ++ l] := by
      intro l
      induction l with
      | nil => intro cur _; simp [linesGo]
      | cons b l ih =>
        intro cur hb
        rw [List.mem_cons, not_or] at hb
        rw [linesGo, if_neg (Ne.symm hb.1), ih _ hb.2]
        simp
    rw [lines, this l [] h2, List.nil_append, if_neg h3]
    exact .cons h1 .nil
  | @cons d l e ds s h1 h2 h3 h4 _ ih =>
    have hgo : ∀ (l cur r : List Nat), 10 ∉ l → linesGo cur (l ++ 10 :: r) =
        (if (cur ++ l).getLast? = some 13 then (cur ++ l).dropLast else cur ++ l) :: linesGo [] r := by
      intro l
      induction l with
      | nil => intro cur r _; simp [linesGo]
      | cons b l ih =>
        intro cur r hb
        rw [List.mem_cons, not_or] at hb
        rw [List.cons_append, linesGo, if_neg (Ne.symm hb.1), ih _ _ hb.2]
        simp
    have : lines (l ++ e ++ s) = l :: lines s := by
      rcases h4 with rfl | rfl
      · rw [List.append_assoc, List.singleton_append, lines, hgo l [] s h2, List.nil_append, if_neg h3, lines]
      · have e' : l ++ [13, 10] ++ s = (l ++ [13]) ++ 10 :: s := by simp
        rw [e', lines, hgo (l ++ [13]) [] s (by simp [h2])]
        simp [lines]
    rw [this]
    exact .cons h1 ih

theorem transition_line {R : Type _} {trans : R → List Nat → Prop} {t : R} {u s v : List Nat} (htr : ∀ t s, trans t s → ∃ r, s = 84 :: r)
    (hu : Whites u) (ht : trans t s) (hb : ∀ c, White c → ¬ c <:+ s) (hv : Whites v) :
    trimStart (u ++ s ++ v) = s ++ v ∧ trim (u ++ s ++ v) = s ∧ ∃ r, s ++ v = 84 :: r := by
  obtain ⟨r, hr⟩ := htr t _ ht
  refine ⟨?_, trim_append hu hr (by decide) hb hv, ⟨r ++ v, by rw [hr]; rfl⟩⟩
  rw [List.append_assoc, trimStart_append hu, hr, List.cons_append, trimStart_id (by decide)]

theorem fsaLoop_read {R : Type _} {c : Codec Q} {read : List Nat → Option (Option R)} {trans : R → List Nat → Prop}
    (hr : ∀ t s, trans t s → read s = some (some t)) (htr : ∀ t s, trans t s → ∃ r, s = 84 :: r) {ds : List (Decl Q R)} {L : List (List Nat)}
    (h : List.Forall₂ (LineText True c trans) ds L) : ∀ (init : Option Q) (fin : List Q) (ts : List R), fsaLoop c read L init fin ts =
      some (some (match Decl.lastInitial ds with | some q => some q | none => init, (Decl.lastFinals ds).getD fin, ts ++ Decl.transitions ds)) := by
  induction h with
  | nil => intro init fin ts; simp [fsaLoop, Decl.lastInitial, Decl.lastFinals, Decl.transitions]
  | @cons d l ds L hd _ ih =>
    intro init fin ts
    cases hd with
    | @initial u w q s r hu hw hs hr' =>
      have h1 : trimStart (u ++ ascii ['i', 'n', 'i', 't', 'i', 'a', 'l', ':'] ++ w ++ s ++ r) = initialTag ++ (w ++ (s ++ r)) := by
        simp only [List.append_assoc]
        rw [trimStart_append hu]
        exact trimStart_id (by decide)
      have h2 : initialTag <+: initialTag ++ (w ++ (s ++ r)) := List.prefix_append _ _
      simp only [fsaLoop, h1, if_pos h2, initial_read hw hs hr', PResult.toResult, ih, Decl.lastInitial, Decl.lastFinals, Decl.transitions]
      cases Decl.lastInitial ds <;> rfl
    | @final u w qs s r _ hu hw hs =>
      have h1 : trimStart (u ++ ascii ['f', 'i', 'n', 'a', 'l', ':'] ++ w ++ s ++ r) = finalTag ++ (w ++ (s ++ r)) := by
        simp only [List.append_assoc]
        rw [trimStart_append hu]
        exact trimStart_id (by decide)
      have h2 : finalTag <+: finalTag ++ (w ++ (s ++ r)) := List.prefix_append _ _
      have h3 : ¬ initialTag <+: finalTag ++ (w ++ (s ++ r)) := by
        intro h
        exact absurd (List.cons_prefix_cons.mp h).1 (by decide)
      simp only [fsaLoop, h1, if_neg h3, if_pos h2, finals_read hw hs, PResult.toResult, ih, Decl.lastInitial, Decl.lastFinals, Decl.transitions,
        Option.getD_some]
    | @transition u t s v hu ht hb hv =>
      obtain ⟨h1, h2, r, h3⟩ := transition_line htr hu ht hb hv
      have h4 : ¬ initialTag <+: 84 :: r := fun h => absurd (List.cons_prefix_cons.mp h).1 (by decide)
      have h5 : ¬ finalTag <+: 84 :: r := fun h => absurd (List.cons_prefix_cons.mp h).1 (by decide)
      have h6 : u ++ s ++ v ≠ [] ∧ ¬ [37] <+: 84 :: r := ⟨by rw [List.append_assoc, h3]; simp, fun h => absurd (List.cons_prefix_cons.mp h).1 (by decide)⟩
      rw [h3] at h1
      simp only [fsaLoop, h1, if_neg h4, if_neg h5, if_pos h6, h2, hr t _ ht, ih, Decl.lastInitial, Decl.lastFinals, Decl.transitions]
      simp
    | @comment u r hu =>
      have h1 : trimStart (u ++ 37 :: r) = 37 :: r := by rw [trimStart_append hu, trimStart_id (by decide)]
      have h4 : ¬ initialTag <+: 37 :: r := fun h => absurd (List.cons_prefix_cons.mp h).1 (by decide)
      have h5 : ¬ finalTag <+: 37 :: r := fun h => absurd (List.cons_prefix_cons.mp h).1 (by decide)
      have h6 : ¬ (u ++ 37 :: r ≠ [] ∧ ¬ [37] <+: 37 :: r) := fun h => h.2 ⟨r, rfl⟩
      simp only [fsaLoop, h1, if_neg h4, if_neg h5, if_neg h6, ih, Decl.lastInitial, Decl.lastFinals, Decl.transitions]
    | empty =>
      have h4 : ¬ initialTag <+: trimStart [] := by decide
      have h5 : ¬ finalTag <+: trimStart [] := by decide
      have h6 : ¬ (([] : List Nat) ≠ [] ∧ ¬ [37] <+: trimStart []) := fun h => h.1 rfl
      simp only [fsaLoop, if_neg h4, if_neg h5, if_neg h6, ih, Decl.lastInitial, Decl.lastFinals, Decl.transitions]

theorem tsaLoop_read {R : Type _} {c : Codec Q} {read : List Nat → Option (Option R)} {trans : R → List Nat → Prop}
    (hr : ∀ t s, trans t s → read s = some (some t)) (htr : ∀ t s, trans t s → ∃ r, s = 84 :: r) {ds : List (Decl Q R)} {L : List (List Nat)}
    (h : List.Forall₂ (LineText False c trans) ds L) : ∀ (init : Option Q) (ts : List R), tsaLoop c read L init ts =
      some (some (match Decl.lastInitial ds with | some q => some q | none => init, ts ++ Decl.transitions ds)) := by
  induction h with
  | nil => intro init ts; simp [tsaLoop, Decl.lastInitial, Decl.transitions]
  | @cons d l ds L hd _ ih =>
    intro init ts
    cases hd with
    | @initial u w q s r hu hw hs hr' =>
      have h1 : trimStart (u ++ ascii ['i', 'n', 'i', 't', 'i', 'a', 'l', ':'] ++ w ++ s ++ r) = initialTag ++ (w ++ (s ++ r)) := by
        simp only [List.append_assoc]
        rw [trimStart_append hu]
        exact trimStart_id (by decide)
      have h2 : initialTag <+: initialTag ++ (w ++ (s ++ r)) := List.prefix_append _ _
      simp only [tsaLoop, h1, if_pos h2, initial_read hw hs hr', PResult.toResult, ih, Decl.lastInitial, Decl.transitions]
      cases Decl.lastInitial ds <;> rfl
    | final h => exact h.elim
    | @transition u t s v hu ht hb hv =>
      obtain ⟨h1, h2, r, h3⟩ := transition_line htr hu ht hb hv
      have h4 : ¬ initialTag <+: 84 :: r := fun h => absurd (List.cons_prefix_cons.mp h).1 (by decide)
      have h6 : u ++ s ++ v ≠ [] ∧ ¬ [37] <+: 84 :: r := ⟨by rw [List.append_assoc, h3]; simp, fun h => absurd (List.cons_prefix_cons.mp h).1 (by decide)⟩
      rw [h3] at h1
      simp only [tsaLoop, h1, if_neg h4, if_pos h6, h2, hr t _ ht, ih, Decl.lastInitial, Decl.transitions]
      simp
    | @comment u r hu =>
      have h1 : trimStart (u ++ 37 :: r) = 37 :: r := by rw [trimStart_append hu, trimStart_id (by decide)]
      have h4 : ¬ initialTag <+: 37 :: r := fun h => absurd (List.cons_prefix_cons.mp h).1 (by decide)
      have h6 : ¬ (u ++ 37 :: r ≠ [] ∧ ¬ [37] <+: 37 :: r) := fun h => h.2 ⟨r, rfl⟩
      simp only [tsaLoop, h1, if_neg h4, if_neg h6, ih, Decl.lastInitial, Decl.transitions]
    | empty =>
      have h4 : ¬ initialTag <+: trimStart [] := by decide
      have h6 : ¬ (([] : List Nat) ≠ [] ∧ ¬ [37] <+: trimStart []) := fun h => h.1 rfl
      simp only [tsaLoop, if_neg h4, if_neg h6, ih, Decl.lastInitial, Decl.transitions]

end

end Rustomata
