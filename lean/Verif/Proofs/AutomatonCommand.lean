import Verif.Spec.AutomatonCommand
import Verif.Proofs.Reading
import Verif.Proofs.CfgMerge
import Verif.Proofs.Pda
import Verif.Proofs.AutomatonText

/-!
# Auxiliary results for the commands that print automata
-/

namespace Rustomata
open Rustomata.Spec
variable {A T W : Type _}

/-! ### Texts of transitions -/

theorem quotes_eq (a : A → List Nat) (l : List A) : commaSep (fun x => [34] ++ a x ++ [34]) l = quotes (l.map a) := by
  induction l with
  | nil => rfl
  | cons x l ih =>
    cases l with
    | nil => rfl
    | cons y l =>
      rw [commaSep, ih]
      simp only [List.map_cons, quotes]
      simp [ascii]

theorem replaceLine_eq (debug : T → List Nat) (a : A → List Nat) (cw : Codec W) (t : Transition (PdInstr A) T W) :
    Transition.text debug (PdInstr.text a) cw t ++ [10] =
      replaceLine (commaSep debug t.word) (quotes (t.instruction.current.map a)) (quotes (t.instruction.new.map a)) (cw.text t.weight) := by
  simp only [Transition.text, PdInstr.text, quotes_eq, replaceLine]
  simp [ascii]

/-- The text of a freshly built automaton. -/
theorem PDA.Built.text [DecidableEq A] [DecidableEq T] [AddMonoid W] {P : PDA A T W} {ts L : List (Transition (PdInstr A) T W)} {x : A} {xs : List A}
    (h : PDA.Built P ts (x :: xs) L) (hL : P.listTransitions = some L) (a : A → List Nat) (debug : T → List Nat) (cw : Codec W) :
    P.text a debug cw = some (ascii "initial: stack: [".toList ++ spaceSep a (x :: xs) ++ ascii "], empty:".toList ++ a x ++ ascii "\n\n".toList ++
      L.flatMap fun t => Transition.text debug (PdInstr.text a) cw t ++ [10]) := by
  unfold PDA.text PDA.initialStore
  rw [hL, Option.bind_some, PushDown.integLaws.unInteg.2 h.init, Option.bind_some]
  simp only [PushDown.text, PushDown.empty, List.getElem?_cons_zero, Option.map_some]
  simp [ascii]

theorem pushString_map (c : List (LetterT (List Nat) (List Nat))) :
    (CFG.pushString c).map (PushState.text (fun s => s) fun s => s) = c.reverse.map fun x => parens (letterName x) := by
  have h : ∀ (c : List (LetterT (List Nat) (List Nat))) (st : List (PushState (List Nat) (List Nat))),
      (c.foldl (fun st v => CFG.pushState v :: st) st).map (PushState.text (fun s => s) fun s => s) =
        c.reverse.map (fun x => parens (letterName x)) ++ st.map (PushState.text (fun s => s) fun s => s) := by
    intro c
    induction c with
    | nil => intro st; rfl
    | cons x c ih =>
      intro st
      rw [List.foldl_cons, ih]
      cases x <;> simp [CFG.pushState, PushState.text, parens, letterName]
  have := h c []
  simpa [CFG.pushString] using this

/-! ### Lines -/

theorem prefix_of_append {p l s s' : List Nat} {b : Nat} (hb : b ∉ p) (h : p ++ s = l ++ b :: s') : p <+: l := by
  rcases List.append_eq_append_iff.1 h with ⟨u, h1, h2⟩ | ⟨u, h1, h2⟩
  · exact ⟨u, h1.symm⟩
  · cases u with
    | nil => rw [List.append_nil] at h1; rw [h1]
    | cons c u =>
      rw [List.cons_append, List.cons.injEq] at h2
      exact absurd (by rw [h1, h2.1]; simp) hb

theorem linesOf_first {ls : List (List Nat)} {p s : List Nat} (h : LinesOf ls (p ++ s)) (hp : p ≠ []) (hn : 10 ∉ p) (hr : p.getLast? ≠ some 13) :
    ∃ l ∈ ls, p <+: l := by
  generalize ht : p ++ s = t at h
  cases h with
  | nil => simp [hp] at ht
  | last h1 h2 => exact ⟨t, by simp, s, ht⟩
  | @lf l ls s' h1 h2 h3 => exact ⟨l, by simp, prefix_of_append hn ht⟩
  | @crlf l ls s' h1 h3 =>
    refine ⟨l, by simp, ?_⟩
    have : p <+: l ++ [13] := prefix_of_append (b := 10) (s' := s') hn (by rw [ht]; simp)
    rcases List.prefix_concat_iff.1 this with h | h
    · rw [h] at hr; simp at hr
    · exact h

/-- The line that begins after a line break. -/
theorem linesOf_after {ls : List (List Nat)} {p s t : List Nat} (h : LinesOf ls t) (hp : p ≠ []) (hn : 10 ∉ p) (hr : p.getLast? ≠ some 13) :
    ∀ {u : List Nat}, t = u ++ 10 :: (p ++ s) → ∃ l ∈ ls, p <+: l := by
  induction h with
  | nil => intro u h; simp at h
  | @last l h1 h2 => rintro u rfl; simp at h2
  | @lf l ls s' h1 h2 h3 ih =>
    intro u h
    rcases List.append_eq_append_iff.1 h with ⟨v, h4, h5⟩ | ⟨v, h4, h5⟩
    · cases v with
      | nil =>
        simp only [List.nil_append, List.cons.injEq, true_and] at h5
        subst h5
        obtain ⟨l', h6, h7⟩ := linesOf_first h3 hp hn hr
        exact ⟨l', by simp [h6], h7⟩
      | cons c v =>
        rw [List.cons_append, List.cons.injEq] at h5
        obtain ⟨l', h6, h7⟩ := ih h5.2
        exact ⟨l', by simp [h6], h7⟩
    · cases v with
      | nil =>
        simp only [List.nil_append, List.cons.injEq, true_and] at h5
        subst h5
        obtain ⟨l', h6, h7⟩ := linesOf_first h3 hp hn hr
        exact ⟨l', by simp [h6], h7⟩
      | cons c v =>
        rw [List.cons_append, List.cons.injEq] at h5
        rw [h4, ← h5.1] at h1
        simp at h1
  | @crlf l ls s' h1 h3 ih =>
    intro u h
    have h' : (l ++ [13]) ++ 10 :: s' = u ++ 10 :: (p ++ s) := by rw [← h]; simp
    rcases List.append_eq_append_iff.1 h' with ⟨v, h4, h5⟩ | ⟨v, h4, h5⟩
    · cases v with
      | nil =>
        simp only [List.nil_append, List.cons.injEq, true_and] at h5
        subst h5
        obtain ⟨l', h6, h7⟩ := linesOf_first h3 hp hn hr
        exact ⟨l', by simp [h6], h7⟩
      | cons c v =>
        rw [List.cons_append, List.cons.injEq] at h5
        obtain ⟨l', h6, h7⟩ := ih h5.2
        exact ⟨l', by simp [h6], h7⟩
    · cases v with
      | nil =>
        simp only [List.nil_append, List.cons.injEq, true_and] at h5
        subst h5
        obtain ⟨l', h6, h7⟩ := linesOf_first h3 hp hn hr
        exact ⟨l', by simp [h6], h7⟩
      | cons c v =>
        rw [List.cons_append, List.cons.injEq] at h5
        have : 10 ∈ l ++ [13] := by rw [h4, ← h5.1]; simp
        simp [h1] at this

/-! ### Words -/

theorem splitWhite_sep (s r : List Nat) : splitWhite (s ++ 32 :: r) = splitWhite s ++ splitWhite r :=
  splitWhite_iff.mpr (wordsText_append (splitWhite_inv s) (splitWhite_inv r) white_space)

theorem splitWhite_ne {b : Nat} {s : List Nat} (h : isWhite b = false) : splitWhite (b :: s) ≠ [] := by
  intro e
  cases splitWhite_iff.mp e with
  | nil hw =>
    rw [whites_bytes hw List.mem_cons_self] at h
    cases h

/-- The beginning of the printed transition for an initial nonterminal. -/
def pushStart (A : List Nat) : List Nat := ascii "Push 0 I (\"".toList ++ A ++ ascii "\"".toList ++ [32] ++ arrow ++ [32] ++ [91]

theorem pushStart_words (A s : List Nat) : 6 ≤ (splitWhite (pushStart A ++ s)).length := by
  have h : pushStart A ++ s = ascii "Push".toList ++ 32 :: (ascii "0".toList ++ 32 :: (ascii "I".toList ++ 32 :: ((40 :: 34 :: (A ++ [34])) ++ 32 :: (arrow ++ 32 :: (91 :: s))))) := by
    simp [pushStart, ascii]
  rw [h, splitWhite_sep, splitWhite_sep, splitWhite_sep, splitWhite_sep, splitWhite_sep]
  have h1 : (splitWhite (40 :: 34 :: (A ++ [34]))).length ≠ 0 := fun h => splitWhite_ne (by decide) (List.length_eq_zero_iff.1 h)
  have h2 : (splitWhite (91 :: s)).length ≠ 0 := fun h => splitWhite_ne (by decide) (List.length_eq_zero_iff.1 h)
  have h3 : (splitWhite (ascii "Push".toList)).length = 1 := by decide
  have h4 : (splitWhite (ascii "0".toList)).length = 1 := by decide
  have h5 : (splitWhite (ascii "I".toList)).length = 1 := by decide
  have h6 : (splitWhite arrow).length = 1 := by decide
  simp only [List.length_append]
  omega

theorem tsInstrText_words {c : Codec A} {k : TsInstr A} {t : List Nat} (h : TsInstrText c k t) : (splitWhite t).length ≤ 5 := by
  cases h with
  | up _ _ _ _ h => rw [splitWhite_words h]; simp
  | push _ _ _ h => rw [splitWhite_words h]; simp
  | down _ _ _ h => rw [splitWhite_words h]; simp

theorem skips_space {c : Nat} {r i : List Nat} (hc : isSpace c = false) (h : Skips (32 :: c :: r) i) : i = c :: r := by
  obtain ⟨w, hw⟩ := skips_iff.1 h
  rw [show (32 :: c :: r : List Nat) = [32] ++ c :: r from rfl, takeWhile_append (s := [32]) (r := c :: r) (by simp [isSpace]) (by
    rintro b t h
    rw [List.cons.injEq] at h
    rw [← h.1]
    exact hc)] at hw
  cases hw
  rfl

/-- A line that begins like the printed transition for an initial nonterminal cannot be read. -/
theorem pushStart_not_read [One W] {ct : Codec T} {cw : Codec W} {ca : Codec A} {t : Transition (TsInstr A) T W} {B s : List Nat} (hB : 41 ∉ B)
    (h : TransitionReads ct cw (TsInstrText ca) t (ascii "Transition [] (".toList ++ pushStart B ++ s)) : False := by
  have key : ∀ (i i₁ i₂ body i₃ : List Nat) word k, Skips i i₁ → VecReads (TokenReads ct) 91 93 word i₁ i₂ → Skips i₂ (40 :: (body ++ 41 :: i₃)) → 41 ∉ body →
      TsInstrText ca k body → i = 32 :: 91 :: 93 :: 32 :: 40 :: (pushStart B ++ s) → False := by
    rintro i i₁ i₂ body i₃ word k h1 h2 h3 h4 h5 rfl
    obtain rfl := skips_space (by decide) h1
    have h6 := (parseTokens_iff ct (.inr rfl) _ _ _).2 h2
    have h7 := parseList_text (c := ct) (l := []) (.nil (w := []) (by simp [Spaces])) (32 :: 40 :: (pushStart B ++ s))
    have h8 := h6.symm.trans h7
    cases h8
    have h9 := skips_space (by decide) h3
    rw [List.cons.injEq] at h9
    have h10 : pushStart B <+: body := by
      refine prefix_of_append (b := 41) (s := s) (s' := i₃) ?_ h9.2.symm
      simp [pushStart, ascii, arrow, hB]
    obtain ⟨u, rfl⟩ := h10
    have := pushStart_words B u
    have := tsInstrText_words h5
    omega
  have e : ascii "Transition [] (".toList ++ pushStart B ++ s = ascii ['T', 'r', 'a', 'n', 's', 'i', 't', 'i', 'o', 'n'] ++ 32 :: 91 :: 93 :: 32 :: 40 :: (pushStart B ++ s) := by
    simp [ascii]
  rw [e] at h
  generalize hx : ascii ['T', 'r', 'a', 'n', 's', 'i', 't', 'i', 'o', 'n'] ++ 32 :: 91 :: 93 :: 32 :: 40 :: (pushStart B ++ s) = x at h
  cases h with
  | weight h1 h2 h3 h4 h5 _ _ => exact key _ _ _ _ _ _ _ h1 h2 h3 h4 h5 (List.append_cancel_left hx).symm
  | plain h1 h2 h3 h4 h5 _ _ => exact key _ _ _ _ _ _ _ h1 h2 h3 h4 h5 (List.append_cancel_left hx).symm

theorem trimsStart_cons {b : Nat} {l s : List Nat} (hb : isWhite b = false) (h : TrimsStart (b :: l) s) : s = b :: l := by
  obtain ⟨u, h1, h2, _⟩ := h
  cases u with
  | nil => exact h1.symm
  | cons c u =>
    rw [List.cons_append, List.cons.injEq] at h1
    have := whites_bytes h2 (b := c) (by simp)
    rw [← h1.1, hb] at this
    cases this

theorem declReads_pushStart [One W] {ct : Codec T} {cw : Codec W} {ca : Codec A} {d : Decl A (Transition (TsInstr A) T W)} {B s : List Nat} (hB : 41 ∉ B)
    (h : DeclReads False ca (TransitionReads ct cw (TsInstrText ca)) d (ascii "Transition [] (".toList ++ pushStart B ++ s)) : False := by
  obtain ⟨l, hl⟩ : ∃ l, ascii "Transition [] (".toList ++ pushStart B ++ s = 84 :: l := ⟨_, rfl⟩
  have hw : isWhite 84 = false := by decide
  generalize hx : ascii "Transition [] (".toList ++ pushStart B ++ s = x at h
  rw [hx] at hl
  cases h with
  | initial h1 _ _ =>
    rw [hl] at h1
    have := trimsStart_cons hw h1
    simp [ascii] at this
  | final h _ _ _ => exact h
  | comment h1 =>
    rw [hl] at h1
    have := trimsStart_cons hw h1
    simp at this
  | empty => cases hl
  | @transition t _ s' h1 h2 =>
    obtain ⟨u, v, h3, h4, h5, _, _⟩ := h1
    cases u with
    | cons c u =>
      rw [hl, List.cons_append, List.cons_append, List.cons.injEq] at h3
      have := whites_bytes h4 (b := c) (by simp)
      rw [← h3.1, hw] at this
      cases this
    | nil =>
      rw [List.nil_append, ← hx] at h3
      rcases List.append_eq_append_iff.1 h3 with ⟨r, h6, _⟩ | ⟨r, h6, h7⟩
      · rw [h6] at h2
        exact pushStart_not_read hB h2
      · cases hr : r.reverse with
        | nil =>
          rw [List.reverse_eq_nil_iff] at hr
          subst hr
          rw [List.append_nil] at h6
          have h8 : TransitionReads ct cw (TsInstrText ca) t (ascii "Transition [] (".toList ++ pushStart B ++ []) := by rw [List.append_nil, h6]; exact h2
          exact pushStart_not_read hB h8
        | cons c r' =>
          have h9 : r = r'.reverse ++ [c] := by rw [← List.reverse_reverse r, hr]; simp
          have h10 : c = 91 := by
            have := congrArg List.getLast? h6
            rw [h9, pushStart, ← List.append_assoc, List.getLast?_concat, ← List.append_assoc, List.getLast?_concat] at this
            exact (Option.some.inj this).symm
          have := whites_bytes h5 (b := c) (by rw [h7, h9]; simp)
          rw [h10] at this
          exact absurd this (by decide)

end Rustomata
