import Verif.Props.AutomatonText
import Verif.Props.Tsa

/-!
# Property C61: printing and parsing of automata
-/

namespace Rustomata
open Nom Spec

section
variable {A Q T W I : Type _}

namespace Spec

/-- A stack symbol that is recovered from its text, whose text is not empty and contains neither white space nor `)`. -/
def LabelText (c : Codec A) (a : A) : Prop := c.read (c.text a) = some a ∧ WordText (c.text a) ∧ 41 ∉ c.text a

/-- The numbers and stack symbols of an instruction. -/
def GoodTsInstr (c : Codec A) : TsInstr A → Prop
  | .up n x y z => n < 2 ^ 64 ∧ LabelText c x ∧ LabelText c y ∧ LabelText c z
  | .push n x z => n < 2 ^ 64 ∧ LabelText c x ∧ LabelText c z
  | .down x y z => LabelText c x ∧ LabelText c y ∧ LabelText c z

/-- The parts of a transition: what `Debug` prints for terminals can be parsed and contains no line break. -/
def GoodTransition (ct : Codec T) (debug : T → List Nat) (cw : Codec W) (good : I → Prop) (t : Transition I T W) : Prop :=
  (∀ a ∈ t.word, TokenText ct a (debug a) ∧ 10 ∉ debug a) ∧ GoodWeight cw t.weight ∧ good t.instruction

end Spec

theorem spaces_one : Spaces [32] := by simp [Spaces]

theorem spaces_nil : Spaces [] := by simp [Spaces]

theorem commaSep_list {ct : Codec T} {debug : T → List Nat} {word : List T} (h : ∀ a ∈ word, TokenText ct a (debug a)) :
    ListText ct word ([91] ++ commaSep debug word ++ [93]) := by
  cases word with
  | nil => exact .nil (w := []) spaces_nil
  | cons a l =>
    have key : ∀ (l : List T) (a : T), (∀ b ∈ a :: l, TokenText ct b (debug b)) → ElemsText ct (a :: l) (commaSep debug (a :: l)) := by
      intro l
      induction l with
      | nil =>
        intro a h
        have := ElemsText.one (h a List.mem_cons_self) spaces_nil
        rwa [List.append_nil] at this
      | cons b l ih =>
        intro a h
        have := ElemsText.cons (h a List.mem_cons_self) spaces_nil spaces_one (ih b fun c hc => h c (List.mem_cons_of_mem _ hc))
        simpa [commaSep, ascii] using this
    have := ListText.elems (w := []) spaces_nil (key l a h)
    simpa using this

theorem goodWeight_word {cw : Codec W} {v : W} (h : GoodWeight cw v) : WordText (cw.text v) := by
  refine wordText_of h.2.1 fun b hb => ?_
  have := h.2.2 b hb
  exact not_white this.1 (by omega)

theorem natText_number {n : Nat} (h : n < 2 ^ 64) : NumberText n (natText n) := by
  refine ⟨h, ?_⟩
  by_cases h0 : n = 0
  · exact ⟨[0], by simp, by simp, by simp [h0], .inl (by simp [natText, h0])⟩
  · refine ⟨Nat.digits 10 n, ?_, ?_, Nat.ofDigits_digits 10 n, .inl (by rw [natText, if_neg h0])⟩
    · exact fun h => h0 (Nat.digits_eq_nil_iff_eq_zero.mp h)
    · exact fun d hd => Nat.digits_lt_base (by decide) hd

theorem natText_word (n : Nat) : WordText (natText n) ∧ 41 ∉ natText n := by
  have h := natText_digit n
  refine ⟨wordText_of (natText_ne_nil n) fun b hb => ?_, fun hb => ?_⟩
  · have := h b hb
    simp only [Bool.and_eq_true, decide_eq_true_eq] at this
    exact not_white (by omega) (by omega)
  · have := h 41 hb
    simp at this

theorem words_one {s : List Nat} (h : WordText s) : WordsText [s] s := by
  have := WordsText.last (w := []) whites_nil h
  simpa using this

theorem words_cons {s t : List Nat} {l : List (List Nat)} (h : WordText s) (ht : WordsText l t) : WordsText (s :: l) (s ++ 32 :: t) := by
  have := WordsText.cons (w := []) (c := [32]) whites_nil h white_space ht
  simpa using this

theorem tsInstr_text {c : Codec A} {i : TsInstr A} (h : GoodTsInstr c i) : ∃ body, TsInstr.text c i = [40] ++ body ++ [41] ∧ 41 ∉ body ∧ 10 ∉ body ∧
    TsInstrText c i body := by
  have h10 : ∀ {s : List Nat}, WordText s → 10 ∉ s := fun h => wordText_lead h (by decide) (by decide)
  cases i with
  | up n x y z =>
    obtain ⟨hn, hx, hy, hz⟩ := h
    obtain ⟨k1, k2⟩ := natText_word n
    refine ⟨ascii ['U', 'p'] ++ 32 :: (natText n ++ 32 :: (c.text x ++ 32 :: (c.text y ++ 32 :: c.text z))), by simp [TsInstr.text, ascii], ?_, ?_,
      .up (natText_number hn) hx.1 hy.1 hz.1
      (words_cons (wordText_of (by decide) (by decide)) <| words_cons k1 <| words_cons hx.2.1 <| words_cons hy.2.1 <| words_one hz.2.1)⟩
    · simp [ascii, k2, hx.2.2, hy.2.2, hz.2.2]
    · simp [ascii, h10 k1, h10 hx.2.1, h10 hy.2.1, h10 hz.2.1]
  | push n x z =>
    obtain ⟨hn, hx, hz⟩ := h
    obtain ⟨k1, k2⟩ := natText_word n
    refine ⟨ascii ['P', 'u', 's', 'h'] ++ 32 :: (natText n ++ 32 :: (c.text x ++ 32 :: c.text z)), by simp [TsInstr.text, ascii], ?_, ?_,
      .push (natText_number hn) hx.1 hz.1 (words_cons (wordText_of (by decide) (by decide)) <| words_cons k1 <| words_cons hx.2.1 <| words_one hz.2.1)⟩
    · simp [ascii, k2, hx.2.2, hz.2.2]
    · simp [ascii, h10 k1, h10 hx.2.1, h10 hz.2.1]
  | down x y z =>
    obtain ⟨hx, hy, hz⟩ := h
    refine ⟨ascii ['D', 'o', 'w', 'n'] ++ 32 :: (c.text x ++ 32 :: (c.text y ++ 32 :: c.text z)), by simp [TsInstr.text, ascii], ?_, ?_,
      .down hx.1 hy.1 hz.1 (words_cons (wordText_of (by decide) (by decide)) <| words_cons hx.2.1 <| words_cons hy.2.1 <| words_one hz.2.1)⟩
    · simp [ascii, hx.2.2, hy.2.2, hz.2.2]
    · simp [ascii, h10 hx.2.1, h10 hy.2.1, h10 hz.2.1]

theorem word_line {debug : T → List Nat} {word : List T} (h : ∀ a ∈ word, 10 ∉ debug a) : 10 ∉ commaSep debug word := by
  intro hb
  rcases mem_commaSep hb with ⟨a, ha, hb⟩ | hb | hb
  · exact h a ha hb
  · omega
  · omega

theorem tsTransition_text [One W] {ca : Codec A} {ct : Codec T} {debug : T → List Nat} {cw : Codec W} {t : Transition (TsInstr A) T W}
    (h : GoodTransition ct debug cw (GoodTsInstr ca) t) :
    TransitionText ct cw (TsInstrText ca) t (Transition.text debug (TsInstr.text ca) cw t) ∧ 10 ∉ Transition.text debug (TsInstr.text ca) cw t ∧
      ∃ s b, Transition.text debug (TsInstr.text ca) cw t = s ++ [b] ∧ 33 ≤ b ∧ b ≤ 126 := by
  obtain ⟨h1, h2, h3⟩ := h
  obtain ⟨body, e, k1, k2, k3⟩ := tsInstr_text h3
  refine ⟨?_, ?_, ?_⟩
  · have := TransitionText.mk (cw := cw) spaces_one (commaSep_list fun a ha => (h1 a ha).1) spaces_one k3 k1 (w₃ := [32, 32]) (by simp [Spaces])
      (.weight spaces_one (goodWeight_word h2) h2.1)
    rw [Transition.text, e]
    simpa [ascii] using this
  · have hw : 10 ∉ cw.text t.weight := wordText_lead (goodWeight_word h2) (by decide) (by decide)
    rw [Transition.text, e]
    simp [ascii, hw, k2, word_line fun a ha => (h1 a ha).2]
  · obtain ⟨s, b, hs⟩ := (List.eq_nil_or_concat (cw.text t.weight)).resolve_left h2.2.1
    have hb : b ∈ cw.text t.weight := by rw [hs]; simp
    obtain ⟨x, hx⟩ : ∃ x, Transition.text debug (TsInstr.text ca) cw t = x ++ cw.text t.weight := ⟨_, rfl⟩
    exact ⟨x ++ s, b, by rw [hx, hs, List.concat_eq_append, List.append_assoc], h2.2.2 b hb⟩

theorem transition_lines {R : Type _} {c : Codec Q} {fin : Prop} {trans : R → List Nat → Prop} {text : R → List Nat} : ∀ {ts : List R},
    (∀ t ∈ ts, trans t (text t) ∧ 10 ∉ text t ∧ ∃ s b, text t = s ++ [b] ∧ 33 ≤ b ∧ b ≤ 126) →
      AutFile (LineText fin c trans) (ts.map .transition) (ts.flatMap fun t => text t ++ [10])
  | [], _ => .nil
  | t :: ts, h => by
    obtain ⟨h1, h2, s, b, e, hb⟩ := h t List.mem_cons_self
    have hl : LineText fin c trans (.transition t) (text t) := by
      have := LineText.transition (fin := fin) (c := c) (u := []) (v := []) (s := text t) (t := t) (trans := trans) whites_nil h1
        (by rw [e]; exact no_white_suffix (not_white hb.1 (by omega)) s) whites_nil
      simpa using this
    refine .cons hl h2 ?_ (.inl rfl) (transition_lines fun t' ht' => h t' (List.mem_cons_of_mem _ ht'))
    rw [e]
    simp only [List.getLast?_append, List.getLast?_singleton, Option.some_or, ne_eq, Option.some.injEq]
    omega

end

namespace Props

section
variable {A Q T W : Type _} [One W] [DecidableEq A] [DecidableEq T]

/-- C61 for transitions of tree stack automata: a printed transition is parsed as the same transition. -/
theorem C61_ts_transition {ca : Codec A} {ct : Codec T} {debug : T → List Nat} {cw : Codec W} {t : Transition (TsInstr A) T W}
    (h : GoodTransition ct debug cw (GoodTsInstr ca) t) :
    Transition.fromStr ct cw (TsInstr.fromStr ca) (Transition.text debug (TsInstr.text ca) cw t) = some (some t) :=
  C60_ts_transition (tsTransition_text h).1

/-- C61 for tree stack automata: a printed automaton is parsed as an automaton with the same transitions, but the initial symbol is what is read
from the number of the initial symbol. -/
theorem C61_tsa_partial {ca : Codec A} {ct : Codec T} {debug : T → List Nat} {cw : Codec W} {P : TSA A T W} {ts : List (Transition (TsInstr A) T W)}
    (hts : P.listTransitions = some ts) (h : ∀ t ∈ ts, GoodTransition ct debug cw (GoodTsInstr ca) t) {a : A}
    (ha : ca.read (natText P.initial.currentSymbol) = some a) :
    ∃ s, TSA.text ca debug cw P = some s ∧ TSA.fromStr ca ct cw s = some (some (TSA.new ts (.new a))) := by
  refine ⟨_, by rw [TSA.text, hts]; rfl, ?_⟩
  have hf := transition_lines (fin := False) (c := ca) (trans := TransitionText ct cw (TsInstrText ca)) (text := Transition.text debug (TsInstr.text ca) cw)
    (ts := ts) (fun t ht => tsTransition_text (h t ht))
  have hempty : AutFile (LineText False ca (TransitionText ct cw (TsInstrText ca))) (.nothing :: ts.map .transition)
      ([10] ++ ts.flatMap fun t => Transition.text debug (TsInstr.text ca) cw t ++ [10]) := by
    have := AutFile.cons (l := []) (e := [10]) LineText.empty (by simp) (by simp) (.inl rfl) hf
    simpa using this
  have hnat : TokenText ca a (natText P.initial.currentSymbol) := by
    refine .bare (natText_ne_nil _) (fun b hb => ?_) ha
    have := natText_digit _ b hb
    simp only [Bool.and_eq_true, decide_eq_true_eq] at this
    simp only [List.mem_cons, List.not_mem_nil, or_false, not_or]
    omega
  have hinit := LineText.initial (fin := False) (u := []) (w := [32]) (r := []) (trans := TransitionText ct cw (TsInstrText ca)) whites_nil spaces_one hnat
    (.inl rfl)
  have hfile := AutFile.cons (e := [10]) hinit (by
      have := natText_line P.initial.currentSymbol
      simp [ascii, this]) (by
      obtain ⟨s, b, hs⟩ := (List.eq_nil_or_concat (natText P.initial.currentSymbol)).resolve_left (natText_ne_nil _)
      have hb : b ∈ natText P.initial.currentSymbol := by rw [hs]; simp
      have := natText_digit _ b hb
      simp only [Bool.and_eq_true, decide_eq_true_eq] at this
      rw [hs, List.concat_eq_append, List.append_nil, ← List.append_assoc]
      simp only [List.getLast?_append, List.getLast?_singleton, Option.some_or, ne_eq, Option.some.injEq]
      omega) (.inl rfl) hempty
  have := C60_tsa hfile (a := a) (by
    have : ∀ l : List (Transition (TsInstr A) T W), Decl.lastInitial (l.map (Decl.transition (Q := A))) = none := by
      intro l
      induction l with
      | nil => rfl
      | cons x l ih => exact ih
    simp [Decl.lastInitial, this])
  have htr : Decl.transitions (Decl.initial a :: Decl.nothing :: ts.map Decl.transition) = ts := by
    have : ∀ l : List (Transition (TsInstr A) T W), Decl.transitions (l.map (Decl.transition (Q := A))) = l := by
      intro l
      induction l with
      | nil => rfl
      | cons x l ih => exact congrArg _ ih
    exact this ts
  rw [htr] at this
  simpa [ascii] using this

/-- C61 for tree stack automata whose initial symbol has the text `0`: the parsed automaton has the same transitions and the same initial storage. -/
theorem C61_tsa_zero_partial {ca : Codec A} {ct : Codec T} {debug : T → List Nat} {cw : Codec W} {ts : List (Transition (TsInstr A) T W)}
    (h : ∀ t ∈ ts, GoodTransition ct debug cw (GoodTsInstr ca) t) {a : A} (ha : ca.read [48] = some a) :
    ∃ s ts', TSA.text ca debug cw (TSA.new ts (.new a)) = some s ∧ ts'.Perm ts ∧ TSA.fromStr ca ct cw s = some (some (TSA.new ts' (.new a))) := by
  obtain ⟨⟨L, hL, hp⟩, _⟩ := C15_tsa_new (W := W) ts (TreeStack.new a)
  have h0 : (TSA.new ts (TreeStack.new a)).initial.currentSymbol = 0 := rfl
  obtain ⟨s, h1, h2⟩ := C61_tsa_partial (P := TSA.new ts (TreeStack.new a)) (ct := ct) hL (fun t ht => h t (hp.mem_iff.mp ht)) (a := a)
    (by rw [h0]; exact ha)
  exact ⟨s, L, h1, hp, h2⟩

end

section
variable {Q T W : Type _} [One W] [DecidableEq Q] [DecidableEq T]

/-- C61: a printed transition of a finite state automaton cannot be parsed, as the instruction is printed without parentheses (unless the text of
the source state begins with a parenthesis or with a space). -/
theorem C61_fs_transition {cq : Codec Q} {ct : Codec T} {debug : T → List Nat} {cw : Codec W} {t : Transition (FsInstr Q) T W}
    (hw : ∀ a ∈ t.word, TokenText ct a (debug a)) (hs : ∀ b r, cq.text t.instruction.source = b :: r → b ≠ 40 ∧ b ≠ 32 ∧ b ≠ 9) :
    Transition.fromStr ct cw (FsInstr.fromStr cq) (Transition.text debug (FsInstr.text cq) cw t) = some none := by
  obtain ⟨b, r, e, hb⟩ : ∃ b r, FsInstr.text cq t.instruction ++ (ascii [' ', ' ', '#', ' '] ++ cw.text t.weight) = b :: r ∧ (b = 32 ∨ b ≠ 40 ∧ b ≠ 9) := by
    rw [FsInstr.text]
    cases h : cq.text t.instruction.source with
    | nil => exact ⟨32, _, rfl, .inl rfl⟩
    | cons b r => exact ⟨b, _, rfl, .inr ⟨(hs b r h).1, (hs b r h).2.2⟩⟩
  obtain ⟨w₂, b', r', e', hw₂, hb'⟩ : ∃ w₂ b' r', 32 :: b :: r = w₂ ++ b' :: r' ∧ Spaces w₂ ∧ b' ≠ 40 ∧ isSpace b' = false := by
    rw [FsInstr.text] at e
    cases h : cq.text t.instruction.source with
    | nil =>
      rw [h] at e
      simp only [arrow, List.nil_append, List.cons_append, List.append_assoc, List.cons.injEq] at e
      refine ⟨[32, 32], 0xE2, r.tail, ?_, by simp [Spaces], by decide, rfl⟩
      rw [← e.1, ← e.2]
      rfl
    | cons c r₁ =>
      have := hs c r₁ h
      rw [h] at e
      simp only [List.cons_append, List.append_assoc, List.cons.injEq] at e
      exact ⟨[32], b, r, rfl, spaces_one, by rw [← e.1]; exact this.1, isSpace_false (by rw [← e.1]; exact this.2.1) (by rw [← e.1]; exact this.2.2)⟩
  have ht : Transition.text debug (FsInstr.text cq) cw t = ascii ['T', 'r', 'a', 'n', 's', 'i', 't', 'i', 'o', 'n'] ++ ([32] ++
      (([91] ++ commaSep debug t.word ++ [93]) ++ (w₂ ++ b' :: r'))) := by
    rw [← e', ← e, Transition.text]
    simp [ascii]
  have hd : delimited (tag [40]) (takeUntil 41) (tag [41]) (b' :: r') = .error := thn_error (tag_ne (Ne.symm hb'.1))
  have hp : parseTransition ct cw (FsInstr.fromStr cq) (Transition.text debug (FsInstr.text cq) cw t) = .error := by
    have h1 := skip_spaces spaces_one ([91] ++ commaSep debug t.word ++ [93] ++ (w₂ ++ b' :: r')) (not_space_of_cons (c := 91) rfl)
    rw [ht, parseTransition, thn_done (tag_append _ _), thn_done h1,
      chain_done (parseList_text (commaSep_list hw) _), thn_done (skip_spaces hw₂ _ (not_space_of_cons hb'.2)), chain_error hd]
  rw [Transition.fromStr, hp]
  rfl

/-- C61: a printed finite state automaton with at least one transition cannot be parsed. -/
theorem C61_fsa_unreadable {cq : Codec Q} {ct : Codec T} {debug : T → List Nat} {cw : Codec W} {P : FSA Q T W} {t : Transition (FsInstr Q) T W}
    {ts : List (Transition (FsInstr Q) T W)} (hts : P.listTransitions = some (t :: ts)) (hw : ∀ a ∈ t.word, TokenText ct a (debug a) ∧ 10 ∉ debug a)
    (hs : ∀ b r, cq.text t.instruction.source = b :: r → b ≠ 40 ∧ b ≠ 32 ∧ b ≠ 9) (hl : 10 ∉ cq.text t.instruction.source)
    (hl' : 10 ∉ cq.text t.instruction.target) (hwt : GoodWeight cw t.weight) :
    ∃ s, FSA.text cq debug cw P = some s ∧ FSA.fromStr cq ct cw s = some none := by
  refine ⟨_, by rw [FSA.text, hts]; rfl, ?_⟩
  obtain ⟨x, b, hx, hb⟩ : ∃ x b, Transition.text debug (FsInstr.text cq) cw t = x ++ [b] ∧ 33 ≤ b ∧ b ≤ 126 := by
    obtain ⟨s, b, hs⟩ := (List.eq_nil_or_concat (cw.text t.weight)).resolve_left hwt.2.1
    have hb : b ∈ cw.text t.weight := by rw [hs]; simp
    obtain ⟨x, hx⟩ : ∃ x, Transition.text debug (FsInstr.text cq) cw t = x ++ cw.text t.weight := ⟨_, rfl⟩
    exact ⟨x ++ s, b, by rw [hx, hs, List.concat_eq_append, List.append_assoc], hwt.2.2 b hb⟩
  have hline : 10 ∉ Transition.text debug (FsInstr.text cq) cw t := by
    have hw' : 10 ∉ cw.text t.weight := wordText_lead (goodWeight_word hwt) (by decide) (by decide)
    rw [Transition.text, FsInstr.text]
    simp [ascii, arrow, hw', hl, hl', word_line fun a ha => (hw a ha).2]
  obtain ⟨y, hy⟩ : ∃ y, Transition.text debug (FsInstr.text cq) cw t = 84 :: y := ⟨_, rfl⟩
  obtain ⟨rest, hrest⟩ : ∃ rest, rest = ts.flatMap fun t => Transition.text debug (FsInstr.text cq) cw t ++ [10] := ⟨_, rfl⟩
  have hfin : 10 ∉ finalsText P.finals := by
    intro h
    have key : ∀ l : List Nat, 10 ∉ l.flatMap fun i => [34] ++ natText i ++ [34] := by
      intro l h
      obtain ⟨i, _, h⟩ := List.mem_flatMap.mp h
      simp [natText_line i] at h
    rw [finalsText, List.mem_append] at h
    rcases h with h | h
    · split at h <;> simp [ascii] at h
    · exact key _ h
  have h13 : ∀ (l : List Nat) (b : Nat), b ≠ 13 → ([] ++ (l ++ [b])).getLast? ≠ some 13 := by
    intro l b hb
    simpa using hb
  have hlines : lines (ascii ['i', 'n', 'i', 't', 'i', 'a', 'l', ':', ' '] ++ natText P.initial ++ ascii ['\n', 'f', 'i', 'n', 'a', 'l', ':', ' ', '['] ++
      finalsText P.finals ++ ascii [']', '\n', '\n'] ++ (t :: ts).flatMap fun t => Transition.text debug (FsInstr.text cq) cw t ++ [10]) =
      (ascii ['i', 'n', 'i', 't', 'i', 'a', 'l', ':', ' '] ++ natText P.initial) ::
      (ascii ['f', 'i', 'n', 'a', 'l', ':', ' ', '['] ++ finalsText P.finals ++ [93]) :: [] :: Transition.text debug (FsInstr.text cq) cw t ::
      linesGo [] rest := by
    have e : ascii ['i', 'n', 'i', 't', 'i', 'a', 'l', ':', ' '] ++ natText P.initial ++ ascii ['\n', 'f', 'i', 'n', 'a', 'l', ':', ' ', '['] ++
      finalsText P.finals ++ ascii [']', '\n', '\n'] ++ ((t :: ts).flatMap fun t => Transition.text debug (FsInstr.text cq) cw t ++ [10]) =
      (ascii ['i', 'n', 'i', 't', 'i', 'a', 'l', ':', ' '] ++ natText P.initial) ++ 10 ::
      ((ascii ['f', 'i', 'n', 'a', 'l', ':', ' ', '['] ++ finalsText P.finals ++ [93]) ++ 10 :: ([] ++ 10 ::
      (Transition.text debug (FsInstr.text cq) cw t ++ 10 :: rest))) := by
      rw [hrest]
      simp [ascii]
    obtain ⟨u, c, hu⟩ := (List.eq_nil_or_concat (natText P.initial)).resolve_left (natText_ne_nil _)
    have hc : c ≠ 13 := by
      have := natText_digit P.initial c (by rw [hu]; simp)
      simp only [Bool.and_eq_true, decide_eq_true_eq] at this
      omega
    rw [e, lines, linesGo_line _ [] _ (by simp [ascii, natText_line]) (by
        rw [hu, List.concat_eq_append, List.nil_append, ← List.append_assoc]
        exact h13 (ascii ['i', 'n', 'i', 't', 'i', 'a', 'l', ':', ' '] ++ u) c hc),
      linesGo_line _ [] _ (by simp [ascii, hfin]) (h13 _ 93 (by decide)), linesGo_line [] [] _ (by simp) (by simp),
      linesGo_line _ [] _ hline (by rw [hx]; exact h13 _ b (by omega))]
    rfl
  have ht : Transition.fromStr ct cw (FsInstr.fromStr cq) (trim (Transition.text debug (FsInstr.text cq) cw t)) = some none := by
    rw [trim_id hy hx (by decide) (not_white hb.1 (by omega))]
    exact C61_fs_transition (fun a ha => (hw a ha).1) hs
  have hskip : ∀ init fin, fsaLoop cq (Transition.fromStr ct cw (FsInstr.fromStr cq)) ([] :: Transition.text debug (FsInstr.text cq) cw t :: linesGo [] rest)
      init fin [] = some none := by
    intro init fin
    have h1 : trimStart (Transition.text debug (FsInstr.text cq) cw t) = 84 :: y := by rw [hy]; exact trimStart_id (by decide)
    have h4 : ¬ initialTag <+: 84 :: y := fun h => absurd (List.cons_prefix_cons.mp h).1 (by decide)
    have h5 : ¬ finalTag <+: 84 :: y := fun h => absurd (List.cons_prefix_cons.mp h).1 (by decide)
    have h6 : Transition.text debug (FsInstr.text cq) cw t ≠ [] ∧ ¬ [37] <+: 84 :: y := ⟨by simp [hy], fun h => absurd (List.cons_prefix_cons.mp h).1 (by decide)⟩
    have k4 : ¬ initialTag <+: trimStart [] := by decide
    have k5 : ¬ finalTag <+: trimStart [] := by decide
    have k6 : ¬ (([] : List Nat) ≠ [] ∧ ¬ [37] <+: trimStart []) := fun h => h.1 rfl
    simp only [fsaLoop, if_neg k4, if_neg k5, if_neg k6, h1, if_neg h4, if_neg h5, if_pos h6, ht]
  have hup : Up (fun _ : List Nat => False) := fun _ _ _ h => h
  have hfalse : ∀ init, fsaLoop cq (Transition.fromStr ct cw (FsInstr.fromStr cq))
      ((ascii ['f', 'i', 'n', 'a', 'l', ':', ' ', '['] ++ finalsText P.finals ++ [93]) :: [] :: Transition.text debug (FsInstr.text cq) cw t :: linesGo [] rest)
      init [] [] = some none := by
    intro init
    have h1 : trimStart (ascii ['f', 'i', 'n', 'a', 'l', ':', ' ', '['] ++ finalsText P.finals ++ [93]) =
      ascii ['f', 'i', 'n', 'a', 'l', ':', ' ', '['] ++ finalsText P.finals ++ [93] := trimStart_id (b := 102) (by decide)
    have h2 : ¬ initialTag <+: ascii ['f', 'i', 'n', 'a', 'l', ':', ' ', '['] ++ finalsText P.finals ++ [93] :=
      fun h => absurd (List.cons_prefix_cons.mp h).1 (by decide)
    have h3 : finalTag <+: ascii ['f', 'i', 'n', 'a', 'l', ':', ' ', '['] ++ finalsText P.finals ++ [93] := ⟨32 :: 91 :: (finalsText P.finals ++ [93]), rfl⟩
    rw [fsaLoop, h1, if_neg h2, if_pos h3]
    cases hp : parseFinals cq (ascii ['f', 'i', 'n', 'a', 'l', ':', ' ', '['] ++ finalsText P.finals ++ [93]) with
    | done r a => exact hskip _ _
    | error => rfl
    | incomplete => rfl
    | panic =>
      have : Tame (fun _ : List Nat => False) (parseFinals cq) := tame_thn hup (tame_tag _) <| tame_thn hup (tame_takeWhile _) <|
        tame_parseVec hup (tame_parseToken hup cq) _ _ _
      exact (this.1 _ hp).elim
  rw [FSA.fromStr, hlines]
  have h1 : trimStart (ascii ['i', 'n', 'i', 't', 'i', 'a', 'l', ':', ' '] ++ natText P.initial) =
      ascii ['i', 'n', 'i', 't', 'i', 'a', 'l', ':', ' '] ++ natText P.initial := trimStart_id (b := 105) (by decide)
  have h2 : initialTag <+: ascii ['i', 'n', 'i', 't', 'i', 'a', 'l', ':', ' '] ++ natText P.initial := ⟨32 :: natText P.initial, rfl⟩
  rw [fsaLoop, h1, if_pos h2]
  cases hp : parseInitial cq (ascii ['i', 'n', 'i', 't', 'i', 'a', 'l', ':', ' '] ++ natText P.initial) with
  | done r a =>
    simp only [PResult.toResult]
    rw [hfalse]
  | error => rfl
  | incomplete => rfl
  | panic =>
    have : Tame (fun _ : List Nat => False) (parseInitial cq) := tame_thn hup (tame_tag _) <| tame_thn hup (tame_takeWhile _) <|
      tame_chain hup (tame_parseToken hup cq) fun _ => tame_thn hup (tame_takeWhile _) (tame_ret _)
    exact (this.1 _ hp).elim

end

namespace C61Example

open C48Example

/-- A transition of a tree stack automaton. -/
def ts : List (Transition (TsInstr Nat) (List Nat) Nat) := [⟨[ascii ['a']], 3, .push 1 7 8⟩, ⟨[], 2, .down 8 7 7⟩]

/-- `Debug` of strings without special characters. -/
def debug (s : List Nat) : List Nat := [34] ++ s ++ [34]

theorem num_label (n : Nat) : LabelText num n := by
  have h := num_good n
  exact ⟨h.1, goodWeight_word h, (natText_word n).2⟩

/-- The conditions of the theorems are met. -/
example : ∀ t ∈ ts, GoodTransition str debug num (GoodTsInstr num) t := by
  intro t ht
  simp only [ts, List.mem_cons, List.not_mem_nil, or_false] at ht
  rcases ht with rfl | rfl
  · refine ⟨fun a ha => ?_, num_good _, by decide, num_label _, num_label _⟩
    rw [List.mem_singleton.mp ha]
    exact ⟨.quoted (C48_plain (c := str) rfl (by decide)).2 rfl, by decide⟩
  · exact ⟨by simp, num_good _, num_label _, num_label _, num_label _⟩

/-- The printed automaton. -/
example : TSA.text num debug num (TSA.new ts (.new 7)) = some ("initial: 0\n\nTransition [\"a\"] (Push 1 7 8)  # 3\nTransition [] (Down 8 7 7)  # 2\n".toList.map
    Char.toNat) := by decide +kernel

/-- The initial symbol of the parsed automaton is 0, not 7. -/
example : (TSA.text num debug num (TSA.new ts (.new 7))).map (fun s => (TSA.fromStr num str num s).map (Option.map TSA.initialStack)) =
    some (some (some (some (.new 0)))) := by decide +kernel

/-- The final states are printed without commas between them, and only those below the number of final states; this can be parsed. -/
example : FSA.text num debug num (FSA.new ([] : List (Transition (FsInstr Nat) (List Nat) Nat)) 5 [5, 6]) =
    some ("initial: 0\nfinal: [, \"0\"\"1\"]\n\n".toList.map Char.toNat) := by decide +kernel

/-- A finite state automaton with a transition. -/
def fsa : FSA Nat (List Nat) Nat := FSA.new [⟨[ascii ['a']], 3, ⟨0, 1⟩⟩] 0 [1]

example : FSA.text num debug num fsa = some ("initial: 0\nfinal: []\n\nTransition [\"a\"] 0 ".toList.map Char.toNat ++ arrow ++ " 1  # 3\n".toList.map Char.toNat) := by
  decide +kernel

end C61Example

/-- C61 for finite state automata. -/
def C61_fsa_claim : Prop :=
  ∀ (P : FSA Nat (List Nat) Nat), ∃ s P', FSA.text C48Example.num C61Example.debug C48Example.num P = some s ∧
    FSA.fromStr C48Example.num C48Example.str C48Example.num s = some (some P') ∧ P'.listTransitions = P.listTransitions

/-- The printed automaton cannot be parsed. -/
theorem C61_fsa_violated : ¬ C61_fsa_claim := by
  intro h
  obtain ⟨s, P', h1, h2, _⟩ := h C61Example.fsa
  have h3 : (FSA.text C48Example.num C61Example.debug C48Example.num C61Example.fsa).bind (fun s => (FSA.fromStr C48Example.num C48Example.str C48Example.num s).map
      Option.isSome) = some false := by decide +kernel
  rw [h1, Option.bind_some, h2] at h3
  cases h3

/-- C61 for tree stack automata. -/
def C61_tsa_claim : Prop :=
  ∀ (ts : List (Transition (TsInstr Nat) (List Nat) Nat)) (a : Nat), ∃ s P', TSA.text C48Example.num C61Example.debug C48Example.num (TSA.new ts (.new a)) = some s ∧
    TSA.fromStr C48Example.num C48Example.str C48Example.num s = some (some P') ∧ P'.initialStack = (TSA.new ts (.new a)).initialStack

/-- The initial symbol is not recovered. -/
theorem C61_tsa_violated : ¬ C61_tsa_claim := by
  intro h
  obtain ⟨s, P', h1, h2, h3⟩ := h C61Example.ts 7
  have h4 : (TSA.text C48Example.num C61Example.debug C48Example.num (TSA.new C61Example.ts (.new 7))).bind (fun s =>
      (TSA.fromStr C48Example.num C48Example.str C48Example.num s).map (Option.map TSA.initialStack)) = some (some (some (.new 0))) := by decide +kernel
  rw [h1, Option.bind_some, h2, Option.map_some, Option.map_some, h3, (C15_tsa_new C61Example.ts (TreeStack.new 7)).2] at h4
  revert h4
  decide

end Props
end Rustomata
