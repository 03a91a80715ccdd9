import Verif.Model.BracketText
import Verif.Proofs.ParseText

/-!
# Property C100: the printed form of bracket words

Only property theorems, the lemmas that combine them, and the examples that show their hypotheses to be satisfiable.
-/

namespace Rustomata.Props
open Rustomata
variable {A : Type _}

/-- The text is empty or begins with a bracket. -/
def BracketStart (l : List Nat) : Prop := l = [] ∨ ∃ m r, (m = 0xA8 ∨ m = 0xA9) ∧ l = 0xE2 :: 0x9F :: m :: r

theorem bracketStart_word (text : A → List Nat) (w : List (Bracket A)) : BracketStart (w.flatMap (Bracket.text text)) := by
  cases w with
  | nil => exact .inl rfl
  | cons b w =>
    cases b with
    | open_ a => exact .inr ⟨0xA8, text a ++ w.flatMap (Bracket.text text), .inl rfl, by simp [Bracket.text]⟩
    | close a => exact .inr ⟨0xA9, text a ++ w.flatMap (Bracket.text text), .inr rfl, by simp [Bracket.text]⟩

/-- The text contains no bracket. -/
def NoBracket (l : List Nat) : Prop := ¬ [0xE2, 0x9F, 0xA8] <:+: l ∧ ¬ [0xE2, 0x9F, 0xA9] <:+: l

theorem noBracket_aux {a b u v : List Nat} (hb : NoBracket b) (hu : BracketStart u) (hv : BracketStart v) (h : a ++ u = b ++ v) (hl : a.length ≤ b.length) : a = b ∧ u = v := by
  obtain ⟨d, rfl⟩ : ∃ d, b = a ++ d := List.prefix_of_prefix_length_le ⟨u, h⟩ (List.prefix_append b v) hl |>.imp fun _ h => h.symm
  rw [List.append_assoc, List.append_cancel_left_eq] at h
  cases d with
  | nil => exact ⟨by simp, by simpa using h⟩
  | cons x d =>
    exfalso
    rcases hu with rfl | ⟨m, r, hm, rfl⟩
    · simp at h
    · simp only [List.cons_append, List.cons.injEq] at h
      obtain ⟨rfl, h⟩ := h
      cases d with
      | nil =>
        rcases hv with rfl | ⟨m', r', -, rfl⟩ <;> simp at h
      | cons y d =>
        simp only [List.cons_append, List.cons.injEq] at h
        obtain ⟨rfl, h⟩ := h
        cases d with
        | nil =>
          rcases hv with rfl | ⟨m', r', -, rfl⟩
          · simp at h
          · simp only [List.nil_append, List.cons.injEq] at h
            rcases hm with rfl | rfl <;> simp at h
        | cons z d =>
          simp only [List.cons_append, List.cons.injEq] at h
          obtain ⟨rfl, -⟩ := h
          rcases hm with rfl | rfl
          · exact hb.1 ⟨a, d, by simp⟩
          · exact hb.2 ⟨a, d, by simp⟩

theorem noBracket_split {a b u v : List Nat} (ha : NoBracket a) (hb : NoBracket b) (hu : BracketStart u) (hv : BracketStart v) (h : a ++ u = b ++ v) : a = b ∧ u = v := by
  rcases Nat.le_total a.length b.length with hl | hl
  · exact noBracket_aux hb hu hv h hl
  · obtain ⟨h1, h2⟩ := noBracket_aux ha hv hu h.symm hl
    exact ⟨h1.symm, h2.symm⟩

/-- **C100** Different brackets are printed differently iff different annotations are. -/
theorem C100_bracket (text : A → List Nat) : Function.Injective (Bracket.text text) ↔ Function.Injective text := by
  constructor
  · intro h a b hab
    have := h (a₁ := .open_ a) (a₂ := .open_ b) (by simp [Bracket.text, hab])
    simpa using this
  · intro h a b hab
    cases a <;> cases b <;> simp [Bracket.text] at hab ⊢ <;> exact h hab

/-- The full claim **C100**: words of brackets can be read off their printed form whenever annotations can. -/
def C100_claim : Prop := ∀ (A : Type) (text : A → List Nat), Function.Injective text → ∀ v w : List (Bracket A), v.flatMap (Bracket.text text) = w.flatMap (Bracket.text text) → v = w

/-- **C100** (partial) The printed form of a word of brackets determines the word if annotations have different texts that contain no brackets. -/
theorem C100_word_partial (text : A → List Nat) (hi : Function.Injective text) (hn : ∀ a, NoBracket (text a)) (v w : List (Bracket A))
    (h : v.flatMap (Bracket.text text) = w.flatMap (Bracket.text text)) : v = w := by
  induction v generalizing w with
  | nil =>
    cases w with
    | nil => rfl
    | cons b w => cases b <;> simp [Bracket.text] at h
  | cons b v ih =>
    cases w with
    | nil => cases b <;> simp [Bracket.text] at h
    | cons c w =>
      cases b <;> cases c <;> simp only [Bracket.text, List.flatMap_cons, List.cons_append, List.nil_append, List.cons.injEq, true_and] at h
      · obtain ⟨h1, h2⟩ := noBracket_split (hn _) (hn _) (bracketStart_word text v) (bracketStart_word text w) h
        rw [hi h1, ih w h2]
      · simp at h
      · simp at h
      · obtain ⟨h1, h2⟩ := noBracket_split (hn _) (hn _) (bracketStart_word text v) (bracketStart_word text w) h
        rw [hi h1, ih w h2]

/-- **C100 is violated** for annotations that contain brackets: `⟨a⟩b` is printed for one opening bracket and for two brackets. -/
theorem C100_violated : ¬ C100_claim := by
  intro h
  have := h (List Nat) id (fun _ _ h => h) [.open_ [97, 0xE2, 0x9F, 0xA9, 98]] [.open_ [97], .close [98]] (by decide)
  simp at this

theorem natText_head {n b : Nat} (hb : b < 48 ∨ 57 < b) {u v : List Nat} : natText n ++ u ≠ b :: v := by
  intro h
  have hm := natText_not (n := n) hb
  rcases hn : natText n with _ | ⟨x, l⟩
  · exact natText_ne_nil n hn
  · rw [hn] at h hm
    simp only [List.cons_append, List.cons.injEq] at h
    exact hm (by simp [h.1])

/-- **C100** The indices of a Chomsky-Schützenberger representation have different texts. -/
theorem C100_content : Function.Injective BracketContent.text := by
  have ht : ∀ r c, BracketContent.text (.component r c) = 95 :: (natText r ++ 94 :: natText c) := fun r c => by simp [BracketContent.text, ascii]
  have hv : ∀ r i j, BracketContent.text (.variable r i j) = 95 :: 123 :: (natText r ++ 44 :: (natText i ++ 125 :: 94 :: natText j)) := fun r i j => by
    simp [BracketContent.text, ascii]
  have he : BracketContent.text .terminal = 95 :: 123 :: 84 :: [69, 82, 77, 125] := by simp [BracketContent.text, ascii]
  have hi : BracketContent.text .ignore = [] := rfl
  have hd : ∀ {b n : Nat}, (b < 48 ∨ 57 < b) → b ∉ natText n := natText_not
  intro a b h
  cases a <;> cases b <;> simp only [ht, hv, he, hi, List.cons.injEq, true_and, reduceCtorEq] at h ⊢
  · exact natText_head (b := 123) (.inr (by decide)) h.symm
  · exact natText_head (b := 84) (.inr (by decide)) h.symm
  · exact natText_head (b := 123) (.inr (by decide)) h
  · obtain ⟨h1, h2⟩ := split_at_sep (hd (.inr (by decide))) (hd (.inr (by decide))) h
    simp [natText_inj h1, natText_inj h2]
  · exact natText_head (b := 123) (.inr (by decide)) h
  · exact natText_head (b := 84) (.inr (by decide)) h
  · exact natText_head (b := 123) (.inr (by decide)) h.symm
  · obtain ⟨h1, h2⟩ := split_at_sep (hd (.inl (by decide))) (hd (.inl (by decide))) h
    obtain ⟨h3, h4⟩ := split_at_sep (hd (.inr (by decide))) (hd (.inr (by decide))) h2
    simp [natText_inj h1, natText_inj h3, natText_inj (List.cons.inj h4).2]

/-- **C100** The words of brackets of a Chomsky-Schützenberger representation can be read off their printed form. -/
theorem C100_delta (v w : List (Bracket BracketContent)) (h : v.flatMap (Bracket.text BracketContent.text) = w.flatMap (Bracket.text BracketContent.text)) : v = w := by
  refine C100_word_partial _ C100_content (fun a => ?_) v w h
  have : 0xE2 ∉ a.text := by
    have hd : ∀ n, 0xE2 ∉ natText n := fun n => natText_not (by omega)
    cases a <;> simp [BracketContent.text, hd, ascii]
  exact ⟨fun h => this (h.subset (by simp)), fun h => this (h.subset (by simp))⟩

/-- `⟨_0^0⟨_{TERM}⟩_{TERM}⟩_0^0`. -/
example : [Bracket.open_ (.component 0 0), .open_ .terminal, .close .terminal, .close (.component 0 0)].flatMap (Bracket.text BracketContent.text) =
    [0xE2, 0x9F, 0xA8, 95, 48, 94, 48, 0xE2, 0x9F, 0xA8, 95, 123, 84, 69, 82, 77, 125, 0xE2, 0x9F, 0xA9, 95, 123, 84, 69, 82, 77, 125, 0xE2, 0x9F, 0xA9, 95, 48, 94, 48] := by
  decide

end Rustomata.Props
