import Verif.Spec.Import

/-!
# What the importers read from an arbitrary text

`R a i r` stands for: a text at the beginning of `i` denotes `a`, and `r` is the rest of `i`.
-/

namespace Rustomata.Spec
variable {A N T W : Type _}

/-- `s` is the longest beginning of `i` that consists of characters with the given property, and `r` is the rest. -/
def Span (P : Nat → Prop) (s i r : List Nat) : Prop := i = s ++ r ∧ (∀ c ∈ s, P c) ∧ ∀ b t, r = b :: t → ¬ P b

/-- The characters of tokens. -/
def Dark (c : Nat) : Prop := c ∉ whiteSpace

/-- The characters between tokens. -/
def Blank (c : Nat) : Prop := c = 32 ∨ c = 9

/-- The decimal digits. -/
def Decimal (c : Nat) : Prop := 48 ≤ c ∧ c ≤ 57

/-- Blanks, at least one, are skipped. -/
def GapReads (i r : List Nat) : Prop := ∃ g, g ≠ [] ∧ Span Blank g i r

/-- The rest of a list with the separator `S` and the elements `R`; elements that satisfy `P` make the program panic. The list ends where no separator with an
element follows. -/
inductive TailReads (S : List Nat → List Nat → Prop) (R : A → List Nat → List Nat → Prop) (P : List Nat → Prop) : List A → List Nat → List Nat → Prop
  | stop {i} : (∀ i', S i i' → ¬ P i' ∧ ∀ a r, ¬ R a i' r) → TailReads S R P [] i i
  | cons {a l i i' i'' r} : S i i' → R a i' i'' → TailReads S R P l i'' r → TailReads S R P (a :: l) i r

/-- The rest of a list contains an element that makes the program panic. -/
inductive TailPanics (S : List Nat → List Nat → Prop) (R : A → List Nat → List Nat → Prop) (P : List Nat → Prop) : List Nat → Prop
  | here {i i'} : S i i' → P i' → TailPanics S R P i
  | later {a i i' i''} : S i i' → R a i' i'' → TailPanics S R P i'' → TailPanics S R P i

/-- A nonempty list. -/
inductive List1Reads (S : List Nat → List Nat → Prop) (R : A → List Nat → List Nat → Prop) (P : List Nat → Prop) : List A → List Nat → List Nat → Prop
  | mk {a l i i' r} : R a i i' → TailReads S R P l i' r → List1Reads S R P (a :: l) i r

/-- A list, which is empty where no element follows. -/
inductive ListReads (S : List Nat → List Nat → Prop) (R : A → List Nat → List Nat → Prop) (P : List Nat → Prop) : List A → List Nat → List Nat → Prop
  | nil {i} : ¬ P i → (∀ a r, ¬ R a i r) → ListReads S R P [] i i
  | some {l i r} : List1Reads S R P l i r → ListReads S R P l i r

/-- A list that contains an element that makes the program panic. -/
inductive ListPanics (S : List Nat → List Nat → Prop) (R : A → List Nat → List Nat → Prop) (P : List Nat → Prop) : List Nat → Prop
  | here {i} : P i → ListPanics S R P i
  | later {a i i'} : R a i i' → TailPanics S R P i' → ListPanics S R P i

/-- The line break between lines. -/
def LineBreak (i r : List Nat) : Prop := i = 10 :: r

/-! ### disco-dop -/

/-- A component: a nonempty sequence of bits without ones from position 64 on. Its length is taken modulo 256. -/
inductive ComponentReads : Nat × Nat → List Nat → List Nat → Prop
  | mk {b m r} : b ≠ [] → (∀ k : Nat, 64 ≤ k → b[k]? ≠ some true) → (∀ k : Nat, m.testBit k = (b[k]?).getD false) → (∀ c t, r = c :: t → c ≠ 48 ∧ c ≠ 49) →
      ComponentReads (b.length % 256, m) (bitText b ++ r) r

/-- There is a one at a position from 64 on. -/
def ComponentPanics (i : List Nat) : Prop := ∃ (b : List Bool) (r : List Nat) (k : Nat), i = bitText b ++ r ∧ 64 ≤ k ∧ b[k]? = some true

/-- The comma between components. -/
def Comma (i r : List Nat) : Prop := i = 44 :: r

/-- A yield function: what follows the last component is ignored. -/
def YieldReads (y : DiscoYield) (i : List Nat) : Prop := ∃ r, List1Reads Comma ComponentReads ComponentPanics y i r

/-- A yield function with a component that makes the program panic. -/
def YieldPanics (i : List Nat) : Prop := ListPanics Comma ComponentReads ComponentPanics i

/-- A pseudo-count: a number, or a fraction if a slash and a digit follow. -/
inductive CountReads [Div W] (cw : Codec W) : W → List Nat → List Nat → Prop
  | number {w s i r} : s ≠ [] → Span Decimal s i r → (∀ c t, r = 47 :: c :: t → ¬ Decimal c) → cw.read s = some w → CountReads cw w i r
  | fraction {a b s t i i' r} : s ≠ [] → Span Decimal s i (47 :: i') → t ≠ [] → Span Decimal t i' r → cw.read s = some a → cw.read t = some b →
      CountReads cw (a / b) i r

/-- Blanks and a token follow. -/
def NextReads (s i r : List Nat) : Prop := ∃ i', GapReads i i' ∧ s ≠ [] ∧ Span Dark s i' r

/-- The names, the yield function and the count in a rule: four tokens for a chain rule, five for a binary rule. -/
inductive FieldsRead (cn : Codec N) : DiscoDeriv N → List Nat → List Nat → List Nat → List Nat → Prop
  | chain {lhs rhs s₁ s₂ y w i i₁ i₂ i₃ r} : s₁ ≠ [] → Span Dark s₁ i i₁ → NextReads s₂ i₁ i₂ → NextReads y i₂ i₃ → NextReads w i₃ r → (∀ s r', ¬ NextReads s r r') →
      cn.read s₁ = some lhs → cn.read s₂ = some rhs → FieldsRead cn (.chain lhs rhs) y w i r
  | binary {lhs rhs₁ rhs₂ s₁ s₂ s₃ y w i i₁ i₂ i₃ i₄ r} : s₁ ≠ [] → Span Dark s₁ i i₁ → NextReads s₂ i₁ i₂ → NextReads s₃ i₂ i₃ → NextReads y i₃ i₄ → NextReads w i₄ r →
      cn.read s₁ = some lhs → cn.read s₂ = some rhs₁ → cn.read s₃ = some rhs₂ → FieldsRead cn (.binary lhs rhs₁ rhs₂) y w i r

/-- A rule. What follows the yield function and the count in their tokens is ignored. -/
inductive ConstituentReads [Div W] (cn : Codec N) (cw : Codec W) : DiscoDeriv N × DiscoYield × W → List Nat → List Nat → Prop
  | mk {d ys c y w i r r'} : FieldsRead cn d y w i r → YieldReads ys y → CountReads cw c w r' → ConstituentReads cn cw (d, ys, c) i r

/-- A rule whose yield function makes the program panic. -/
def ConstituentPanics (cn : Codec N) (i : List Nat) : Prop := ∃ d y w r, FieldsRead cn d y w i r ∧ YieldPanics y

/-- A tag and its count; the tag may be empty. -/
inductive TagReads [Div W] (cw : Codec W) : List Nat × W → List Nat → List Nat → Prop
  | mk {p w i i₁ i₂ r} : Span Dark p i i₁ → GapReads i₁ i₂ → CountReads cw w i₂ r → TagReads cw (p, w) i r

/-- A word and its tags; the word may be empty. -/
inductive WordReads [Div W] (cw : Codec W) : List Nat × List (List Nat × W) → List Nat → List Nat → Prop
  | mk {s l i i₁ i₂ r} : Span Dark s i i₁ → GapReads i₁ i₂ → List1Reads GapReads (TagReads cw) (fun _ => False) l i₂ r → WordReads cw (s, l) i r

/-- The words with their tags in a lexicon; what follows the last line that can be read is ignored. -/
def LexiconReads [Div W] (cw : Codec W) (v : List (List Nat × List (List Nat × W))) (i : List Nat) : Prop :=
  ∃ r, ListReads LineBreak (WordReads cw) (fun _ => False) v i r

/-- The word, the tag and the count of an entry. -/
def EntryOf (cn : Codec N) (ct : Codec T) (x : List Nat × List Nat × W) (e : T × N × W) : Prop :=
  ct.read x.1 = some e.1 ∧ cn.read x.2.1 = some e.2.1 ∧ x.2.2 = e.2.2

/-- The words, tags and counts, one after the other. -/
def wordTags (v : List (List Nat × List (List Nat × W))) : List (List Nat × List Nat × W) := v.flatMap fun x => x.2.map fun y => (x.1, y.1, y.2)

/-! ### rparse -/

/-- The optional second symbol of the right-hand side, with the blanks after it. There is none if the yield function starts here, or if the token is ended by other white
space than blanks; nothing is read if the token is ended by the end of the text. -/
inductive SecondReads : Option (List Nat) → List Nat → List Nat → Prop
  | some {s i i' r} : ¬ ascii ['[', '[', '['] <+: i → s ≠ [] → Span Dark s i i' → GapReads i' r → SecondReads (some s) i r
  | yield {i} : ascii ['[', '[', '['] <+: i → SecondReads none i i
  | none {s c t i} : ¬ ascii ['[', '[', '['] <+: i → Span Dark s i (c :: t) → (s ≠ [] → ¬ Blank c) → SecondReads none i i

/-- The parts of a clause: weight, left-hand side, right-hand side, yield function. -/
inductive PartsRead : List Nat → List Nat → List Nat → Option (List Nat) → List (List Bool) → List Nat → List Nat → Prop
  | mk {n w l a b bits i i₁ i₂ i₃ i₄ i₅ i₆ i₇ i₈ r} : n ≠ [] → Span Decimal n i i₁ → GapReads i₁ i₂ → w ≠ [] → Span (fun c => Dark c ∧ c ≠ 58) w i₂ (58 :: i₃) →
      l ≠ [] → Span Dark l i₃ i₄ → GapReads i₄ (ascii ['-', '-', '>'] ++ i₅) → GapReads i₅ i₆ → a ≠ [] → Span Dark a i₆ i₇ → GapReads i₇ i₈ →
      SecondReads b i₈ (rparseYieldText bits ++ r) → PartsRead w l a b bits i r

/-- A clause. -/
inductive ClauseReads (cn : Codec N) (cw : Codec W) : W × N × RparseRhs N × List (List Bool) → List Nat → List Nat → Prop
  | chain {w l a bits sw sl sa i r} : PartsRead sw sl sa none bits i r → cw.read sw = some w → cn.read sl = some l → cn.read sa = some a →
      ClauseReads cn cw (w, l, .chain a, bits) i r
  | binary {w l a b bits sw sl sa sb i r} : PartsRead sw sl sa (some sb) bits i r → cw.read sw = some w → cn.read sl = some l → cn.read sa = some a → cn.read sb = some b →
      ClauseReads cn cw (w, l, .binary a b, bits) i r

/-- A clause with a weight or a symbol that cannot be read. -/
def ClausePanics (cn : Codec N) (cw : Codec W) (i : List Nat) : Prop :=
  ∃ sw sl sa sb bits r, PartsRead sw sl sa sb bits i r ∧ (cw.read sw = none ∨ cn.read sl = none ∨ cn.read sa = none ∨ ∃ s, sb = some s ∧ cn.read s = none)

end Rustomata.Spec
