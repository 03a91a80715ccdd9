import Verif.Spec.FromStr
import Verif.Spec.White

/-!
# The grammar of the texts that are read

`R a i r` stands for: a text at the beginning of `i` denotes `a`, and `r` is the rest of `i`.
-/

namespace Rustomata.Spec

variable {A : Type _}

/-- `r` is `i` without the spaces and tabs at the beginning. -/
def Skips (i r : List Nat) : Prop := ∃ w, i = w ++ r ∧ (∀ b ∈ w, b = 32 ∨ b = 9) ∧ ∀ b t, r = b :: t → b ≠ 32 ∧ b ≠ 9

/-- A token is a text in quotes, or a nonempty text up to a space or one of the bytes of `\`, `"`, `-`, `→`, `,`, `;`, `)`, `]`, `%`, `#`. -/
inductive TokenReads (c : Codec A) : A → List Nat → List Nat → Prop
  | quoted {a s r} : Quotable s → c.read s = some a → TokenReads c a (34 :: (s ++ 34 :: r)) r
  | bare {a s r} : s ≠ [] → (∀ b ∈ s, b ∉ [32, 92, 34, 45, 0xE2, 0x86, 0x92, 44, 59, 41, 93, 37, 35]) → c.read s = some a →
      (∀ b t, r = b :: t → b ∈ [32, 92, 34, 45, 0xE2, 0x86, 0x92, 44, 59, 41, 93, 37, 35]) → TokenReads c a (s ++ r) r

/-- A sequence of elements, before each of which there may be a comma. -/
inductive ItemsRead (R : A → List Nat → List Nat → Prop) : List A → List Nat → List Nat → Prop
  | nil {i} : ItemsRead R [] i i
  | cons {a l i i₁ i₂ i₃ i₄ r} : (i = 44 :: i₁ ∨ i = i₁ ∧ (∀ t, i ≠ 44 :: t) ∧ i ≠ []) → Skips i₁ i₂ → R a i₂ i₃ → Skips i₃ i₄ → ItemsRead R l i₄ r →
      ItemsRead R (a :: l) i r

/-- A list in brackets. -/
inductive VecReads (R : A → List Nat → List Nat → Prop) (o cl : Nat) : List A → List Nat → List Nat → Prop
  | mk {l i i₁ r} : Skips i i₁ → ItemsRead R l i₁ (cl :: r) → VecReads R o cl l (o :: i) r

/-- The lines of a text are ended by `\n` or `\r\n`; a nonempty last line need not be ended. -/
inductive LinesOf : List (List Nat) → List Nat → Prop
  | nil : LinesOf [] []
  | last {l} : l ≠ [] → 10 ∉ l → LinesOf [l] l
  | lf {l ls s} : 10 ∉ l → l.getLast? ≠ some 13 → LinesOf ls s → LinesOf (l :: ls) (l ++ 10 :: s)
  | crlf {l ls s} : 10 ∉ l → LinesOf ls s → LinesOf (l :: ls) (l ++ 13 :: 10 :: s)

end Rustomata.Spec
