import Verif.Model.Import
import Verif.Spec.Pmcfg
import Verif.Spec.White

/-!
# Specification of the import of grammars
-/

namespace Rustomata.Spec
variable {A N T W : Type _}

/-- The child of a variable: `false` for the first, `true` for the second one. -/
inductive IsChild : VarT T → Bool → Prop
  | fst (j : Nat) : IsChild (.var 0 j) false
  | snd (j : Nat) : IsChild (.var 1 j) true

/-- `c` is the composition that is described by `bits`: it has a variable for each bit, at the same position and for the described child, and
the variables of each child are numbered from left to right by 0, 1, 2, …. -/
def IsYield (bits : List (List Bool)) (c : Composition T) : Prop :=
  List.Forall₂ (List.Forall₂ IsChild) c bits ∧
    ((varsOf c).filter (·.1 = 0)).map (·.2) = List.range (bits.flatten.count false) ∧
    ((varsOf c).filter (·.1 = 1)).map (·.2) = List.range (bits.flatten.count true)

/-- A component as length and bit mask: bit `i` of the mask is the bit at position `i`. -/
def IsMask (bits : List Bool) (p : Nat × Nat) : Prop := p.1 = bits.length ∧ ∀ i, p.2.testBit i = (bits[i]?).getD false

/-- The sum of the weights of the rules with the given left-hand side. -/
def headSum [DecidableEq N] [AddMonoid W] (rules : List (PMCFGRule N T W)) (A : N) : W := ((rules.filter (·.head = A)).map (·.weight)).sum

/-- The total of the counts for a left-hand side. -/
def headCount [DecidableEq N] [AddMonoid W] (g : DiscoDopGrammar N T W) (A : N) : W :=
  ((g.constituents.filter (·.1.lhs = A)).map (·.2.2)).sum + ((g.lexer.toList.flatten.filter (·.2.1 = A)).map (·.2.2)).sum

/-- The total of the counts for a left-hand side in the lines of two files. -/
def fileCount [DecidableEq N] [AddMonoid W] (l : List (DiscoDeriv N × List (List Bool) × W)) (ll : List (T × List (N × W))) (A : N) : W :=
  ((l.filter (·.1.lhs = A)).map (·.2.2)).sum + (((ll.flatMap fun y => y.2.map fun z => (y.1, z.1, z.2)).filter (·.2.1 = A)).map (·.2.2)).sum

/-- The right-hand side of a rule. -/
def discoRhs : DiscoDeriv N → List N
  | .chain _ rhs => [rhs]
  | .binary _ rhs1 rhs2 => [rhs1, rhs2]

/-- The right-hand side of a rule. -/
def rparseRhs : RparseRhs N → List N
  | .chain a => [a]
  | .binary a b => [a, b]

/-- A nonempty text without white space. -/
def Bare (s : List Nat) : Prop := s ≠ [] ∧ ∀ c ∈ s, c ∉ whiteSpace

/-- The text of a symbol. -/
def Token (c : Codec A) (a : A) (s : List Nat) : Prop := Bare s ∧ c.read s = some a

/-- Blanks between symbols. -/
def Gap (s : List Nat) : Prop := s ≠ [] ∧ ∀ c ∈ s, c = 32 ∨ c = 9

/-- A nonempty sequence of decimal digits. -/
def Digits (s : List Nat) : Prop := s ≠ [] ∧ ∀ c ∈ s, 48 ≤ c ∧ c ≤ 57

/-- The text of a pseudo-count: a number or a fraction. -/
inductive CountText [Div W] (cw : Codec W) : W → List Nat → Prop
  | number {w s} : Digits s → cw.read s = some w → CountText cw w s
  | fraction {a b s t} : Digits s → Digits t → cw.read s = some a → cw.read t = some b → CountText cw (a / b) (s ++ 47 :: t)

/-- The text of a component in the format of disco-dop. -/
def bitText (bits : List Bool) : List Nat := bits.map fun b => if b then 49 else 48

/-- The text of a yield function in the format of disco-dop. -/
def discoYieldText (bits : List (List Bool)) : List Nat := [44].intercalate (bits.map bitText)

/-- Yield functions that disco-dop's format can express, with at most 64 variables per component. -/
def GoodBits (bits : List (List Bool)) : Prop := bits ≠ [] ∧ ∀ b ∈ bits, b ≠ [] ∧ b.length ≤ 64

/-- The text of a rule in the format of disco-dop. -/
inductive ConstituentText [Div W] (cn : Codec N) (cw : Codec W) : DiscoDeriv N → List (List Bool) → W → List Nat → Prop
  | chain {lhs rhs bits w s₁ s₂ s₃ g₁ g₂ g₃} : Token cn lhs s₁ → Token cn rhs s₂ → CountText cw w s₃ → Gap g₁ → Gap g₂ → Gap g₃ → GoodBits bits →
      ConstituentText cn cw (.chain lhs rhs) bits w (s₁ ++ (g₁ ++ (s₂ ++ (g₂ ++ (discoYieldText bits ++ (g₃ ++ s₃))))))
  | binary {lhs rhs₁ rhs₂ bits w s₁ s₂ s₃ s₄ g₁ g₂ g₃ g₄} : Token cn lhs s₁ → Token cn rhs₁ s₂ → Token cn rhs₂ s₃ → CountText cw w s₄ → Gap g₁ → Gap g₂ →
      Gap g₃ → Gap g₄ → GoodBits bits →
      ConstituentText cn cw (.binary lhs rhs₁ rhs₂) bits w (s₁ ++ (g₁ ++ (s₂ ++ (g₂ ++ (s₃ ++ (g₃ ++ (discoYieldText bits ++ (g₄ ++ s₄))))))))

/-- The text of the tags of a word in a lexicon. -/
inductive TagsText [Div W] (cn : Codec N) (cw : Codec W) : List (N × W) → List Nat → Prop
  | last {p w s t g} : Token cn p s → Gap g → CountText cw w t → TagsText cn cw [(p, w)] (s ++ (g ++ t))
  | cons {p w s t g g' l u} : Token cn p s → Gap g → CountText cw w t → Gap g' → TagsText cn cw l u →
      TagsText cn cw ((p, w) :: l) (s ++ (g ++ (t ++ (g' ++ u))))

/-- A line of a lexicon: a word with its tags. -/
inductive LexiconText [Div W] (cn : Codec N) (ct : Codec T) (cw : Codec W) : T → List (N × W) → List Nat → Prop
  | line {a l s g t} : Token ct a s → Gap g → TagsText cn cw l t → LexiconText cn ct cw a l (s ++ (g ++ t))

/-- The text of a truth value. -/
def boolText : Bool → List Nat
  | true => ascii ['t', 'r', 'u', 'e']
  | false => ascii ['f', 'a', 'l', 's', 'e']

/-- The text of a yield function in the format of rparse. -/
def rparseYieldText (bits : List (List Bool)) : List Nat :=
  ascii ['[', '['] ++ ((ascii [',', ' ']).intercalate (bits.map fun b => ascii ['['] ++ ((ascii [',', ' ']).intercalate (b.map boolText) ++ ascii [']'])) ++ ascii [']', ']'])

/-- The text of a rule in the format of rparse. -/
inductive ClauseText (cn : Codec N) (cw : Codec W) : W × N × RparseRhs N × List (List Bool) → List Nat → Prop
  | chain {w lhs rhs bits s₀ s₁ s₂ s₃ g₁ g₂ g₃ g₄} : Digits s₀ → Token cw w s₁ → 58 ∉ s₁ → Token cn lhs s₂ → Token cn rhs s₃ → Gap g₁ → Gap g₂ → Gap g₃ → Gap g₄ →
      bits ≠ [] → ClauseText cn cw (w, lhs, .chain rhs, bits)
        (s₀ ++ (g₁ ++ (s₁ ++ 58 :: (s₂ ++ (g₂ ++ (ascii ['-', '-', '>'] ++ (g₃ ++ (s₃ ++ (g₄ ++ rparseYieldText bits)))))))))
  | binary {w lhs rhs₁ rhs₂ bits s₀ s₁ s₂ s₃ s₄ g₁ g₂ g₃ g₄ g₅} : Digits s₀ → Token cw w s₁ → 58 ∉ s₁ → Token cn lhs s₂ → Token cn rhs₁ s₃ → Token cn rhs₂ s₄ →
      ¬ ascii ['[', '[', '['] <+: s₄ → Gap g₁ → Gap g₂ → Gap g₃ → Gap g₄ → Gap g₅ →
      ClauseText cn cw (w, lhs, .binary rhs₁ rhs₂, bits)
        (s₀ ++ (g₁ ++ (s₁ ++ 58 :: (s₂ ++ (g₂ ++ (ascii ['-', '-', '>'] ++ (g₃ ++ (s₃ ++ (g₄ ++ (s₄ ++ (g₅ ++ rparseYieldText bits)))))))))))

/-- The text of a file: lines that are separated by line breaks, and possibly a line break at the end. -/
def FileText (lines : List (List Nat)) (s : List Nat) : Prop := s = [10].intercalate lines ∨ s = [10].intercalate lines ++ [10]

end Rustomata.Spec
