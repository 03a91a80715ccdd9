import Verif.Model.FromStr

/-!
# Specification for printed rules
-/

namespace Rustomata.Spec

/-- A text that can be put between quotes: each backslash is followed by a backslash or a quote, and quotes occur only after such a
backslash. -/
inductive Quotable : List Nat → Prop
  | nil : Quotable []
  | plain {b s} : b ≠ 34 → b ≠ 92 → Quotable s → Quotable (b :: s)
  | esc {b s} : b = 34 ∨ b = 92 → Quotable s → Quotable (92 :: b :: s)

variable {A N T W : Type _}

/-- A symbol that is recovered from its text and whose text can be put between quotes. -/
def GoodSymbol (c : Codec A) (a : A) : Prop := c.read (c.text a) = some a ∧ Quotable (c.text a)

/-- A weight that is recovered from its text, and whose text consists of printable ASCII bytes other than the space. -/
def GoodWeight (c : Codec W) (w : W) : Prop :=
  c.read (c.text w) = some w ∧ c.text w ≠ [] ∧ ∀ b ∈ c.text w, 33 ≤ b ∧ b ≤ 126

/-- The symbols and the weight of a context-free rule. -/
def GoodCfgRule (cn : Codec N) (ct : Codec T) (cw : Codec W) (r : CFGRule N T W) : Prop :=
  GoodSymbol cn r.head ∧ (∀ n, .label n ∈ r.composition → GoodSymbol cn n) ∧ (∀ t, .value t ∈ r.composition → GoodSymbol ct t) ∧
    GoodWeight cw r.weight

/-- The symbols and the weight of a PMCFG rule, whose variables are numbers of type `usize`. -/
def GoodPmcfgRule (cn : Codec N) (ct : Codec T) (cw : Codec W) (r : PMCFGRule N T W) : Prop :=
  GoodSymbol cn r.head ∧ (∀ n ∈ r.tail, GoodSymbol cn n) ∧ (∀ t, .t t ∈ r.composition.flatten → GoodSymbol ct t) ∧
    (∀ i j, .var i j ∈ r.composition.flatten → i < 2 ^ 64 ∧ j < 2 ^ 64) ∧ GoodWeight cw r.weight

/-- No symbol of the rule contains a line break. -/
def RuleOnLine (cn : Codec N) (ct : Codec T) (r : PMCFGRule N T W) : Prop :=
  10 ∉ cn.text r.head ∧ (∀ n ∈ r.tail, 10 ∉ cn.text n) ∧ ∀ t, .t t ∈ r.composition.flatten → 10 ∉ ct.text t

/-- A symbol that is recovered from its text, and whose text is not empty and contains no white space, no quotes, and no byte of
`\`, `-`, `→`, `,`, `;`, `)`, `]`, `%` and `#`. -/
def BareSymbol (c : Codec A) (a : A) : Prop :=
  c.read (c.text a) = some a ∧ c.text a ≠ [] ∧
    ∀ b ∈ c.text a, b ∉ [32, 92, 34, 45, 0xE2, 0x86, 0x92, 44, 59, 41, 93, 37, 35] ∧ b ≠ 9 ∧ b ≠ 10

/-- The text contains `#`, spaces or tabs, and a text up to the next space or the end that is no weight. -/
def BadWeight (c : Codec W) (s : List Nat) : Prop :=
  ∃ u w t v, s = u ++ 35 :: (w ++ (t ++ v)) ∧ (∀ b ∈ w, b = 32 ∨ b = 9) ∧ (∀ b r, t ++ v = b :: r → b ≠ 32 ∧ b ≠ 9) ∧ 32 ∉ t ∧
    (v = [] ∨ ∃ r, v = 32 :: r) ∧ c.read t = none

end Rustomata.Spec
