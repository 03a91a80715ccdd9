import Verif.Spec.CsRules
import Verif.Model.Dyck

/-!
# Specification of the enumeration of derivations in a chart

A derivation in a chart uses, below its root, only states that are in the chart for their spans. Its bracket word encloses the words of its parts in the brackets
of its rules.
-/

namespace Rustomata.Spec

/-- `ChartDerives G inChart i j q t w`: `t` is a derivation of the span from `i` to `j` from `q` whose parts are in the chart and whose weight is `w`. Terminals are
not compared to a word: the chart contains the states that derive the words of a sentence. -/
inductive ChartDerives {T W : Type _} [Mul W] (G : BinGrammar T W) (inChart : Nat → Nat → Nat → Prop) : Nat → Nat → Nat → BinTree → W → Prop
  | nullary {i q rid : Nat} {a : T} {w : W} : G.nullary rid q a w → ChartDerives G inChart i (i + 1) q (.nullary rid) w
  | unary {i j q q₁ rid : Nat} {t : BinTree} {w w₁ : W} : G.unary rid q q₁ w → inChart i j q₁ → ChartDerives G inChart i j q₁ t w₁ →
      ChartDerives G inChart i j q (.unary rid t) (w * w₁)
  | binary {i m j q q₁ q₂ rid : Nat} {t₁ t₂ : BinTree} {w w₁ w₂ : W} : i < m → m < j → G.binary rid q q₁ q₂ w → inChart i m q₁ → inChart m j q₂ →
      ChartDerives G inChart i m q₁ t₁ w₁ → ChartDerives G inChart m j q₂ t₂ w₂ → ChartDerives G inChart i j q (.binary rid m t₁ t₂) (w * w₁ * w₂)

/-- `Way G cw i j q w`: a rule for `q` and the weights of its parts in the chart (`cw`) give the weight `w`. -/
inductive Way {T W : Type _} [Mul W] (G : BinGrammar T W) (cw : Nat → Nat → Nat → Option W) : Nat → Nat → Nat → W → Prop
  | nullary {i q rid : Nat} {a : T} {w : W} : G.nullary rid q a w → Way G cw i (i + 1) q w
  | unary {i j q q₁ rid : Nat} {w w₁ : W} : G.unary rid q q₁ w → cw i j q₁ = some w₁ → Way G cw i j q (w * w₁)
  | binary {i m j q q₁ q₂ rid : Nat} {w w₁ w₂ : W} : i < m → m < j → G.binary rid q q₁ q₂ w → cw i m q₁ = some w₁ → cw m j q₂ = some w₂ →
      Way G cw i j q (w * w₁ * w₂)

/-- The weight of each state in the chart is the greatest weight given by a rule. -/
def ChartBest {T W : Type _} [Mul W] [LE W] (G : BinGrammar T W) (cw : Nat → Nat → Nat → Option W) (n states : Nat) : Prop :=
  ∀ i j q w, i < j → j ≤ n → q < states → cw i j q = some w → Way G cw i j q w ∧ ∀ w', Way G cw i j q w' → w' ≤ w

/-- There are no cycles of chain rules. -/
def NoChainCycle {T W : Type _} (G : BinGrammar T W) : Prop := ∃ rank : Nat → Nat, ∀ rid q q₁ w, G.unary rid q q₁ w → rank q₁ < rank q

/-- Each state with a terminal rule has only rules for this terminal. -/
def TerminalDet {T W : Type _} (G : BinGrammar T W) : Prop :=
  ∀ rid q a w, G.nullary rid q a w → (∀ rid' a' w', G.nullary rid' q a' w' → a' = a) ∧ ∀ rid' q₁ w', ¬ G.unary rid' q q₁ w'

/-- A word in a pair of brackets; `Ignore` stands for no brackets. -/
def inBrackets (b : BracketContent) (w : List (Bracket BracketContent)) : List (Bracket BracketContent) :=
  match b with
  | .ignore => w
  | b => [.open_ b] ++ w ++ [.close b]

/-- The bracket word of a derivation, given the brackets of the rules. -/
def treeWord (brackets : List TdBrackets) : BinTree → Option (List (Bracket BracketContent))
  | .nullary rid => (brackets[rid]?).map fun b => inBrackets b.outer (inBrackets b.left [])
  | .unary rid t => (brackets[rid]?).bind fun b => (treeWord brackets t).map fun w => inBrackets b.outer (inBrackets b.left w)
  | .binary rid _ l r => (brackets[rid]?).bind fun b => (treeWord brackets l).bind fun w₁ => (treeWord brackets r).map fun w₂ =>
      inBrackets b.outer (inBrackets b.left w₁ ++ inBrackets b.right w₂)

end Rustomata.Spec
