import Verif.Spec.RuleReads

/-!
# The texts on which the readers of grammars and automata panic

Independently of the parsers: a text causes a panic if it can be read up to a place where a number, a weight or an instruction is expected and
is not what it should be.
-/

namespace Rustomata.Spec

variable {A Q N T W I : Type _}

/-- A nonempty sequence of digits for the number `n`, of any size, up to the next byte that is not a digit. -/
def NumeralReads (n : Nat) (i r : List Nat) : Prop :=
  ∃ ds : List Nat, ds ≠ [] ∧ (∀ d ∈ ds, d < 10) ∧ Nat.ofDigits 10 ds = n ∧ i = ds.reverse.map (48 + ·) ++ r ∧ ∀ b t, r = b :: t → ¬ (48 ≤ b ∧ b ≤ 57)

/-- `Var` and two numbers, one of which does not fit into 64 bits. -/
inductive VarPanics : List Nat → Prop
  | mk {m n i i₁ i₂ i₃ r} : Skips i i₁ → NumeralReads m i₁ i₂ → Skips i₂ i₃ → NumeralReads n i₃ r → 2 ^ 64 ≤ m ∨ 2 ^ 64 ≤ n →
      VarPanics (ascii ['V', 'a', 'r'] ++ i)

/-- A list up to an element that causes a panic. -/
inductive VecPanics (R : A → List Nat → List Nat → Prop) (P : List Nat → Prop) (o : Nat) : List Nat → Prop
  | mk {l i i₁ i₂ i₃ i₄} : Skips i i₁ → ItemsRead R l i₁ i₂ → (i₂ = 44 :: i₃ ∨ i₂ = i₃ ∧ (∀ t, i₂ ≠ 44 :: t) ∧ i₂ ≠ []) → Skips i₃ i₄ → P i₄ →
      VecPanics R P o (o :: i)

/-- `#` and a text up to the next space or the end that is no weight. -/
inductive WeightPanics (cw : Codec W) : List Nat → Prop
  | mk {i w r} : Skips i (w ++ r) → 32 ∉ w → (∀ b t, r = b :: t → b = 32) → cw.read w = none → WeightPanics cw (35 :: i)

/-- A PMCFG rule up to a number that is too large or a malformed weight. -/
inductive PmcfgRulePanics (cn : Codec N) (ct : Codec T) (cw : Codec W) : List Nat → Prop
  | var {h i i₁ i₂ i₃ i₄} : TokenReads cn h i i₁ → Skips i₁ i₂ → ArrowReads i₂ i₃ → Skips i₃ i₄ →
      VecPanics (VecReads (VarReads ct) 91 93) (VecPanics (VarReads ct) VarPanics 91) 91 i₄ → PmcfgRulePanics cn ct cw i
  | weight {h c l i i₁ i₂ i₃ i₄ i₅ i₆ i₇ i₈} : TokenReads cn h i i₁ → Skips i₁ i₂ → ArrowReads i₂ i₃ → Skips i₃ i₄ →
      VecReads (VecReads (VarReads ct) 91 93) 91 93 c i₄ i₅ → Skips i₅ i₆ → VecReads (TokenReads cn) 40 41 l i₆ i₇ → Skips i₇ i₈ →
      WeightPanics cw i₈ → PmcfgRulePanics cn ct cw i

/-- A grammar up to a line that is no declaration of initial nonterminals and no comment and causes a panic. -/
def GrammarPanics {R : Type _} (cn : Codec N) (rule : R → List Nat → Prop) (P : List Nat → Prop) (s : List Nat) : Prop :=
  ∃ ls l ls' ns rs t, LinesOf (ls ++ l :: ls') s ∧ GrammarLines cn rule ns rs ls ∧ Trims l t ∧ l ≠ [] ∧
    ¬ ascii ['i', 'n', 'i', 't', 'i', 'a', 'l', ':'] <+: t ∧ ¬ [37] <+: t ∧ P t

/-- A transition up to a malformed weight, or a transition with a malformed instruction. -/
inductive TransitionPanics (ct : Codec T) (cw : Codec W) (instr : I → List Nat → Prop) : List Nat → Prop
  | weight {word i i₁ i₂ body i₃ i₄} : Skips i i₁ → VecReads (TokenReads ct) 91 93 word i₁ i₂ → Skips i₂ (40 :: (body ++ 41 :: i₃)) → 41 ∉ body →
      Skips i₃ i₄ → WeightPanics cw i₄ → TransitionPanics ct cw instr (ascii ['T', 'r', 'a', 'n', 's', 'i', 't', 'i', 'o', 'n'] ++ i)
  | instruction {word i i₁ i₂ body i₃ i₄} : Skips i i₁ → VecReads (TokenReads ct) 91 93 word i₁ i₂ → Skips i₂ (40 :: (body ++ 41 :: i₃)) → 41 ∉ body →
      Skips i₃ i₄ → ((∃ v r, WeightReads cw v i₄ r) ∨ ∀ t, i₄ ≠ 35 :: t) → (∀ k, ¬ instr k body) →
      TransitionPanics ct cw instr (ascii ['T', 'r', 'a', 'n', 's', 'i', 't', 'i', 'o', 'n'] ++ i)

/-- An automaton up to a transition that causes a panic. -/
def AutomatonPanics {R : Type _} (fin : Prop) (c : Codec Q) (trans : R → List Nat → Prop) (P : List Nat → Prop) (s : List Nat) : Prop :=
  ∃ ls l ls' ds t, LinesOf (ls ++ l :: ls') s ∧ List.Forall₂ (DeclReads fin c trans) ds ls ∧ Trims l t ∧ P t

end Rustomata.Spec
