import Verif.Spec.Reading
import Verif.Spec.AutomatonText

/-!
# The texts that are read as rules, grammars, transitions and automata
-/

namespace Rustomata.Spec

variable {A Q N T W I : Type _}

/-- `r` begins after one of the arrows `→`, `->` and `=>`. -/
def ArrowReads (i r : List Nat) : Prop := i = arrow ++ r ∨ i = ascii ['-', '>'] ++ r ∨ i = ascii ['=', '>'] ++ r

/-- `Nt` and a nonterminal, or `T` and a terminal. -/
inductive LetterReads (cn : Codec N) (ct : Codec T) : LetterT N T → List Nat → List Nat → Prop
  | label {n i i₁ r} : Skips i i₁ → TokenReads cn n i₁ r → LetterReads cn ct (.label n) (ascii ['N', 't'] ++ i) r
  | value {t i i₁ r} : Skips i i₁ → TokenReads ct t i₁ r → LetterReads cn ct (.value t) (ascii ['T'] ++ i) r

/-- `#` and a weight up to the next space or the end of the text. -/
inductive WeightReads (cw : Codec W) : W → List Nat → List Nat → Prop
  | mk {v i w r} : Skips i (w ++ r) → 32 ∉ w → (∀ b t, r = b :: t → b = 32) → cw.read w = some v → WeightReads cw v (35 :: i) r

/-- The text of a context-free rule: the left-hand side, an arrow, the list of letters, optionally a weight, and optionally a comment. -/
inductive CfgRuleReads [One W] (cn : Codec N) (ct : Codec T) (cw : Codec W) : CFGRule N T W → List Nat → Prop
  | weight {h c v i i₁ i₂ i₃ i₄ i₅ i₆ i₇ i₈} : TokenReads cn h i i₁ → Skips i₁ i₂ → ArrowReads i₂ i₃ → Skips i₃ i₄ →
      VecReads (LetterReads cn ct) 91 93 c i₄ i₅ → Skips i₅ i₆ → WeightReads cw v i₆ i₇ → Skips i₇ i₈ → (i₈ = [] ∨ ∃ t, i₈ = 37 :: t) →
      CfgRuleReads cn ct cw ⟨h, c, v⟩ i
  | plain {h c i i₁ i₂ i₃ i₄ i₅ i₆} : TokenReads cn h i i₁ → Skips i₁ i₂ → ArrowReads i₂ i₃ → Skips i₃ i₄ →
      VecReads (LetterReads cn ct) 91 93 c i₄ i₅ → Skips i₅ i₆ → (i₆ = [] ∨ ∃ t, i₆ = 37 :: t) → CfgRuleReads cn ct cw ⟨h, c, 1⟩ i

/-- A nonempty sequence of digits, up to the next byte that is not a digit, for a number that fits into 64 bits. -/
def DigitsRead (n : Nat) (i r : List Nat) : Prop :=
  ∃ ds : List Nat, ds ≠ [] ∧ (∀ d ∈ ds, d < 10) ∧ Nat.ofDigits 10 ds = n ∧ n < 2 ^ 64 ∧ i = ds.reverse.map (48 + ·) ++ r ∧
    ∀ b t, r = b :: t → ¬ (48 ≤ b ∧ b ≤ 57)

/-- `Var` and two numbers, or `T` and a terminal. -/
inductive VarReads (ct : Codec T) : VarT T → List Nat → List Nat → Prop
  | var {m n i i₁ i₂ i₃ r} : Skips i i₁ → DigitsRead m i₁ i₂ → Skips i₂ i₃ → DigitsRead n i₃ r → VarReads ct (.var m n) (ascii ['V', 'a', 'r'] ++ i) r
  | term {t i i₁ r} : Skips i i₁ → TokenReads ct t i₁ r → VarReads ct (.t t) (ascii ['T'] ++ i) r

/-- The text of a PMCFG rule: the left-hand side, an arrow, the composition, the successors, and optionally a weight. Text after that is
ignored. -/
inductive PmcfgRuleReads [One W] (cn : Codec N) (ct : Codec T) (cw : Codec W) : PMCFGRule N T W → List Nat → Prop
  | weight {h c l v i i₁ i₂ i₃ i₄ i₅ i₆ i₇ i₈ r} : TokenReads cn h i i₁ → Skips i₁ i₂ → ArrowReads i₂ i₃ → Skips i₃ i₄ →
      VecReads (VecReads (VarReads ct) 91 93) 91 93 c i₄ i₅ → Skips i₅ i₆ → VecReads (TokenReads cn) 40 41 l i₆ i₇ → Skips i₇ i₈ →
      WeightReads cw v i₈ r → PmcfgRuleReads cn ct cw ⟨h, l, c, v⟩ i
  | plain {h c l i i₁ i₂ i₃ i₄ i₅ i₆ i₇ i₈} : TokenReads cn h i i₁ → Skips i₁ i₂ → ArrowReads i₂ i₃ → Skips i₃ i₄ →
      VecReads (VecReads (VarReads ct) 91 93) 91 93 c i₄ i₅ → Skips i₅ i₆ → VecReads (TokenReads cn) 40 41 l i₆ i₇ → Skips i₇ i₈ →
      (∀ t, i₈ ≠ 35 :: t) → PmcfgRuleReads cn ct cw ⟨h, l, c, 1⟩ i

/-- The lines of a grammar. A line that begins with `initial:` lists initial nonterminals; empty lines and comments are ignored; each other
line is a rule. -/
inductive GrammarLines {R : Type _} (cn : Codec N) (rule : R → List Nat → Prop) : List N → List R → List (List Nat) → Prop
  | nil : GrammarLines cn rule [] [] []
  | initial {ns ns' rs i i₁ r ls} : Skips i i₁ → VecReads (TokenReads cn) 91 93 ns i₁ r → GrammarLines cn rule ns' rs ls →
      GrammarLines cn rule (ns ++ ns') rs ((ascii ['i', 'n', 'i', 't', 'i', 'a', 'l', ':'] ++ i) :: ls)
  | rule {ns r rs l s ls} : Trims l s → l ≠ [] → ¬ ascii ['i', 'n', 'i', 't', 'i', 'a', 'l', ':'] <+: s → ¬ [37] <+: s → rule r s →
      GrammarLines cn rule ns rs ls → GrammarLines cn rule ns (r :: rs) (l :: ls)
  | comment {ns rs l s ls} : Trims l (37 :: s) → GrammarLines cn rule ns rs ls → GrammarLines cn rule ns rs (l :: ls)
  | empty {ns rs ls} : GrammarLines cn rule ns rs ls → GrammarLines cn rule ns rs ([] :: ls)

/-- The text of a grammar. -/
def GrammarFile {R : Type _} (cn : Codec N) (rule : R → List Nat → Prop) (ns : List N) (rs : List R) (s : List Nat) : Prop :=
  ∃ ls, LinesOf ls s ∧ GrammarLines cn rule ns rs ls

/-- The text of a transition: `Transition`, the word, the instruction in parentheses, and optionally a weight. Text after that is ignored. -/
inductive TransitionReads [One W] (ct : Codec T) (cw : Codec W) (instr : I → List Nat → Prop) : Transition I T W → List Nat → Prop
  | weight {word k v i i₁ i₂ body i₃ i₄ r} : Skips i i₁ → VecReads (TokenReads ct) 91 93 word i₁ i₂ → Skips i₂ (40 :: (body ++ 41 :: i₃)) → 41 ∉ body →
      instr k body → Skips i₃ i₄ → WeightReads cw v i₄ r →
      TransitionReads ct cw instr ⟨word, v, k⟩ (ascii ['T', 'r', 'a', 'n', 's', 'i', 't', 'i', 'o', 'n'] ++ i)
  | plain {word k i i₁ i₂ body i₃ i₄} : Skips i i₁ → VecReads (TokenReads ct) 91 93 word i₁ i₂ → Skips i₂ (40 :: (body ++ 41 :: i₃)) → 41 ∉ body →
      instr k body → Skips i₃ i₄ → (∀ t, i₄ ≠ 35 :: t) →
      TransitionReads ct cw instr ⟨word, 1, k⟩ (ascii ['T', 'r', 'a', 'n', 's', 'i', 't', 'i', 'o', 'n'] ++ i)

/-- What a line of an automaton file says, for all lines that are accepted; final states can be declared if `fin` holds. -/
inductive DeclReads {R : Type _} (fin : Prop) (c : Codec Q) (trans : R → List Nat → Prop) : Decl Q R → List Nat → Prop
  | initial {q l i i₁ r} : TrimsStart l (ascii ['i', 'n', 'i', 't', 'i', 'a', 'l', ':'] ++ i) → Skips i i₁ → TokenReads c q i₁ r →
      DeclReads fin c trans (.initial q) l
  | final {qs l i i₁ r} : fin → TrimsStart l (ascii ['f', 'i', 'n', 'a', 'l', ':'] ++ i) → Skips i i₁ → VecReads (TokenReads c) 91 93 qs i₁ r →
      DeclReads fin c trans (.final qs) l
  | transition {t l s} : Trims l s → trans t s → DeclReads fin c trans (.transition t) l
  | comment {l s} : TrimsStart l (37 :: s) → DeclReads fin c trans .nothing l
  | empty : DeclReads fin c trans .nothing []

end Rustomata.Spec
