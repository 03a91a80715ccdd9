import Mathlib.Algebra.Group.Defs

/-!
# Specification for the context-free part of the Chomsky-Schützenberger parser

Weighted context-free grammars with rules of the forms `q → a`, `q → q₁` and `q → q₁ q₂`, whose rules have identifiers; derivation trees for spans of a word.
-/

namespace Rustomata.Spec

/-- A weighted grammar; each kind of rule is given by identifier, left-hand side, right-hand side and weight. -/
structure BinGrammar (T W : Type _) where
  nullary : Nat → Nat → T → W → Prop
  unary : Nat → Nat → Nat → W → Prop
  binary : Nat → Nat → Nat → Nat → W → Prop

/-- Derivation trees: rule identifiers and, for binary rules, the position between the two parts. -/
inductive BinTree
  | nullary (rid : Nat)
  | unary (rid : Nat) (t : BinTree)
  | binary (rid mid : Nat) (l r : BinTree)
deriving DecidableEq

/-- `G.Derives word ok i j q t w`: the tree `t` derives the span from `i` to `j` of the word from `q`, its weight is `w`, and all its nodes (state and span)
satisfy `ok`. -/
inductive BinGrammar.Derives {T W : Type _} [Mul W] (G : BinGrammar T W) (word : List T) (ok : Nat → Nat → Nat → Prop) :
    Nat → Nat → Nat → BinTree → W → Prop
  | nullary {i q rid : Nat} {a : T} {w : W} : word[i]? = some a → G.nullary rid q a w → ok q i (i + 1) →
      G.Derives word ok i (i + 1) q (.nullary rid) w
  | unary {i j q q₁ rid : Nat} {t : BinTree} {w w₁ : W} : G.unary rid q q₁ w → ok q i j → G.Derives word ok i j q₁ t w₁ →
      G.Derives word ok i j q (.unary rid t) (w * w₁)
  | binary {i m j q q₁ q₂ rid : Nat} {t₁ t₂ : BinTree} {w w₁ w₂ : W} : G.binary rid q q₁ q₂ w → ok q i j →
      G.Derives word ok i m q₁ t₁ w₁ → G.Derives word ok m j q₂ t₂ w₂ → G.Derives word ok i j q (.binary rid m t₁ t₂) (w * w₁ * w₂)

/-- `G.Contains word ok i' j' q' t' w' i j q t w`: the derivation `t` of the span from `i` to `j` contains the derivation `t'` of the span from `i'` to `j'` as a
subtree; `w` and `w'` are their weights. -/
inductive BinGrammar.Contains {T W : Type _} [Mul W] (G : BinGrammar T W) (word : List T) (ok : Nat → Nat → Nat → Prop) (i' j' q' : Nat) (t' : BinTree) (w' : W) :
    Nat → Nat → Nat → BinTree → W → Prop
  | self : G.Derives word ok i' j' q' t' w' → G.Contains word ok i' j' q' t' w' i' j' q' t' w'
  | unary {i j q q₁ rid : Nat} {t : BinTree} {w w₁ : W} : G.unary rid q q₁ w → ok q i j → G.Contains word ok i' j' q' t' w' i j q₁ t w₁ →
      G.Contains word ok i' j' q' t' w' i j q (.unary rid t) (w * w₁)
  | left {i m j q q₁ q₂ rid : Nat} {t₁ t₂ : BinTree} {w w₁ w₂ : W} : G.binary rid q q₁ q₂ w → ok q i j →
      G.Contains word ok i' j' q' t' w' i m q₁ t₁ w₁ → G.Derives word ok m j q₂ t₂ w₂ →
      G.Contains word ok i' j' q' t' w' i j q (.binary rid m t₁ t₂) (w * w₁ * w₂)
  | right {i m j q q₁ q₂ rid : Nat} {t₁ t₂ : BinTree} {w w₁ w₂ : W} : G.binary rid q q₁ q₂ w → ok q i j →
      G.Derives word ok i m q₁ t₁ w₁ → G.Contains word ok i' j' q' t' w' m j q₂ t₂ w₂ →
      G.Contains word ok i' j' q' t' w' i j q (.binary rid m t₁ t₂) (w * w₁ * w₂)

end Rustomata.Spec
