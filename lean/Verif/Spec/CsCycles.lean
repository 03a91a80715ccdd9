import Verif.Spec.CsKBest
import Verif.Spec.CsParse
import Mathlib.Algebra.Group.Defs

/-!
# Cycles of chain rules
-/

namespace Rustomata.Spec

section
variable {T W : Type _}

/-- `ChainPath G q q' v`: a nonempty sequence of chain rules leads from `q` to `q'`, the product of their weights is `v`. -/
inductive ChainPath [Mul W] (G : BinGrammar T W) : Nat → Nat → W → Prop
  | one {q q₁ rid : Nat} {w : W} : G.unary rid q q₁ w → ChainPath G q q₁ w
  | cons {q q₁ q₂ rid : Nat} {w v : W} : G.unary rid q q₁ w → ChainPath G q₁ q₂ v → ChainPath G q q₂ (w * v)

/-- Each cycle of chain rules lowers all weights, except zero. -/
def CyclesLower [Mul W] [Zero W] [LT W] (G : BinGrammar T W) : Prop := ∀ q v x, ChainPath G q q v → x ≠ 0 → v * x < x

/-- The repetitions of a cycle of chain rules lower each weight below any weight, except zero. -/
def CyclesVanish [Monoid W] [Zero W] [LT W] (G : BinGrammar T W) : Prop := ∀ q v x y, ChainPath G q q v → x ≠ 0 → ∃ k : Nat, v ^ k * y < x

/-- All rules have weights of at most one. -/
def RulesLeOne [One W] [LE W] (G : BinGrammar T W) : Prop :=
  (∀ rid q a w, G.nullary rid q a w → w ≤ 1) ∧ (∀ rid q q₁ w, G.unary rid q q₁ w → w ≤ 1) ∧ ∀ rid q q₁ q₂ w, G.binary rid q q₁ q₂ w → w ≤ 1

end

section
variable {N T W : Type _}

/-- `VariablePath factorize rules A c B j v`: a nonempty sequence of components that consist of one variable leads from component `c` of `A` to component `j` of
`B`; `v` is the product of their weights. -/
inductive VariablePath [Mul W] (factorize : W → Nat → List W) (rules : List (PMCFGRule N T W)) : N → Nat → N → Nat → W → Prop
  | one {r : PMCFGRule N T W} {c i j : Nat} {B : N} {f : W} : r ∈ rules → r.composition[c]? = some [.var i j] → r.tail[i]? = some B →
      (factorize r.weight r.composition.length)[c]? = some f → VariablePath factorize rules r.head c B j f
  | cons {r : PMCFGRule N T W} {c i j k : Nat} {B D : N} {f v : W} : r ∈ rules → r.composition[c]? = some [.var i j] → r.tail[i]? = some B →
      (factorize r.weight r.composition.length)[c]? = some f → VariablePath factorize rules B j D k v → VariablePath factorize rules r.head c D k (f * v)

/-- Each cycle of components that consist of one variable lowers all weights, except zero. -/
def VariableCyclesLower [Mul W] [Zero W] [LT W] (factorize : W → Nat → List W) (rules : List (PMCFGRule N T W)) : Prop :=
  ∀ A c v x, VariablePath factorize rules A c A c v → x ≠ 0 → v * x < x

/-- The repetitions of a cycle of components that consist of one variable lower each weight below any weight, except zero. -/
def VariableCyclesVanish [Monoid W] [Zero W] [LT W] (factorize : W → Nat → List W) (rules : List (PMCFGRule N T W)) : Prop :=
  ∀ A c v x y, VariablePath factorize rules A c A c v → x ≠ 0 → ∃ k : Nat, v ^ k * y < x

/-- `out` are derivations of the word, each at most once, in the order of their weights; no other derivation has a greater weight than one of them. -/
def BestParses [Monoid W] [LE W] (rules : List (PMCFGRule N T W)) (init : N) (word : List T) (out : List (GornTree (PMCFGRule N T W))) : Prop :=
  ∃ ds, ParsedBy rules init word ds out ∧ ∀ e d, Numbers rules e d → Derives rules init d [word] → (e, d) ∈ ds ∨ ∀ x ∈ ds, d.weight ≤ x.2.weight

end

end Rustomata.Spec
