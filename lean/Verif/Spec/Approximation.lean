import Verif.Model.Approximation
import Verif.Spec.Recognise

/-!
# Specification: which transitions correspond under an approximation
-/

namespace Rustomata.Spec
variable {S₁ I₁ S₂ I₂ T W : Type _}

/-- `t2` reads the same word as `t1` and has its approximated instruction; the weights may differ. -/
def Mirrors (Z : ApproximationStrategy S₁ I₁ S₂ I₂) (t1 : Transition I₁ T W) (t2 : Transition I₂ T W) : Prop :=
  t2.word = t1.word ∧ t2.instruction = Z.instruction t1.instruction

/-- The approximation simulates every instruction, approximated instructions are deterministic, and an approximated storage accepts iff the
storage does. -/
structure Simulation (Z : ApproximationStrategy S₁ I₁ S₂ I₂) (ap₁ : I₁ → S₁ → List S₁) (ap₂ : I₂ → S₂ → List S₂)
    (acc₁ : S₁ → Bool) (acc₂ : S₂ → Bool) : Prop where
  step : ∀ i s s', s' ∈ ap₁ i s → Z.storage s' ∈ ap₂ (Z.instruction i) (Z.storage s)
  det : ∀ i s, (ap₂ i s).length ≤ 1
  acc : ∀ s, acc₂ (Z.storage s) = acc₁ s

/-- The pushdown with the given elements, first pushed first. -/
def pushdownOf {X : Type _} : List X → Pushdown X := List.foldl Pushdown.push Pushdown.empty

/-- The classes with their members; every element without class is in the default class. -/
def ClassOf {A B : Type _} (classes : List (B × List A)) (default : B) (a : A) (b : B) : Prop :=
  (∃ members, (b, members) ∈ classes ∧ a ∈ members) ∨ (b = default ∧ ∀ c ∈ classes, a ∉ c.2)

end Rustomata.Spec
