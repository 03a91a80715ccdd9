import Verif.Model.Ord

/-!
# Specification: the contracts of `Eq`, `Ord`, `PartialOrd` and `Hash`

These are the requirements that the documentation of the Rust standard library states for implementations of these traits.
-/

namespace Rustomata.Spec
variable {A : Type _}

/-- `Eq`: an equivalence relation. -/
structure EqLaws (eq : A → A → Bool) : Prop where
  refl : ∀ a, eq a a = true
  symm : ∀ a b, eq a b = true → eq b a = true
  trans : ∀ a b c, eq a b = true → eq b c = true → eq a c = true

/-- `Ord`: a total preorder. -/
structure CmpLaws (cmp : A → A → Ordering) : Prop where
  swap : ∀ a b, cmp b a = (cmp a b).swap
  trans : ∀ a b c, cmp a b ≠ .gt → cmp b c ≠ .gt → cmp a c ≠ .gt

/-- `Ord` and `Eq` agree: `a.cmp(b) == Equal` iff `a == b`. -/
def CmpAgrees (eq : A → A → Bool) (cmp : A → A → Ordering) : Prop := ∀ a b, cmp a b = .eq ↔ eq a b = true

/-- `PartialOrd` and `Ord` agree: `a.partial_cmp(b) == Some(a.cmp(b))`. -/
def PartialAgrees (pcmp : A → A → Option Ordering) (cmp : A → A → Ordering) : Prop := ∀ a b, pcmp a b = some (cmp a b)

/-- `Hash` and `Eq` agree: equal values have equal hashes. -/
def HashAgrees {H : Type _} (eq : A → A → Bool) (hash : A → H) : Prop := ∀ a b, eq a b = true → hash a = hash b

/-- The data that are given to the hasher determine the value up to `==`, also if other data follow. -/
def HashSeparates (eq : A → A → Bool) (hash : A → List Nat) : Prop := ∀ a b r s, hash a ++ r = hash b ++ s → eq a b = true ∧ r = s

/-- `PartialOrd` for types without `Ord`: `<` is transitive and dual to `>`. -/
structure PartialLaws (pcmp : A → A → Option Ordering) : Prop where
  swap : ∀ a b, pcmp b a = (pcmp a b).map Ordering.swap
  trans : ∀ a b c, pcmp a b = some .lt → pcmp b c = some .lt → pcmp a c = some .lt

/-- All pointers of a push-down are addresses in the same memory. -/
def Allocated (memory : Nat → RcPushdown A) : RcPushdown A → Prop
  | .empty => True
  | .cons _ r b => memory r = b ∧ Allocated memory b

/-- All parents of a tree stack are at addresses in the same memory. -/
def AllocatedParents (memory : Nat → A × RcParents A × Forest A) : RcParents A → Prop
  | .none => True
  | .some _ r v ps c => memory r = (v, ps, c) ∧ AllocatedParents memory ps

end Rustomata.Spec
