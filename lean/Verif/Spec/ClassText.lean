import Verif.Spec.Reading
import Mathlib.Data.List.Dedup

/-!
# Specification for the text of equivalence relations
-/

namespace Rustomata.Spec

variable {A B : Type _}

/-- A class: the label, and `*` for the default class or the elements in brackets. -/
inductive ClassReads (ca : Codec A) (cb : Codec B) : B × Option (List A) → List Nat → List Nat → Prop
  | default {b i i₁ r} : TokenReads cb b i i₁ → Skips i₁ (42 :: r) → ClassReads ca cb (b, none) i r
  | set {b l i i₁ i₂ r} : TokenReads cb b i i₁ → Skips i₁ i₂ → VecReads (TokenReads ca) 91 93 l i₂ r → ClassReads ca cb (b, some l) i r

/-- Lines, each of which is empty or is, up to white space, a class; text after the class is ignored. -/
inductive ClassLines (ca : Codec A) (cb : Codec B) : List (B × Option (List A)) → List (List Nat) → Prop
  | nil : ClassLines ca cb [] []
  | empty {cs ls} : ClassLines ca cb cs ls → ClassLines ca cb cs ([] :: ls)
  | line {c cs l ls s r} : l ≠ [] → Trims l s → ClassReads ca cb c s r → ClassLines ca cb cs ls → ClassLines ca cb (c :: cs) (l :: ls)

/-- A text that describes the classes, in this order. -/
def ClassFile (ca : Codec A) (cb : Codec B) (cs : List (B × Option (List A))) (s : List Nat) : Prop := ∃ ls, LinesOf ls s ∧ ClassLines ca cb cs ls

end Rustomata.Spec
