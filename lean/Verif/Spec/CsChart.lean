/-!
# Specification of charts

An abstract chart maps each span to the entries that were accepted for it, in order.
-/

namespace Rustomata.Spec

/-- The entries of each span, oldest first. -/
abbrev AbsChart (W : Type _) := Nat → Nat → List (Nat × W)

/-- A new entry is accepted if the span has fewer than `beam` entries. -/
def AbsChart.add {W : Type _} (beam : Nat) (c : AbsChart W) (i j q : Nat) (w : W) : AbsChart W := fun i' j' =>
  if i' = i ∧ j' = j ∧ (c i j).length < beam then c i j ++ [(q, w)] else c i' j'

/-- The weight of the last entry for a state. -/
def lastWeight {W : Type _} (q : Nat) (l : List (Nat × W)) : Option W := (l.reverse.find? fun p => p.1 == q).map Prod.snd

end Rustomata.Spec
