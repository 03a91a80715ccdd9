import Verif.Spec.Pmcfg

/-!
# Specification of a breadth-first search that stops at the first repetition
-/

namespace Rustomata.Spec
variable {I N T W : Type _}

/-- What is discovered when the items of the second list are visited one after the other: the successors of each item that have not been visited before (or are the item itself). -/
def discoveries [DecidableEq I] (succ : I → List I) : List I → List I → List I
  | _, [] => []
  | seen, y :: ys => (succ y).filter (fun z => z ∉ y :: seen) ++ discoveries succ (y :: seen) ys

/-- The longest prefix of a list without repetitions. -/
structure DistinctPrefix (ys ps : List I) : Prop where
  isPrefix : ys <+: ps
  nodup : ys.Nodup
  longest : ∀ zs, zs <+: ps → zs.Nodup → zs <+: ys

/-- The result of a breadth-first search that stops at the first repetition: the items are visited in the order of their discovery, up to the first one that was visited before. -/
def StoppingSearch [DecidableEq I] (succ : I → List I) (start ys : List I) : Prop := DistinctPrefix ys (start ++ discoveries succ [] ys)

variable [DecidableEq N]

/-- The nonterminals in the right-hand sides of the rules for a nonterminal. -/
def childNonterminals (rules : List (PMCFGRule N T W)) (A : N) : List N := (rules.filter fun r => r.head = A).flatMap PMCFGRule.tail

/-- A rule, where nothing is deleted. -/
def keepAll (r : PMCFGRule N T W) : PMCFGRule (N × List Nat) T W := ⟨(r.head, []), r.tail.map fun A => (A, []), r.composition, r.weight⟩

end Rustomata.Spec
