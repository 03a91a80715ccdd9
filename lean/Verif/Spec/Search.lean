/-!
# Specification of graph search: reachability

Independent of the model of the search.
-/

namespace Rustomata.Spec

/-- `Reach succ init x`: `x` is reachable from some item of `init`. -/
inductive Reach {I : Type _} (succ : I → List I) (init : I → Prop) : I → Prop
  | base {x} : init x → Reach succ init x
  | step {x y} : Reach succ init x → y ∈ succ x → Reach succ init y

/-- `ReachIn succ init d x`: there is a path with `d` edges from some item of `init` to `x`. -/
inductive ReachIn {I : Type _} (succ : I → List I) (init : I → Prop) : Nat → I → Prop
  | base {x} : init x → ReachIn succ init 0 x
  | step {d x y} : ReachIn succ init d x → y ∈ succ x → ReachIn succ init (d + 1) y

/-- `Pre succ x l`: the unfolding of the graph from `x` is a finite tree with pre-order listing `l`,
where the successors are visited from the last to the first. -/
inductive Pre {I : Type _} (succ : I → List I) : List I → List I → Prop
  | nil : Pre succ [] []
  | cons {x xs l r} : Pre succ (succ x) l → Pre succ xs r → Pre succ (xs ++ [x]) (x :: l ++ r)

end Rustomata.Spec
