import Verif.Spec.Pmcfg

/-!
# Specification of the NEGRA export
-/

namespace Rustomata.Spec
variable {N T W : Type _}

/-- Each terminal of a composition, together with an address. -/
def locate (a : List Nat) (c : Composition T) : Composition (T × List Nat) :=
  c.map fun s => s.map fun | .var i j => .var i j | .t t => .t (t, a)

/-- `Yield m v`: the tree of rules `m` evaluates to the tuple `v`, where each terminal comes with the address of its rule. -/
def Yield (m : List Nat → Option (PMCFGRule N T W)) (v : List (List (T × List Nat))) : Prop :=
  Eval (fun a => (m a).map fun r => locate a r.composition) [] v

/-- The number of a node if `nodes` are the inner nodes without the root, in the order of their lines. -/
def nodeNumber (nodes : List (List Nat)) (a : List Nat) : Nat := if a = [] then 0 else 500 + nodes.idxOf a

/-- A node dominates a node other than itself. -/
def Dominates (a b : List Nat) : Prop := a <+: b ∧ a ≠ b

end Rustomata.Spec
