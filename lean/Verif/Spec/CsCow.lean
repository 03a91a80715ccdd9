import Verif.Model.CsParse

/-!
# Specification of cow derivations

The edges of a cow derivation are labelled by the variables of components. A position is given by the numbers of the nonterminals on the path from the root; there may be several
nodes at one position.
-/

namespace Rustomata.Spec

/-- The nodes of some trees at a position. -/
def cowNodes : List CowNode → List Nat → List CowNode
  | ts, [] => ts
  | ts, i :: p => cowNodes (ts.flatMap fun t => (t.successors.filter fun s => s.1.1 = i).map Prod.snd) p

/-- The nodes at one position agree. -/
def CowAgree (ts : List CowNode) (p : List Nat) : Prop := ∀ a ∈ cowNodes ts p, ∀ b ∈ cowNodes ts p, a.content = b.content

/-- The nodes at each position agree. -/
def CowConsistent (ts : List CowNode) : Prop := ∀ p, CowAgree ts p

/-- If there is a node for a nonterminal of a right-hand side, then there are nodes for the nonterminals to the left. -/
def CowDense (ts : List CowNode) : Prop := ∀ p i i', i' < i → cowNodes ts (p ++ [i]) ≠ [] → cowNodes ts (p ++ [i']) ≠ []

/-- All numbers of rules are less than `n`. -/
def CowBelow (n : Nat) (ts : List CowNode) : Prop := ∀ p, ∀ t ∈ cowNodes ts p, t.content < n

/-- The rule at a position. -/
def cowRule {R : Type _} (rules : List R) (ts : List CowNode) (p : List Nat) : Option R := (cowNodes ts p).head?.bind fun t => rules[t.content]?

end Rustomata.Spec
