import Verif.Model.Tsa

/-!
# Specification of tree stacks: a labelled tree with a pointer

What a user sees of a tree stack is the result of `to_tree`: labels at addresses and the address of the pointer.
-/

namespace Rustomata.Spec
variable {A : Type _}

/-- A partial labelling of addresses and a pointer. -/
structure Marked (A : Type _) where
  label : List Nat → Option A
  pointer : List Nat

namespace Marked

/-- Write a label at an address. -/
def write (m : Marked A) (p : List Nat) (a : A) : Marked A := { m with label := fun q => if q = p then some a else m.label q }

/-- Move the pointer. -/
def move (m : Marked A) (p : List Nat) : Marked A := { m with pointer := p }

/-- The address of the `n`-th child of the node at the pointer. -/
def child (m : Marked A) (n : Nat) : List Nat := m.pointer ++ [n]

end Marked

/-- What `to_tree` shows. -/
def view (t : TreeStack A) : Marked A := ⟨fun p => t.toTree.1.get p, t.toTree.2⟩

/-- The tree stacks that can be built with the operations of `TreeStack`. -/
inductive Reachable : TreeStack A → Prop
  | new (a) : Reachable (TreeStack.new a)
  | set {t} (a) : Reachable t → Reachable (t.set a)
  | push {t n a s} : Reachable t → t.push n a = .ok s → Reachable s
  | push_err {t n a s} : Reachable t → t.push n a = .error s → Reachable s
  | pushNext {t a s} : Reachable t → t.pushNext a = some s → Reachable s
  | up {t n s} : Reachable t → t.up n = .ok s → Reachable s
  | up_err {t n s} : Reachable t → t.up n = .error s → Reachable s
  | ups {t l s} : Reachable t → t.ups = some l → s ∈ l → Reachable s
  | down {t s} : Reachable t → t.down = .ok s → Reachable s
  | down_err {t s} : Reachable t → t.down = .error s → Reachable s

end Rustomata.Spec
