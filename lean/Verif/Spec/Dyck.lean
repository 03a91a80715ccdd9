import Verif.Model.Dyck

/-!
# Specification of Dyck languages and multiple Dyck languages

Uses only the type `Bracket` of the model.
-/

namespace Rustomata.Spec

/-- The Dyck language over `A`: `S → ε | S S | (a S )a`. -/
inductive Dyck {A : Type _} : List (Bracket A) → Prop
  | nil : Dyck []
  | append {u v} : Dyck u → Dyck v → Dyck (u ++ v)
  | wrap (a : A) {u} : Dyck u → Dyck (.open_ a :: u ++ [.close a])

/-- The pairs of matching brackets of a word: a forest. Each pair carries its symbol and the name of its group. -/
inductive Pairs (T : Type _)
  | nil
  | pair (symbol : T) (group : List Nat) (inside : Pairs T) (after : Pairs T)

namespace Pairs
variable {T : Type _}

/-- The bracket word. -/
def word : Pairs T → List (Bracket T)
  | nil => []
  | pair a _ i r => .open_ a :: i.word ++ .close a :: r.word

/-- The pairs from left to right: the group of the pair that directly encloses it (if any), its own group, its symbol. -/
def list : Pairs T → Option (List Nat) → List (Option (List Nat) × List Nat × T)
  | nil, _ => []
  | pair a g i r, p => (p, g, a) :: i.list (some g) ++ r.list p

/-- The symbols of a group, from left to right. -/
def symbols [DecidableEq T] (F : Pairs T) (g : List Nat) : List T := ((F.list none).filter fun x => x.2.1 = g).map fun x => x.2.2

/-- The pairs of each group have exactly the symbols of one cell, each once, and they are directly enclosed by pairs of one group (or by none). -/
structure Grouped [DecidableEq T] (cells : List (List T)) (F : Pairs T) : Prop where
  cell : ∀ p g a, (p, g, a) ∈ F.list none → ∃ c ∈ cells, (F.symbols g).Perm c
  parent : ∀ p p' g a a', (p, g, a) ∈ F.list none → (p', g, a') ∈ F.list none → p = p'

/-- The symbols of a group have the same sort, and groups that are enclosed by the same group have different sorts. -/
def Sorted (sort : T → Nat) (F : Pairs T) : Prop :=
  ∀ p g g' a a', (p, g, a) ∈ F.list none → (p, g', a') ∈ F.list none → (sort a = sort a' ↔ g = g')

end Pairs

/-- The multiple Dyck language with respect to a partition. -/
def MultipleDyck {T : Type _} [DecidableEq T] (cells : List (List T)) (w : List (Bracket T)) : Prop :=
  ∃ F : Pairs T, F.word = w ∧ F.Grouped cells

/-- The sorted multiple Dyck language with respect to a partition. -/
def SortedMultipleDyck {T : Type _} [DecidableEq T] (cells : List (List T)) (sort : T → Nat) (w : List (Bracket T)) : Prop :=
  ∃ F : Pairs T, F.word = w ∧ F.Grouped cells ∧ F.Sorted sort

end Rustomata.Spec
