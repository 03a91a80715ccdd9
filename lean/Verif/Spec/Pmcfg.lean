import Verif.Model.Pmcfg
import Mathlib.Algebra.BigOperators.Group.List.Basic

/-!
# Specification of PMCFG derivations

Uses only the record types of grammars.
-/

namespace Rustomata.Spec
variable {N T W : Type _}

/-- Finite ordered trees. -/
inductive DTree (R : Type _)
  | node (rule : R) (children : List (DTree R))

/-- The label at a Gorn address. -/
def DTree.at? {R : Type _} : DTree R → List Nat → Option R
  | .node r _, [] => some r
  | .node _ cs, i :: p => (cs[i]?).bind fun d => d.at? p

mutual
/-- Product of the weights of the rules of a derivation, in pre-order. -/
def DTree.weight [Monoid W] : DTree (PMCFGRule N T W) → W
  | .node r cs => r.weight * weights cs
/-- Product of the weights of a sequence of derivations. -/
def weights [Monoid W] : List (DTree (PMCFGRule N T W)) → W
  | [] => 1
  | d :: ds => d.weight * weights ds
end

/-- The word that replaces a symbol, where `args i` is the tuple of the `i`-th child. -/
def subst (args : Nat → Option (List (List T))) : VarT T → Option (List T)
  | .var i j => (args i).bind fun v => v[j]?
  | .t a => some [a]

/-- Replaces the symbols of a component. -/
def substAll (args : Nat → Option (List (List T))) (c : List (VarT T)) : Option (List T) :=
  (c.mapM (subst args)).map List.flatten

/-- Applies a composition to the tuples of the children; undefined if some variable has no value. -/
def compose (args : Nat → Option (List (List T))) (c : Composition T) : Option (List (List T)) :=
  c.mapM (substAll args)

mutual
/-- `Derives rules A d v`: `d` is a derivation from the nonterminal `A` and `v` is the tuple it derives. -/
inductive Derives (rules : List (PMCFGRule N T W)) : N → DTree (PMCFGRule N T W) → List (List T) → Prop
  | node {r ds args v} : r ∈ rules → DerivesAll rules r.tail ds args →
      compose (fun i => args[i]?) r.composition = some v → Derives rules r.head (.node r ds) v
/-- `Derives` for a sequence of nonterminals. -/
inductive DerivesAll (rules : List (PMCFGRule N T W)) :
    List N → List (DTree (PMCFGRule N T W)) → List (List (List T)) → Prop
  | nil : DerivesAll rules [] [] []
  | cons {A As d ds v vs} : Derives rules A d v → DerivesAll rules As ds vs →
      DerivesAll rules (A :: As) (d :: ds) (v :: vs)
end

/-- The grammar generates `w` by a derivation of weight `u`. -/
def PGenerates [Monoid W] (initial : List N) (rules : List (PMCFGRule N T W)) (w : List T) (u : W) : Prop :=
  ∃ S ∈ initial, ∃ d, Derives rules S d [w] ∧ d.weight = u

/-- The variables `(i, j)` of a composition, with repetitions. -/
def varsOf (c : Composition T) : List (Nat × Nat) :=
  c.flatten.filterMap fun | .var i j => some (i, j) | .t _ => none

/-- `Eval m a v`: evaluating the terms of the tree `m` at address `a` gives the tuple `v`.
Only the children that are used by a variable need to have a value. -/
inductive Eval (m : List Nat → Option (Composition T)) : List Nat → List (List T) → Prop
  | node {a c v} {sub : Nat → List (List T)} : m a = some c →
      (∀ i j, (i, j) ∈ varsOf c → Eval m (a ++ [i]) (sub i)) →
      compose (fun i => some (sub i)) c = some v → Eval m a v

/-- The addresses that are used from the root on. -/
inductive UsedAddr (m : List Nat → Option (Composition T)) : List Nat → Prop
  | root : UsedAddr m []
  | child {a c i j} : UsedAddr m a → m a = some c → (i, j) ∈ varsOf c → UsedAddr m (a ++ [i])

/-- Exactly one terminal and no variable, or only variables. -/
def TerminalSeparated (c : Composition T) : Prop := (∃ a, c.flatten = [.t a]) ∨ ∀ x ∈ c.flatten, ∃ i j, x = .var i j

/-- No node of the tree is the child of a node with a number that exceeds the right-hand side of its rule. -/
def WellNumbered (m : List Nat → Option (PMCFGRule N T W)) : Prop :=
  ∀ a r n, m a = some r → r.tail.length ≤ n → m (a ++ [n]) = none

/-- The rules are the rules of an LCFRS with the given initial nonterminal: each nonterminal has one fanout, the
initial nonterminal has fanout 1, and each rule uses exactly the variables of its right-hand side, each once. -/
def IsLcfrs (rules : List (PMCFGRule N T W)) (init : N) : Prop :=
  ∃ fanout : N → Option Nat,
    (∀ A f, fanout A = some f ↔ ∃ r ∈ rules, r.head = A ∧ r.composition.length = f) ∧
    fanout init = some 1 ∧
    ∀ r ∈ rules, (varsOf r.composition).Nodup ∧
      ∀ i j, (i, j) ∈ varsOf r.composition ↔ ∃ A f, r.tail[i]? = some A ∧ fanout A = some f ∧ j < f

/-- Each rule uses each component of each nonterminal of its right-hand side (whose number of components is
determined by the rules for it) at least once. -/
def NonDeleting (rules : List (PMCFGRule N T W)) : Prop :=
  ∀ r ∈ rules, ∀ (i : Nat) (A : N), r.tail[i]? = some A → ∀ r' ∈ rules, r'.head = A →
    ∀ j < r'.composition.length, (i, j) ∈ varsOf r.composition

/-- Each variable refers to a nonterminal of the right-hand side and to a component that each rule for this nonterminal has. -/
def WellFormed (rules : List (PMCFGRule N T W)) : Prop :=
  ∀ r ∈ rules, ∀ i j, (i, j) ∈ varsOf r.composition → ∃ A, r.tail[i]? = some A ∧ ∀ r' ∈ rules, r'.head = A → j < r'.composition.length

/-- The grammar visits components in order: the variables of each nonterminal of a right-hand side, in the order of their occurrence in the
composition, are those of the components `0, 1, …, f - 1`, where `f` is the number of components of each rule for this nonterminal. -/
def Ordered (rules : List (PMCFGRule N T W)) : Prop :=
  ∀ r ∈ rules, ∀ (i : Nat) (A : N), r.tail[i]? = some A → ∀ r' ∈ rules, r'.head = A →
    ((varsOf r.composition).filter (·.1 = i)).map (·.2) = List.range r'.composition.length

/-- No component ends with two terminals, and no empty component follows a component that ends with a terminal. -/
def ShortTrails (c : Composition T) : Prop :=
  (∀ comp ∈ c, ∀ l a b, comp ≠ l ++ [.t a, .t b]) ∧ ∀ (j : Nat), c[j + 1]? = some [] → ∀ l a, c[j]? ≠ some (l ++ [.t a])

end Rustomata.Spec
