import Verif.Spec.Components

/-!
# Specification: derivations in which components are visited one after the other

The tree stack automaton of a PMCFG does not check that a nonterminal is derived as a whole. It only visits the components of nonterminals in the order in which it
needs them, and before it returns to a nonterminal, it checks which component was visited before.
-/

namespace Rustomata.Spec
open Rustomata
variable {N T W : Type _}

/-- The component of the last variable for the `i`-th nonterminal before the `k`-th variable of the `j`-th component. -/
def lastBefore (cs : Composition T) (j k i : Nat) : Option Nat :=
  (((varsOf (cs.take j) ++ (varsOf (cs[j]?).toList).take k).filter (·.1 = i)).getLast?).map (·.2)

/-- The components of the `i`-th nonterminal that are visited, in order. -/
def visitsOf (vc : Composition T) (i : Nat) : List Nat := ((varsOf vc).filter (·.1 = i)).map (·.2)

/-- The variables are numbered by their occurrences: the `n`-th variable for a nonterminal refers to its `n`-th visit. -/
def visitNumbersIn (n : Nat → Nat) : List (VarT T) → List (VarT T)
  | [] => []
  | .t a :: c => .t a :: visitNumbersIn n c
  | .var i _ :: c => .var i (n i) :: visitNumbersIn (fun i' => if i' = i then n i + 1 else n i') c

/-- The same for several components. -/
def visitNumbers (n : Nat → Nat) : Composition T → Composition T
  | [] => []
  | c :: cs => visitNumbersIn n c :: visitNumbers (fun i => n i + (visitsOf [c] i).length) cs

/-- When a variable is visited, the component of its nonterminal that was visited last is the one that precedes it in the rule. -/
def VisitsInOrder (cs : Composition T) (s : List Nat) (vc : Composition T) : Prop :=
  ∀ (a j : Nat) c (k : Nat) i j₁, s[a]? = some j → vc[a]? = some c → (varsOf [c])[k]? = some (i, j₁) → lastBefore cs j k i = lastBefore vc a k i

/-- The labels of the nodes below a node. -/
def visitLabels (r : PMCFGRule N T W) (vc : Composition T) (labels : Nat → List Nat → Option (PMCFGRule N T W)) : List Nat → Option (PMCFGRule N T W)
  | [] => some r
  | i :: p => if visitsOf vc i = [] then none else labels i p

/-- If the components `s` of the nonterminal are visited in this order, this yields the words, with the weight of the rules that were used. The nodes of the
derivation have labels. -/
inductive Visited [Monoid W] (cut : Composition T → Composition T) (rules : List (PMCFGRule N T W)) :
    N → List Nat → (List Nat → Option (PMCFGRule N T W)) → List (List T) → W → Prop
  | node {r : PMCFGRule N T W} {s : List Nat} {vc : Composition T} {A : Nat → N} {labels : Nat → List Nat → Option (PMCFGRule N T W)}
      {args : Nat → List (List T)} {us : Nat → W} {ws : List (List T)} :
      r ∈ rules → List.Forall₂ (fun j c => (cut r.composition)[j]? = some c) s vc → VisitsInOrder (cut r.composition) s vc →
      (∀ i, visitsOf vc i ≠ [] → r.tail[i]? = some (A i)) →
      (∀ i, visitsOf vc i ≠ [] → Visited cut rules (A i) (visitsOf vc i) (labels i) (args i) (us i)) →
      compose (fun i => some (args i)) (visitNumbers (fun _ => 0) vc) = some ws →
      Visited cut rules r.head s (visitLabels r vc labels) ws
        (r.weight * ((List.range r.tail.length).map fun i => if visitsOf vc i = [] then 1 else us i).prod)

/-- The grammar accepts the word with a weight when its components are visited one after the other. -/
def VisitGenerates [Monoid W] (g : PMCFG N T W) (w : List T) (u : W) : Prop := ∃ S ∈ g.initial, ∃ labels, Visited cutTrails g.rules S [0] labels [w] u

/-- The rule with the composition that the automaton has. -/
def cutRule (cut : Composition T → Composition T) (r : PMCFGRule N T W) : PMCFGRule N T W := ⟨r.head, r.tail, cut r.composition, r.weight⟩

end Rustomata.Spec
