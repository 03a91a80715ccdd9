import Verif.Spec.CsCommand

/-!
# Specification of the command `csparsing parse` for arbitrary terminal rules
-/

namespace Rustomata.Spec
variable {N W : Type _}

/-- The text is the export of a tree for a sentence of `n` words. With tags, the words are the ones that were read. -/
def ExportSame (showN : N → List Nat) (tree : List Nat → Option (PMCFGRule N (List Nat) W)) (withPos : Bool) (n : Nat) (names : List (List Nat)) (id : Nat) (text : List Nat) :
    Prop :=
  ∃ u, u.length = n ∧ ExportOf showN tree u (if withPos then names else u) id text

/-- As `AnswerText`, but the trees may be trees for other sentences with the same number of words. -/
def AnswerTextEach (showN : N → List Nat) (a : ParseArgs) (trees : List (GornTree (PMCFGRule N (List Nat) W))) (fb : Option (GornTree (PMCFGRule N (List Nat) W)))
    (sentence names : List (List Nat)) (id : Nat) (text : List Nat) : Prop :=
  let shown := trees.take (if a.debug then 1 else a.k)
  (shown ≠ [] ∧ ∃ bs, List.Forall₂ (fun t b => ExportSame showN t.get a.withPos sentence.length names id b) shown bs ∧ text = bs.flatten) ∨
  (shown = [] ∧ (a.fallback ∨ a.debug) ∧ ∃ t, fb = some t ∧ ExportSame showN t.get a.withPos sentence.length names id text) ∨
  (shown = [] ∧ (¬ (a.fallback ∨ a.debug) ∨ fb = none) ∧ text = noparseText a.withPos sentence names id)

end Rustomata.Spec
