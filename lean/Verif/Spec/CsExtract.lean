import Verif.Spec.Import
import Verif.Spec.CsParse
import Verif.Model.CsExtract

/-!
# Specification of the command `csparsing extract`

Rules of disco-dop are triples of a derivation, the yield function as bits, and a count; entries of a lexicon are triples of a word, a tag and a count.
-/

namespace Rustomata.Spec
variable {N T W : Type _}

/-- The total of the counts for a left-hand side. -/
def totalCount [DecidableEq N] [AddMonoid W] (l : List (DiscoDeriv N × List (List Bool) × W)) (lex : List (T × N × W)) (A : N) : W :=
  ((l.filter (·.1.lhs = A)).map (·.2.2)).sum + ((lex.filter (·.2.1 = A)).map (·.2.2)).sum

/-- The grammar that is described by rules and a lexicon: one rule for each of them, with the relative frequency as weight. -/
def DescribedBy [DecidableEq N] [DivisionSemiring W] (l : List (DiscoDeriv N × List (List Bool) × W)) (lex : List (T × N × W)) (root : N) (g : Lcfrs N T W) : Prop :=
  g.init = root ∧ ∃ R₁ R₂, g.rules = R₁ ++ R₂ ∧
    List.Forall₂ (fun x r => r.head = x.1.lhs ∧ r.tail = discoRhs x.1 ∧ IsYield x.2.1 r.composition ∧ r.weight = x.2.2 / totalCount l lex x.1.lhs) l R₁ ∧
    List.Forall₂ (fun x r => r.head = x.2.1 ∧ r.tail = [] ∧ r.composition = [[.t x.1]] ∧ r.weight = x.2.2 / totalCount l lex x.2.1) lex R₂

/-- The number of components of each nonterminal is the same in all rules: as left-hand side it is the number of components of the yield function, on right-hand
sides it is the number of bits for the child. Tags and the initial nonterminal have one component. -/
def SameFanout (l : List (DiscoDeriv N × List (List Bool) × W)) (tags : N → Prop) (root : N) : Prop :=
  ∃ f : N → Nat, f root = 1 ∧ (∀ A, tags A → f A = 1) ∧
    ∀ x ∈ l, x.2.1.length = f x.1.lhs ∧ ((discoRhs x.1).map f)[0]? = some (x.2.1.flatten.count false) ∧ (((discoRhs x.1).map f)[1]?).getD 0 = x.2.1.flatten.count true

/-- There is no cycle of components that consist of one bit. -/
def NoBitCycle (l : List (DiscoDeriv N × List (List Bool) × W)) : Prop :=
  ∃ rank : N → Nat → Nat, ∀ x ∈ l, ∀ (c : Nat) (b : Bool) B, x.2.1[c]? = some [b] → (discoRhs x.1)[b.toNat]? = some B →
    rank B ((x.2.1.take c).flatten.count b) < rank x.1.lhs c

/-- The nonterminals that occur on right-hand sides but on no left-hand side. -/
def OnlyRight (l : List (DiscoDeriv N × List (List Bool) × W)) (A : N) : Prop := (∃ x ∈ l, A ∈ discoRhs x.1) ∧ ∀ x ∈ l, x.1.lhs ≠ A

end Rustomata.Spec
