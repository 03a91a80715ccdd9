import Verif.Spec.Cfg

/-!
# Specification: left recursion of context-free grammars
-/

namespace Rustomata.Spec
open Rustomata
variable {N T W : Type _}

/-- The sentential form derives the word. -/
def Yields (G : CFG N T W) (γ : List (LetterT N T)) (v : List T) : Prop := Relation.ReflTransGen (Rewrites G) γ (v.map .value)

/-- There is a rule for `A` with `B` on its right-hand side after symbols that derive the empty word. -/
def CfgLeftCorner (G : CFG N T W) (A B : N) : Prop :=
  ∃ r ∈ G.rules, r.head = A ∧ ∃ α β, r.composition = α ++ .label B :: β ∧ Yields G α []

/-- `Exposed G u A`: in some leftmost derivation from an initial nonterminal, `A` is the leftmost nonterminal and has the word `u` to its left. -/
inductive Exposed (G : CFG N T W) : List T → N → Prop
  | initial {S} : S ∈ G.initial → Exposed G [] S
  | step {u v A r α β B} : Exposed G u A → r ∈ G.rules → r.head = A → r.composition = α ++ .label B :: β → Yields G α v → Exposed G (u ++ v) B

/-- A nonterminal is left recursive if it can be rewritten to a form that begins with itself, after symbols that derive the empty word. -/
def CfgLeftRecursive (G : CFG N T W) (A : N) : Prop := Relation.TransGen (CfgLeftCorner G) A A

end Rustomata.Spec
