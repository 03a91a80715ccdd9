import Verif.Model.Approximation

/-!
# Recognition in several steps from coarse to fine

Source: `/repo/src/recognisable/coarse_to_fine.rs:116-170`. The macro `coarse_to_fine_recogniser!` nests recognisers; each has a type of its own. Here all push-down
automata have symbols of one type (a sum type, if the symbols of the levels differ). The iterators of the levels are lists of as many parses as are demanded; `n₂` is the
number that each level below the first is asked for (the code asks when needed, see `C90_demand`).
-/

namespace Rustomata

section nested
variable {A T W H H₂ : Type _} [DecidableEq A] [DecidableEq T] [DecidableEq W] [Zero W] [Add W] [Mul W] [One W] [LT W] [DecidableRel (α := W) (· < ·)]

/-- The automaton on the lowest level of the recogniser that `coarse_to_fine_recogniser!` (coarse_to_fine.rs:147-170) makes from a push-down automaton, `none` is a panic. -/
def coarsestAutomaton : List (ApproximationStrategy (PushDown A) (PdInstr A) (PushDown A) (PdInstr A)) → PDA A T W → Option (PDA A T W)
  | [], P => some P
  | Z :: Zs, P => P.listTransitions.bind fun L => P.initialStore.bind fun initial => (approximateAutomaton Z L initial).bind fun r => coarsestAutomaton Zs r.1

/-- `recognise` (coarse_to_fine.rs:119-137) of the recogniser that `coarse_to_fine_recogniser!` (coarse_to_fine.rs:147-170) makes from a push-down automaton;
without strategies, `recognise` (push_down_automaton/mod.rs:309-311) of the automaton itself. `none` is a panic. -/
def pdaNested (G : Agenda H (Item (PushDown A) (PdInstr A) T W)) (empty : H)
    (order : List (Pushdown (Transition (PdInstr A) T W)) → List (Pushdown (Transition (PdInstr A) T W)))
    (G₂ : Agenda H₂ (Item (PushDown Nat) (PdInstr Nat) Nat W)) (empty₂ : H₂) (w : List T) (n₂ : Nat) :
    List (ApproximationStrategy (PushDown A) (PdInstr A) (PushDown A) (PdInstr A)) → PDA A T W → Option (List (Item (PushDown A) (PdInstr A) T W))
  | [], P => (P.recognise G₂ empty₂ w n₂).map Prod.fst
  | Z :: Zs, P => P.listTransitions.bind fun L => P.initialStore.bind fun initial => (approximateAutomaton Z L initial).bind fun r =>
      (pdaNested G empty order G₂ empty₂ w n₂ Zs r.1).map fun coarse => ctfRecognise G empty order PdInstr.apply initial r.2 coarse n₂

/-- `recognise` (coarse_to_fine.rs:119-137) of the recogniser that `coarse_to_fine_recogniser!` (coarse_to_fine.rs:147-170) makes from an automaton with the given transitions, initial
storage and instructions. -/
def ctfNested {S I H₁ : Type _} (G₁ : Agenda H₁ (Item S I T W)) (empty₁ : H₁) (order₁ : List (Pushdown (Transition I T W)) → List (Pushdown (Transition I T W)))
    (apply : I → S → List S) (G : Agenda H (Item (PushDown A) (PdInstr A) T W)) (empty : H)
    (order : List (Pushdown (Transition (PdInstr A) T W)) → List (Pushdown (Transition (PdInstr A) T W)))
    (G₂ : Agenda H₂ (Item (PushDown Nat) (PdInstr Nat) Nat W)) (empty₂ : H₂) (w : List T) (n₂ n : Nat) (Z : ApproximationStrategy S I (PushDown A) (PdInstr A))
    (Zs : List (ApproximationStrategy (PushDown A) (PdInstr A) (PushDown A) (PdInstr A))) (L : List (Transition I T W)) (initial : S) : Option (List (Item S I T W)) :=
  (approximateAutomaton Z L initial).bind fun r =>
    (pdaNested G empty order G₂ empty₂ w n₂ Zs r.1).map fun coarse => ctfRecognise G₁ empty₁ order₁ apply initial r.2 coarse n

end nested

end Rustomata
