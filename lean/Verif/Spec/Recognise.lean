import Verif.Model.Recognise
import Mathlib.Algebra.BigOperators.Group.List.Basic

/-!
# Specification of runs of automata with storage

Uses only the record types of the model (transition, configuration), none of its functions.
-/

namespace Rustomata.Spec
variable {S I T W : Type _}

/-- One step: the transition reads a prefix of the word, its instruction leads to the new storage, the weights are multiplied. -/
structure Step [Mul W] (ap : I → S → List S) (t : Transition I T W) (c c' : Configuration S T W) : Prop where
  word : c.word = t.word ++ c'.word
  storage : c'.storage ∈ ap t.instruction c.storage
  weight : c'.weight = c.weight * t.weight

/-- Executing a sequence of transitions (first one first). -/
inductive Exec [Mul W] (ap : I → S → List S) :
    Configuration S T W → List (Transition I T W) → Configuration S T W → Prop
  | nil (c) : Exec ap c [] c
  | cons {c t c' ts c''} : Step ap t c c' → Exec ap c' ts c'' → Exec ap c (t :: ts) c''

/-- `IsRun`: from the initial storage with the word `w` and weight one, the transitions `ts` of the automaton lead to `c`. -/
def IsRun [Mul W] [One W] (ap : I → S → List S) (all : List (Transition I T W)) (initial : S) (w : List T)
    (ts : List (Transition I T W)) (c : Configuration S T W) : Prop :=
  Exec ap ⟨w, initial, 1⟩ ts c ∧ ∀ t ∈ ts, t ∈ all

/-- The storages reached by executing instructions in order, one entry for each way to execute them. -/
def storages (ap : I → S → List S) : List I → S → List S
  | [], s => [s]
  | i :: is, s => (ap i s).flatMap (storages ap is)

/-- The word read by a sequence of transitions. -/
def wordOf (ts : List (Transition I T W)) : List T := ts.flatMap Transition.word

/-- The weight after a sequence of transitions, if it was `w` before: the weights are multiplied one after the other. -/
def weightFrom [Mul W] (w : W) (ts : List (Transition I T W)) : W := ts.foldl (fun w t => w * t.weight) w

/-- The weight of a sequence of transitions. If the multiplication is associative, then this is the product of the weights (`weightOf_eq`). -/
def weightOf [Mul W] [One W] (ts : List (Transition I T W)) : W := weightFrom 1 ts

/-- What a user sees of an automaton: its instructions' effect, its transitions, its initial storage and the storages in which it accepts. -/
structure Device (S I T W : Type _) where
  apply : I → S → List S
  transitions : List (Transition I T W)
  initial : S
  accepts : S → Bool

/-- An accepting run of a device on a word: it reads the whole word and ends in an accepting storage. -/
def Device.Accepting [Mul W] [One W] (D : Device S I T W) (w : List T) (ts : List (Transition I T W)) (s : S) (u : W) : Prop :=
  IsRun D.apply D.transitions D.initial w ts ⟨[], s, u⟩ ∧ D.accepts s = true

/-- The language of a device. -/
def Device.Language [Mul W] [One W] (D : Device S I T W) (w : List T) : Prop := ∃ ts s u, D.Accepting w ts s u

end Rustomata.Spec
