import Verif.Model.Pda

/-!
# Specification: histories of integerisers, paths of finite automata, merged transitions
-/

namespace Rustomata.Spec

/-- `Later i j`: `j` results from `i` by any number of further `integerise` calls. -/
inductive Later {A : Type _} [DecidableEq A] : Integeriser A → Integeriser A → Prop
  | refl (i) : Later i i
  | step {i j} (a : A) : Later i j → Later i (j.integerise a).1

/-- `Used i`: `i` results from a new integeriser by any number of `integerise` calls. -/
def Used {A : Type _} [DecidableEq A] (i : Integeriser A) : Prop := Later Integeriser.new i

/-- A path of a finite automaton with its label and weight. -/
inductive FsPath {Q T W : Type _} [Mul W] [One W] (ts : List (Transition (FsInstr Q) T W)) : Q → List T → W → Q → Prop
  | nil (q) : FsPath ts q [] 1 q
  | snoc {q w u} (t : Transition (FsInstr Q) T W) : t ∈ ts → FsPath ts q w u t.instruction.source →
      FsPath ts q (w ++ t.word) (u * t.weight) t.instruction.target

/-- The weights of the occurrences of a word and an instruction in a list of transitions. -/
def weightsOf {I T W : Type _} [DecidableEq I] [DecidableEq T] (ts : List (Transition I T W)) (word : List T) (ins : I) : List W :=
  ts.filterMap fun t => if t.word = word ∧ t.instruction = ins then some t.weight else none

end Rustomata.Spec
