import Verif.Spec.Recognise
import Verif.Spec.CfgCommand
import Verif.Spec.RuleReads

/-!
# Specification of the command `tsa recognise`
-/

namespace Rustomata.Spec
open Rustomata
variable {D W : Type _}

/-- The `n` best things with `P`, best first, where a thing can occur several times: each other thing with `P` is not better than any of them; if there are less than `n`, there are
no other ones. -/
structure TopOf [LE W] (P : D → Prop) (weight : D → W) (n : Nat) (ds : List D) : Prop where
  length : ds.length ≤ n
  all : ∀ d ∈ ds, P d
  sorted : ds.Pairwise fun d e => weight e ≤ weight d
  best : ∀ d, P d → d ∈ ds ∨ ds.length = n ∧ ∀ e ∈ ds, weight d ≤ weight e

/-- An accepting run of the device for a word: everything is read, and the run leads to the storage and the weight. -/
def ParseOf {S I T : Type _} [Mul W] [One W] (D : Device S I T W) (w : List T) (i : Item S I T W) : Prop :=
  i.conf.word = [] ∧ D.Accepting w i.run.toVec i.conf.storage i.conf.weight

/-- The text of an automaton: the lines declare the initial symbol `a`, where the last declaration counts, and the transitions `ts`. -/
def TsaFile [One W] (cw : Codec W) (a : List Nat) (ts : List (Transition (TsInstr (List Nat)) (List Nat) W)) (s : List Nat) : Prop :=
  ∃ ls ds, LinesOf ls s ∧ List.Forall₂ (DeclReads False stringCodec (TransitionReads stringCodec cw (TsInstrText stringCodec))) ds ls ∧ Decl.lastInitial ds = some a ∧
    ts = Decl.transitions ds

/-- The tree stack automaton with the given transitions and the given initial symbol. -/
def tsaDevice (ts : List (Transition (TsInstr (List Nat)) (List Nat) W)) (a : List Nat) : Device (TreeStack (List Nat)) (TsInstr (List Nat)) (List Nat) W :=
  ⟨TsInstr.apply, ts, TreeStack.new a, fun t => t.isAtBottom⟩

/-- The answer to a sentence: the sentence, each run in a line, and an empty line. -/
def runsText (dbgWord : List (List Nat) → List Nat) (dbgRun : Pushdown (Transition (TsInstr (List Nat)) (List Nat) W) → List Nat) (w : List (List Nat))
    (is : List (Item (TreeStack (List Nat)) (TsInstr (List Nat)) (List Nat) W)) : List Nat :=
  dbgWord w ++ [58, 10] ++ (is.map fun i => [32, 32] ++ dbgRun i.run ++ [10]).flatten ++ [10]

end Rustomata.Spec
