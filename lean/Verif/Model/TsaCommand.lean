import Verif.Model.AutomatonText
import Verif.Model.McfgCommand

/-!
# Model of the command `tsa recognise`

Source: `/repo/src/bin/tree_stack_automata.rs`. Stack symbols and terminals are strings, that is, lists of bytes. The command line and the file with the automaton are not
modelled. `Debug` of sentences and of runs are parameters. The argument `coarse-to-fine` has no effect: the code asks for an argument `strategies` (line 85), which does not exist,
so that always the last alternative of the `match` is taken (line 92). The search is called for at most `m` steps; `none` is a panic, and `some none` says that the command has
not finished after `m` steps for some line.
-/

namespace Rustomata
variable {W H : Type _}

/-- The body of the loop of `recognise_corpus` (tree_stack_automata.rs:106-121): the sentence, the first `n` runs, and an empty line. With a beam (line 109), only the agenda is
another one. -/
def tsaSentence [One W] [Mul W] (a : TSA (List Nat) (List Nat) W) (dbgWord : List (List Nat) → List Nat) (dbgRun : Pushdown (Transition (TsInstr (List Nat)) (List Nat) W) → List Nat)
    (G : Agenda H (Item (TreeStack Nat) (TsInstr Nat) Nat W)) (empty : H) (n m : Nat) (word : List (List Nat)) : Option (Option (List Nat)) :=
  match a.recognise G empty word m with
  | none => none
  | some (out, b) =>
    if n ≤ out.length ∨ (G.pop b).isNone then
      some (some (dbgWord word ++ [58, 10] ++ ((out.take n).map fun i => [32, 32] ++ dbgRun i.run ++ [10]).flatten ++ [10]))
    else some none

/-- `recognise_corpus` (tree_stack_automata.rs:98-122), where the lines have not been split yet (lines 69-72). -/
def tsaLines [One W] [Mul W] (a : TSA (List Nat) (List Nat) W) (dbgWord : List (List Nat) → List Nat) (dbgRun : Pushdown (Transition (TsInstr (List Nat)) (List Nat) W) → List Nat)
    (G : Agenda H (Item (TreeStack Nat) (TsInstr Nat) Nat W)) (empty : H) (n m : Nat) : List (List Nat) → Option (Option (List Nat))
  | [] => some (some [])
  | line :: ls =>
    match tsaSentence a dbgWord dbgRun G empty n m (splitWhite line) with
    | none => none
    | some none => some none
    | some (some text) => (tsaLines a dbgWord dbgRun G empty n m ls).map (Option.map fun rest => text ++ rest)

/-- `tsa recognise` (tree_stack_automata.rs:57-96): from the text of the automaton and the text of the standard input to the text of the standard output. -/
def tsaCommand [One W] [Mul W] (cw : Codec W) (dbgWord : List (List Nat) → List Nat) (dbgRun : Pushdown (Transition (TsInstr (List Nat)) (List Nat) W) → List Nat)
    (G : Agenda H (Item (TreeStack Nat) (TsInstr Nat) Nat W)) (empty : H) (n m : Nat) (automaton corpus : List Nat) : Option (Option (List Nat)) :=
  match TSA.fromStr stringCodec stringCodec cw automaton with
  | some (some a) => tsaLines a dbgWord dbgRun G empty n m (lines corpus)
  | _ => none

end Rustomata
