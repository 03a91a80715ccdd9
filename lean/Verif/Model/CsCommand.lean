import Verif.Model.CsParse
import Verif.Model.Negra
import Verif.Model.AutomatonText

/-!
# Model of the command `csparsing parse`

Source: `/repo/src/bin/csparsing.rs`. Terminals are strings, that is, lists of bytes; `showN` is `Display` of the nonterminals. The command line, the
file with the grammar and the messages on the standard error stream are not modelled. A panic is `none`.
-/

namespace Rustomata

/-- The arguments `k`, `--with-lines`, `--with-pos`, `--debug` and `--with-fallback` (csparsing.rs:70-130, 219-222); the other ones are in `CsOptions`. -/
structure ParseArgs where
  k : Nat
  withLines : Bool
  withPos : Bool
  debug : Bool
  fallback : Bool

/-- `split_line` (csparsing.rs:298-315). -/
def splitLine (line : List Nat) (withLineNumber : Bool) (default : Nat) : Option (Nat × List (List Nat)) :=
  if withLineNumber then
    match splitWhite line with
    | [] => none
    | s :: words => (readUsize s).map fun n => (n, words)
  else some (default, splitWhite line)

/-- `rsplitn(2, '/')` with both `next()` (csparsing.rs:324-328): the text after the last slash and the text before it. -/
def rsplitSlash (wp : List Nat) : Option (List Nat × List Nat) :=
  match wp.reverse.dropWhile (· ≠ 47) with
  | [] => none
  | _ :: before => some ((wp.reverse.takeWhile (· ≠ 47)).reverse, before.reverse)

/-- `split_pos` (csparsing.rs:317-336). -/
def splitPos (words : List (List Nat)) (withPos : Bool) : Option (List (List Nat) × DumpMode (List Nat)) :=
  if withPos then (words.mapM rsplitSlash).map fun l => (l.map Prod.fst, some (l.map Prod.snd))
  else some (words, none)

section
variable {N W : Type _} [DecidableEq N] [Zero W] [One W] [Mul W] [LinearOrder W]

omit [DecidableEq N] [One W] in
/-- The trees that are printed for a sentence, one after the other; each `println!` (csparsing.rs:251-290). The iterator over the bracket words is called at
most `m` times. -/
def CsRep.sentenceOutput (R : CsRep N (List Nat) W) (o : CsOptions W) (a : ParseArgs) (showN : N → List Nat) (fuel m : Nat) (i : Nat)
    (words : List (List Nat)) (mode : DumpMode (List Nat)) : Option (List (List Nat)) :=
  if a.debug then
    match R.debug o words fuel m with
    | none => none
    | some (.parse t _) => (toNegra showN (fun w => w) t i mode).map fun s => [s ++ [10]]
    | some (.fallback t _) => (toNegra showN (fun w => w) t i mode).map fun s => [s ++ [10]]
    | some .noparse => some [noparse (fun w => w) words i mode ++ [10]]
  else
    match R.fallback o words fuel, R.parses o words fuel m with
    | some fallback, some trees =>
      match (trees.take a.k).mapM fun t => (toNegra showN (fun w => w) t i mode).map fun s => s ++ [10] with
      | none => none
      | some (s :: ss) => some (s :: ss)
      | some [] =>
        if a.fallback then
          match fallback with
          | some t => (toNegra showN (fun w => w) t i mode).map fun s => [s ++ [10]]
          | none => some [noparse (fun w => w) words i mode ++ [10]]
        else some [noparse (fun w => w) words i mode ++ [10]]
    | _, _ => none

omit [DecidableEq N] [One W] in
/-- The body of the loop over the lines (csparsing.rs:247-291). -/
def CsRep.lineOutput (R : CsRep N (List Nat) W) (o : CsOptions W) (a : ParseArgs) (showN : N → List Nat) (fuel m : Nat) (line : List Nat) (i : Nat) :
    Option (List Nat) :=
  match splitLine line a.withLines i with
  | none => none
  | some (i, words) => match splitPos words a.withPos with
    | none => none
    | some (words, mode) => (R.sentenceOutput o a showN fuel m i words mode).map List.flatten

omit [DecidableEq N] [One W] in
/-- The command `parse` after its arguments were read (csparsing.rs:215-293): from the text of the standard input to the text of the standard output. -/
def CsRep.parseCommand (R : CsRep N (List Nat) W) (o : CsOptions W) (a : ParseArgs) (showN : N → List Nat) (fuel m : Nat) (text : List Nat) :
    Option (List Nat) :=
  ((lines text).zipIdx.mapM fun x => R.lineOutput o a showN fuel m x.1 x.2).map List.flatten

end

end Rustomata
