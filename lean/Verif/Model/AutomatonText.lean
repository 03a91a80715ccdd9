import Verif.Model.FromStr
import Verif.Model.Tsa
import Verif.Model.Pda

/-!
# Printing and parsing of automata

Sources: `/repo/src/recognisable/from_str.rs`, `/repo/src/recognisable/transition.rs:145-158`,
`/repo/src/automata/finite_state_automaton/from_str.rs`, `/repo/src/automata/finite_state_automaton/mod.rs:206-245`,
`/repo/src/automata/tree_stack_automaton/from_str.rs`, `/repo/src/automata/tree_stack_automaton/tree_stack_instruction.rs:144-165` and
`/repo/src/automata/tree_stack_automaton/mod.rs:234-253`.

Strings are lists of bytes. In `Option (Option _)`, `some none` is an `Err` and `none` a panic.
-/

namespace Rustomata
open Nom

/-- `take_until!` for one byte: an error if the byte does not occur, incomplete on the empty input. -/
def takeUntil (b : Nat) : Parser Nat (List Nat) := fun i => match i with
  | [] => .incomplete
  | _ => if b ∈ i then .done (i.dropWhile (· ≠ b)) (i.takeWhile (· ≠ b)) else .error

/-- The loop of `str::split_whitespace` with the bytes of the current part; the number counts the bytes that still belong to the last
white space character. -/
def splitWhiteGo : Nat → List Nat → List Nat → List (List Nat)
  | _, cur, [] => if cur = [] then [] else [cur]
  | k + 1, cur, _ :: s => splitWhiteGo k cur s
  | 0, cur, b :: s => match whiteLen whiteChars (b :: s) with
    | 0 => splitWhiteGo 0 (cur ++ [b]) s
    | k + 1 => if cur = [] then splitWhiteGo k [] s else cur :: splitWhiteGo k [] s

/-- `str::split_whitespace`. -/
def splitWhite (s : List Nat) : List (List Nat) := splitWhiteGo 0 [] s

/-- `str::parse::<usize>`: an optional `+` and at least one digit; an error if the number does not fit into 64 bits. -/
def readUsize (s : List Nat) : Option Nat :=
  let d := if s.head? = some 43 then s.tail else s
  if d ≠ [] ∧ d.all (fun b => 48 ≤ b && b ≤ 57) then parseUsize d else none

/-- `.unwrap()` of a `Result`. -/
def unwrapErr {B : Type _} (r : Option (Option B)) : Parser Nat B := fun i => match r with
  | some (some b) => .done i b
  | some none => .panic
  | none => .panic

section
variable {Q A T W I : Type _}

/-! ### Transitions -/

/-- `parse_transition` (recognisable/from_str.rs:29-66). The text between the parentheses and the text of the weight are parts of a string that
begin and end next to ASCII characters, so that `from_utf8` does not fail. -/
def parseTransition [One W] (ct : Codec T) (cw : Codec W) (instr : List Nat → Option (Option I)) : Parser Nat (Transition I T W) :=
  thn (tag (ascii ['T', 'r', 'a', 'n', 's', 'i', 't', 'i', 'o', 'n'])) <| thn (Nom.takeWhile isSpace) <|
    chain (parseVec (parseToken ct) [91] [93] [44]) fun word =>
    thn (Nom.takeWhile isSpace) <| chain (delimited (tag [40]) (takeUntil 41) (tag [41])) fun instruction =>
    thn (Nom.takeWhile isSpace) <| chain (parsePmcfgWeight cw) fun weight =>
    thn (Nom.takeWhile isSpace) <| thn (opt (complete parseComment)) <|
    chain (unwrapErr (instr instruction)) fun i => ret ⟨word, weight.getD 1, i⟩

/-- `Transition::from_str` (recognisable/from_str.rs:21-26). -/
def Transition.fromStr [One W] (ct : Codec T) (cw : Codec W) (instr : List Nat → Option (Option I)) (s : List Nat) :
    Option (Option (Transition I T W)) := (parseTransition ct cw instr s).toResult

/-- `FiniteStateInstruction::from_str` (finite_state_automaton/from_str.rs:66-80). -/
def FsInstr.fromStr (cq : Codec Q) (s : List Nat) : Option (Option (FsInstr Q)) :=
  match splitWhite s with
  | [p, a, q] =>
    if a = ascii ['-', '>'] ∨ a = arrow then match cq.read p, cq.read q with
      | some p, some q => some (some ⟨p, q⟩)
      | _, _ => some none
    else some none
  | _ => some none

/-- `TreeStackInstruction::from_str` (tree_stack_automaton/from_str.rs:53-91): `v[0]` panics if there is no part. -/
def TsInstr.fromStr (ca : Codec A) (s : List Nat) : Option (Option (TsInstr A)) :=
  match splitWhite s with
  | [] => none
  | [k, x, y, z] =>
    if k = ascii ['P', 'u', 's', 'h'] then match readUsize x, ca.read y, ca.read z with
      | some n, some c, some v => some (some (.push n c v))
      | _, _, _ => some none
    else if k = ascii ['D', 'o', 'w', 'n'] then match ca.read x, ca.read y, ca.read z with
      | some c, some o, some v => some (some (.down c o v))
      | _, _, _ => some none
    else some none
  | [k, x, y, z, u] =>
    if k = ascii ['U', 'p'] then match readUsize x, ca.read y, ca.read z, ca.read u with
      | some n, some c, some o, some v => some (some (.up n c o v))
      | _, _, _, _ => some none
    else some none
  | _ => some none

/-! ### Automata -/

/-- The bytes of `initial:`. -/
def initialTag : List Nat := ascii ['i', 'n', 'i', 't', 'i', 'a', 'l', ':']

/-- The bytes of `final:`. -/
def finalTag : List Nat := ascii ['f', 'i', 'n', 'a', 'l', ':']

/-- The loop of `FiniteStateAutomaton::from_str` (finite_state_automaton/from_str.rs:29-47). -/
def fsaLoop {R : Type _} (cq : Codec Q) (trans : List Nat → Option (Option R)) :
    List (List Nat) → Option Q → List Q → List R → Option (Option (Option Q × List Q × List R))
  | [], init, fin, ts => some (some (init, fin, ts))
  | l :: ls, init, fin, ts =>
    if initialTag <+: trimStart l then match (parseInitial cq (trimStart l)).toResult with
      | some (some q) => fsaLoop cq trans ls (some q) fin ts
      | some none => some none
      | none => none
    else if finalTag <+: trimStart l then match (parseFinals cq (trimStart l)).toResult with
      | some (some qs) => fsaLoop cq trans ls init qs ts
      | some none => some none
      | none => none
    else if l ≠ [] ∧ ¬ [37] <+: trimStart l then match trans (trim l) with
      | some (some t) => fsaLoop cq trans ls init fin (ts ++ [t])
      | some none => some none
      | none => none
    else fsaLoop cq trans ls init fin ts

/-- `FiniteStateAutomaton::from_str` (finite_state_automaton/from_str.rs:22-57). -/
def FSA.fromStr [One W] [DecidableEq Q] [DecidableEq T] (cq : Codec Q) (ct : Codec T) (cw : Codec W) (s : List Nat) : Option (Option (FSA Q T W)) :=
  match fsaLoop cq (Transition.fromStr ct cw (FsInstr.fromStr cq)) (lines s) none [] [] with
  | none => none
  | some none => some none
  | some (some (none, _, _)) => some none
  | some (some (some q, fin, ts)) => if fin = [] then some none else some (some (FSA.new ts q fin))

/-- The loop of `TreeStackAutomaton::from_str` (tree_stack_automaton/from_str.rs:30-41). -/
def tsaLoop {R : Type _} (ca : Codec A) (trans : List Nat → Option (Option R)) :
    List (List Nat) → Option A → List R → Option (Option (Option A × List R))
  | [], init, ts => some (some (init, ts))
  | l :: ls, init, ts =>
    if initialTag <+: trimStart l then match (parseInitial ca (trimStart l)).toResult with
      | some (some a) => tsaLoop ca trans ls (some a) ts
      | some none => some none
      | none => none
    else if l ≠ [] ∧ ¬ [37] <+: trimStart l then match trans (trim l) with
      | some (some t) => tsaLoop ca trans ls init (ts ++ [t])
      | some none => some none
      | none => none
    else tsaLoop ca trans ls init ts

/-- `TreeStackAutomaton::from_str` (tree_stack_automaton/from_str.rs:24-48). -/
def TSA.fromStr [One W] [DecidableEq A] [DecidableEq T] (ca : Codec A) (ct : Codec T) (cw : Codec W) (s : List Nat) : Option (Option (TSA A T W)) :=
  match tsaLoop ca (Transition.fromStr ct cw (TsInstr.fromStr ca)) (lines s) none [] with
  | none => none
  | some none => some none
  | some (some (none, _)) => some none
  | some (some (some a, ts)) => some (some (TSA.new ts (.new a)))

/-! ### `Display` -/

/-- `Transition::fmt` (transition.rs:145-158); the function `debug` is `Debug::fmt` for terminals. -/
def Transition.text (debug : T → List Nat) (showI : I → List Nat) (cw : Codec W) (t : Transition I T W) : List Nat :=
  ascii ['T', 'r', 'a', 'n', 's', 'i', 't', 'i', 'o', 'n', ' ', '['] ++ commaSep debug t.word ++ ascii [']', ' '] ++ showI t.instruction ++
    ascii [' ', ' ', '#', ' '] ++ cw.text t.weight

/-- `FiniteStateInstruction::fmt` (finite_state_automaton/mod.rs:206-213). -/
def FsInstr.text (cq : Codec Q) (i : FsInstr Q) : List Nat := cq.text i.source ++ [32] ++ arrow ++ [32] ++ cq.text i.target

/-- The loop over the final states (finite_state_automaton/mod.rs:226-234): `", "` is printed before the first state only, and `BitSet::len` is
the number of states in the set. -/
def finalsText (fin : List Nat) : List Nat :=
  let shown := (List.range fin.dedup.length).filter (· ∈ fin)
  (if shown = [] then [] else ascii [',', ' ']) ++ shown.flatMap fun i => [34] ++ natText i ++ [34]

/-- `FiniteStateAutomaton::fmt` (finite_state_automaton/mod.rs:215-245); `none` is a panic. The initial state and the final states are printed
as integers. -/
def FSA.text [DecidableEq Q] [DecidableEq T] (cq : Codec Q) (debug : T → List Nat) (cw : Codec W) (P : FSA Q T W) : Option (List Nat) :=
  P.listTransitions.map fun ts =>
    ascii ['i', 'n', 'i', 't', 'i', 'a', 'l', ':', ' '] ++ natText P.initial ++ ascii ['\n', 'f', 'i', 'n', 'a', 'l', ':', ' ', '['] ++
      finalsText P.finals ++ ascii [']', '\n', '\n'] ++ ts.flatMap fun t => Transition.text debug (FsInstr.text cq) cw t ++ [10]

/-- `TreeStackInstruction::fmt` (tree_stack_instruction.rs:144-165). -/
def TsInstr.text (ca : Codec A) : TsInstr A → List Nat
  | .up n c o v => ascii ['(', 'U', 'p', ' '] ++ natText n ++ [32] ++ ca.text c ++ [32] ++ ca.text o ++ [32] ++ ca.text v ++ [41]
  | .push n c v => ascii ['(', 'P', 'u', 's', 'h', ' '] ++ natText n ++ [32] ++ ca.text c ++ [32] ++ ca.text v ++ [41]
  | .down c o v => ascii ['(', 'D', 'o', 'w', 'n', ' '] ++ ca.text c ++ [32] ++ ca.text o ++ [32] ++ ca.text v ++ [41]

/-- `TreeStackAutomaton::fmt` (tree_stack_automaton/mod.rs:234-253); `none` is a panic. The initial symbol is printed as an integer. -/
def TSA.text [DecidableEq A] [DecidableEq T] (ca : Codec A) (debug : T → List Nat) (cw : Codec W) (P : TSA A T W) : Option (List Nat) :=
  P.listTransitions.map fun ts =>
    ascii ['i', 'n', 'i', 't', 'i', 'a', 'l', ':', ' '] ++ natText P.initial.currentSymbol ++ ascii ['\n', '\n'] ++
      ts.flatMap fun t => Transition.text debug (TsInstr.text ca) cw t ++ [10]

end

end Rustomata
