import Verif.Model.Pmcfg
import Verif.Model.FromStr

/-!
# Model of the NEGRA export

Source: `/repo/src/grammars/pmcfg/negra.rs`. A panic is `none`.
-/

namespace Rustomata

/-- `TermId` (negra.rs:5-9): an address and a position in the composition. -/
abbrev TermId := List Nat × Nat

section
variable {N T W : Type _}

/-- The loop over the symbols of a component (negra.rs:43-59), with the component and the entries for the map of terminals.
The number is `compos_var_pos`. -/
def identifyComponent (address : List Nat) : Nat → List (VarT T) → List (VarT TermId) × List (TermId × T)
  | _, [] => ([], [])
  | pos, .var x y :: s => let (c, e) := identifyComponent address (pos + 1) s; (.var x y :: c, e)
  | pos, .t a :: s => let (c, e) := identifyComponent address (pos + 1) s; (.t (address, pos) :: c, ((address, pos), a) :: e)

/-- The loop over the components (negra.rs:40-62). -/
def identifyComponents (address : List Nat) : Nat → Composition T → Composition TermId × List (TermId × T)
  | _, [] => ([], [])
  | pos, c :: cs =>
    let (c', e) := identifyComponent address pos c
    let (cs', e') := identifyComponents address (pos + c.length) cs
    (c' :: cs', e ++ e')

/-- `identify_terminals` (negra.rs:26-68). -/
def identifyTerminals (m : GornTree (Composition T)) : GornTree (Composition TermId) × AMap TermId T :=
  m.foldl (fun r p =>
    let (c, e) := identifyComponents p.1 0 p.2
    (r.1.insert p.1 c, e.foldl (fun tm x => tm.set x.1 x.2) r.2)) ([], [])

/-- `DumpMode` (negra.rs:70-74): the words, or `none` for `Default`. -/
abbrev DumpMode (T : Type _) := Option (List T)

/-- One iteration of the loops of `meets_negra_criteria` over the symbols of a rule (negra.rs:138-157): the flags `contains_nonterminal`
and `contains_terminal`. -/
def criteriaGo : Bool → Bool → List (VarT T) → Bool
  | _, _, [] => true
  | _, t, .var _ _ :: s => if t then false else criteriaGo true t s
  | nt, t, .t _ :: s => if nt || t then false else criteriaGo nt true s

/-- `meets_negra_criteria` (negra.rs:127-161). -/
def meetsNegraCriteria (m : GornTree (PMCFGRule N T W)) : Bool := m.all fun p => criteriaGo false false p.2.composition.flatten

/-- The variables of `to_negra_vector` that are changed by `get_rule_number`: `rule_queue`, `rule_number_map`, `rule_counter`. -/
structure NegraState where
  queue : List (List Nat × Nat)
  numbers : GornTree Nat
  counter : Nat

/-- `get_rule_number` (negra.rs:235-255). -/
def getRuleNumber (address : List Nat) (s : NegraState) : Nat × NegraState :=
  match s.numbers.get address with
  | some n => (n, s)
  | none =>
    let (n, counter) := if address = [] then (0, s.counter) else (s.counter, s.counter + 1)
    (n, ⟨s.queue ++ [(address, n)], s.numbers.insert address n, counter⟩)

/-- The first column of a line: a word, or the number of a node (`#500`). -/
inductive NegraWord (T : Type _)
  | word (t : T)
  | node (n : Nat)
deriving DecidableEq

/-- A line of the export: word, tag, number of the parent. -/
abbrev NegraLine (N T : Type _) := NegraWord T × N × Nat

/-- The word of a line (negra.rs:187-191): the first remaining word (`words.remove(0)`) or the terminal. -/
def nextWord (terminals : AMap TermId T) (i : TermId) : DumpMode T → Option (T × DumpMode T)
  | some [] => none
  | some (w :: ws) => some (w, some ws)
  | none => (terminals.get i).map fun w => (w, none)

/-- The loop over the terminals of the evaluated composition (negra.rs:180-211). `parent_address.pop()` removes the last element. -/
def negraTerminals (labels : GornTree N) (terminals : AMap TermId T) : List TermId → DumpMode T → NegraState → List (NegraLine N T) →
    Option (List (NegraLine N T) × NegraState)
  | [], _, s, acc => some (acc, s)
  | i :: is, mode, s, acc => match nextWord terminals i mode, labels.get i.1 with
    | some (w, mode), some label =>
      if i.1 = [] then none
      else negraTerminals labels terminals is mode (getRuleNumber i.1.dropLast s).2 (acc ++ [(.word w, label, (getRuleNumber i.1.dropLast s).1)])
    | _, _ => none

/-- The loop over the queue (negra.rs:213-230) with a bound on the number of iterations. -/
def negraNodes (labels : GornTree N) : Nat → NegraState → List (NegraLine N T) → Option (List (NegraLine N T))
  | 0, _, _ => none
  | n + 1, s, acc => match s.queue with
    | [] => some acc
    | (address, number) :: queue =>
      let s := { s with queue := queue }
      if address = [] then negraNodes labels n s acc
      else match labels.get address with
        | none => none
        | some label => negraNodes labels n (getRuleNumber address.dropLast s).2 (acc ++ [(.node number, label, (getRuleNumber address.dropLast s).1)])

/-- A variable in the evaluated composition is a panic (negra.rs:183-185). -/
def termId : VarT TermId → Option TermId
  | .var _ _ => none
  | .t i => some i

/-- `to_negra_vector` (negra.rs:163-233). Each address of the tree is put into the queue at most once, and an address that is not in the
tree leads to a panic; so the number of iterations of the second loop does not exceed the number of nodes. -/
def toNegraVector (m : GornTree (PMCFGRule N T W)) (mode : DumpMode T) : Option (List (NegraLine N T)) :=
  match evaluate (identifyTerminals (toTerm m).1).1 with
  | none => none
  | some evaluated => match evaluated.flatten.mapM termId with
    | none => none
    | some ids => match negraTerminals (toTerm m).2 (identifyTerminals (toTerm m).1).2 ids mode ⟨[], [], 500⟩ [] with
      | none => none
      | some (lines, s) => negraNodes (toTerm m).2 (m.length + 1) s lines

/-- The text of a line (negra.rs:98, 225). -/
def NegraLine.text (showN : N → List Nat) (showT : T → List Nat) : NegraLine N T → List Nat
  | (w, tag, parent) => (match w with | .word t => showT t | .node n => [35] ++ natText n) ++ [9] ++ showN tag ++
      ascii ['\t', '-', '-', '\t', '-', '-', '\t'] ++ natText parent ++ ascii ['\n']

/-- `to_negra` (negra.rs:78-103). -/
def toNegra (showN : N → List Nat) (showT : T → List Nat) (m : GornTree (PMCFGRule N T W)) (id : Nat) (mode : DumpMode T) : Option (List Nat) :=
  if meetsNegraCriteria m then
    (toNegraVector m mode).map fun ls => ascii ['#', 'B', 'O', 'S', ' '] ++ natText id ++ ascii ['\n'] ++ ls.flatMap (NegraLine.text showN showT) ++
      ascii ['#', 'E', 'O', 'S', ' '] ++ natText id
  else none

/-- `noparse` (negra.rs:105-125): `none` is `DumpMode::Default`. -/
def noparse (showT : T → List Nat) (sentence : List T) (id : Nat) (mode : DumpMode T) : List Nat :=
  ascii ['#', 'B', 'O', 'S', ' '] ++ natText id ++ ascii ['\n'] ++
  (match mode with
    | some poss => (sentence.zip poss).flatMap fun (pos, word) => showT word ++ [9] ++ showT pos ++ ascii ['\t', '-', '-', '\t', '-', '-', '\t', '5', '0', '0', '\n']
    | none => sentence.flatMap fun w => showT w ++ ascii ['\t', '-', '-', '\t', '-', '-', '\t', '-', '-', '\t', '5', '0', '0', '\n']) ++
  ascii ['#', '5', '0', '0', '\t', 'N', 'O', 'P', 'A', 'R', 'S', 'E', '\t', '-', '-', '\t', '-', '-', '\t', '0', '\n', '#', 'E', 'O', 'S', ' '] ++ natText id

end

end Rustomata
