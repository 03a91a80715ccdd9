import Verif.Model.Tsa
import Verif.Model.Util
import Verif.Model.Recognise

/-!
# Model of Dyck languages and multiple Dyck languages

Sources: `/repo/src/dyck/mod.rs`, `/repo/src/dyck/multiple/mod.rs`, `/repo/src/dyck/multiple/automaton/{mod,instruction}.rs`.

Simplifications: a `BTreeSet` is the ascending list of its elements. Weights are `u8` in the code; all transitions have weight 0, so that a run has
weight 1 (no transition) or 0, and `u8` is modelled by `Nat`. Serialisation is in `Model/Serde.lean`.
-/

namespace Rustomata

/-- `Bracket<A>` (dyck/mod.rs:6-9). -/
inductive Bracket (A : Type _)
  | open_ (a : A)
  | close (a : A)
deriving DecidableEq

/-- The loop of `recognize` (dyck/mod.rs:16-30); the head of the list is the top of the stack. -/
def Bracket.recognizeLoop {A : Type _} [DecidableEq A] : List A → List (Bracket A) → Bool
  | stack, [] => stack.isEmpty
  | stack, .open_ a :: w => recognizeLoop (a :: stack) w
  | [], .close _ :: _ => false
  | b :: stack, .close a :: w => if a ≠ b then false else recognizeLoop stack w

/-- `recognize` (dyck/mod.rs:13-33). -/
def Bracket.recognize {A : Type _} [DecidableEq A] (w : List (Bracket A)) : Bool := recognizeLoop [] w

/-- `MDTreeElem<T>` (instruction.rs:7-10). -/
inductive MdElem (T : Type _)
  | root
  | node (open_ : Option T) (rest : List T)
deriving DecidableEq

/-- `is_empty` (instruction.rs:16-22). -/
def MdElem.isEmpty {T : Type _} : MdElem T → Bool
  | .root => true
  | .node none s => s.isEmpty
  | .node (some _) _ => false

/-- `MultipleDyckInstruction<T>` (instruction.rs:28-39). -/
inductive MdInstr (T : Type _)
  | up (symbol : T) (cell : List T)
  | upAt (position : Nat) (symbol : T) (cell : List T)
  | down (symbol : T)
deriving DecidableEq

namespace MdInstr
variable {T : Type _} [DecidableEq T]

/-- `BTreeSet::remove` (std). -/
def remove (s : List T) (a : T) : List T := s.filter (· ≠ a)

/-- A closed node that waits for the symbol is opened (instruction.rs:56-71, 88-99). -/
def reopen (symbol : T) (t : TreeStack (MdElem T)) : List (TreeStack (MdElem T)) :=
  match t.currentSymbol with
  | .node none subset => if symbol ∈ subset then [t.set (.node (some symbol) (remove subset symbol))] else []
  | _ => []

/-- `apply` (instruction.rs:44-126), `none` is a panic. -/
def applyP (i : MdInstr T) (t : TreeStack (MdElem T)) : Option (List (TreeStack (MdElem T))) :=
  match i with
  | .upAt position symbol cell =>
    match t.push position (.node (some symbol) (remove cell symbol)) with
    | .ok s => some [s]
    | .error t' =>
      match t'.up position with
      | .ok s => some (reopen symbol s)
      | .error _ => none
  | .up symbol cell =>
    match t.pushNext (.node (some symbol) (remove cell symbol)), t.ups with
    | some s, some l => some (s :: l.flatMap (reopen symbol))
    | _, _ => none
  | .down symbol =>
    match t.currentSymbol with
    | .node (some symbol') subset =>
      if symbol ≠ symbol' then some []
      else match (t.set (.node none subset)).down with
        | .ok s => some [s]
        | .error _ => some []
    | _ => some []

/-- `apply` for runs without panics (there are no panics, see `C34_no_panic`). -/
def apply (i : MdInstr T) (t : TreeStack (MdElem T)) : List (TreeStack (MdElem T)) := (i.applyP t).getD []

end MdInstr

/-- The transitions for a symbol of a cell (automaton/mod.rs:32-45, 64-79). -/
def Mda.symbolTransitions {T : Type _} (up : T → List T → MdInstr T) (cell : List T) (symbol : T) : List (Transition (MdInstr T) (Bracket T) Nat) :=
  [⟨[.open_ symbol], 0, up symbol cell⟩, ⟨[.close symbol], 0, .down symbol⟩]

/-- The loops of `new` and `sorted` (automaton/mod.rs:31-46, 63-80). -/
def Mda.transitions {T : Type _} [LinearOrder T] (up : T → List T → MdInstr T) (p : Partition T) : List (Transition (MdInstr T) (Bracket T) Nat) :=
  p.collapse.flatMap fun cell => cell.flatMap (Mda.symbolTransitions up cell)

/-- `impl Automaton for MultipleDyckAutomaton` (automaton/mod.rs:91-147); there is one key. -/
def Mda.automaton {T : Type _} [DecidableEq T] (ts : List (Transition (MdInstr T) (Bracket T) Nat)) :
    Automaton Unit (TreeStack (MdElem T)) (MdInstr T) (Bracket T) Nat where
  apply := MdInstr.apply
  key _ := some ()
  isTerminal c := c.word.isEmpty && c.storage.isAtBottom && c.storage.all MdElem.isEmpty
  table := [((), ts)]
  initial := .new .root

/-- `MultipleDyckLanguage::new` (multiple/mod.rs:15-17, automaton/mod.rs:28-52). -/
def Mdl.new {T : Type _} [LinearOrder T] (p : Partition T) : Automaton Unit (TreeStack (MdElem T)) (MdInstr T) (Bracket T) Nat :=
  Mda.automaton (Mda.transitions .up p)

/-- `MultipleDyckLanguage::sorted` (multiple/mod.rs:21-26, automaton/mod.rs:55-86). -/
def Mdl.sorted {T : Type _} [LinearOrder T] (p : Partition T) (sort : T → Nat) : Automaton Unit (TreeStack (MdElem T)) (MdInstr T) (Bracket T) Nat :=
  Mda.automaton (Mda.transitions (fun a cell => .upAt (sort a) a cell) p)

/-- `recognize` (multiple/mod.rs:29-34): whether one of the first `n` steps of the search finds a terminal item, and the agenda after `n` steps;
`none` is a panic. Words and items are not translated (automaton/mod.rs:112-121). -/
def Mdl.recognize {T H : Type _} [DecidableEq T] (M : Automaton Unit (TreeStack (MdElem T)) (MdInstr T) (Bracket T) Nat)
    (G : Agenda H (Item (TreeStack (MdElem T)) (MdInstr T) (Bracket T) Nat)) (empty : H) (w : List (Bracket T)) (n : Nat) : Option (Bool × H) :=
  (M.recogniseOuter (fun t => some t) (fun i => some i) G empty w n).map fun r => (!r.1.isEmpty, r.2)

end Rustomata
