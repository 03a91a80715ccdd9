import Verif.Model.Dyck

/-!
# Model of the hand-written serialisation

Sources: `/repo/src/util/partition.rs`, `/repo/src/dyck/multiple/automaton/mod.rs`.

Simplifications: the value that serde writes is the sequence of the written elements; how a format (bincode) turns it into bytes is not modelled, so that errors of the format are not
modelled either. The derived implementations write and read the fields of a value and are not modelled, except that a `BTreeSet` is read by inserting the elements of a sequence.
-/

namespace Rustomata

/-- A `BTreeSet` read from a sequence (serde): the elements are inserted one after the other. -/
def readSet {T : Type _} [LinearOrder T] (l : List T) : List T := BMap.keys (l.foldl (fun m x => (BMap.insert m x ()).2) ([] : BMap T Unit))

/-- `Serialize for Partition` (partition.rs:70-74): the sequence of the cells. -/
def Partition.serialize {T : Type _} [LinearOrder T] (p : Partition T) : List (List T) := p.collapse

/-- `Deserialize for Partition` (partition.rs:76-83) for a sequence of cells, `none` is the panic of `unwrap`. -/
def Partition.deserialize {T : Type _} [LinearOrder T] (cells : List (List T)) : Option (Partition T) := Partition.new (cells.map readSet)

/-- An instruction read from the written one (instruction.rs:27-39, derived). -/
def MdInstr.read {T : Type _} [LinearOrder T] : MdInstr T → MdInstr T
  | .up a cell => .up a (readSet cell)
  | .upAt n a cell => .upAt n a (readSet cell)
  | .down a => .down a

/-- A transition read from the written one (transition.rs:12-19, derived). -/
def Mda.readTransition {T : Type _} [LinearOrder T] (t : Transition (MdInstr T) (Bracket T) Nat) : Transition (MdInstr T) (Bracket T) Nat :=
  ⟨t.word, t.weight, t.instruction.read⟩

/-- `Serialize for MultipleDyckAutomaton` (automaton/mod.rs:149-156): the elements of the heap of the key `()`, in the order in which the heap stores them (`heap`). -/
def Mda.serialize {T : Type _} (heap : List (Transition (MdInstr T) (Bracket T) Nat) → List (Transition (MdInstr T) (Bracket T) Nat))
    (M : Automaton Unit (TreeStack (MdElem T)) (MdInstr T) (Bracket T) Nat) : List (Transition (MdInstr T) (Bracket T) Nat) :=
  heap M.transitions

/-- `Deserialize for MultipleDyckAutomaton` (automaton/mod.rs:161-171): the heap of the elements that were read. -/
def Mda.deserialize {T : Type _} [LinearOrder T] (heap : List (Transition (MdInstr T) (Bracket T) Nat) → List (Transition (MdInstr T) (Bracket T) Nat))
    (l : List (Transition (MdInstr T) (Bracket T) Nat)) : Automaton Unit (TreeStack (MdElem T)) (MdInstr T) (Bracket T) Nat :=
  Mda.automaton (heap (l.map Mda.readTransition))

end Rustomata
