import Verif.Model.Recognise

/-!
# Model of integerisation, push-down automata and finite state automata

Sources: `/repo/src/util/integerisable.rs`, `/repo/src/recognisable/transition.rs`, `/repo/src/util/push_down.rs`,
`/repo/src/automata/push_down_automaton/mod.rs`, `/repo/src/automata/finite_state_automaton/mod.rs`.
-/

namespace Rustomata

namespace Integeriser
variable {A : Type _} [DecidableEq A]

/-- Integerising the elements of a vector in order (transition.rs:31-35; push_down_automaton/mod.rs:98-107). -/
def integeriseList (i : Integeriser A) : List A → Integeriser A × List Nat
  | [] => (i, [])
  | a :: as =>
    let r := i.integerise a
    let q := integeriseList r.1 as
    (q.1, r.2 :: q.2)

/-- `find_value(i).unwrap()` for each element; `none` is a panic (transition.rs:43-47). -/
def unList (i : Integeriser A) (l : List Nat) : Option (List A) := l.mapM i.findValue

/-- `Integerisable1 for Pushdown`: `integerise` (push_down.rs:172-174). -/
def integerisePushdown (i : Integeriser A) (p : Pushdown A) : Integeriser A × Pushdown Nat := p.mapS integerise i

/-- `Integerisable1 for Pushdown`: `un_integerise` (push_down.rs:176-178), `none` is a panic. -/
def unPushdown (i : Integeriser A) : Pushdown Nat → Option (Pushdown A)
  | .empty => some .empty
  | .cons n b =>
    match i.findValue n with
    | none => none
    | some a => (unPushdown i b).map (.cons a)

end Integeriser

/-- `HashMap::entry(k).or_insert(d)` followed by the modification `f` (std). The map is an association list with distinct keys; its
order stands for the unspecified iteration order. -/
def HMap.upd {K V : Type _} [DecidableEq K] (k : K) (d : V) (f : V → V) : List (K × V) → List (K × V)
  | [] => [(k, f d)]
  | (k', v) :: m => if k' = k then (k', f v) :: m else (k', v) :: HMap.upd k d f m

/-- `Integerisable1` (integerisable.rs:3-15): `Self`, `AInt`, over an integeriser for `A`; `un_integerise` may panic. -/
structure Integerisable (A X Y : Type _) where
  integerise : Integeriser A → X → Integeriser A × Y
  unInteg : Integeriser A → Y → Option X

/-- `Integerisable2 for Transition`: `integerise` (transition.rs:29-39): first the word, then the instruction. -/
def Transition.integerise {A T I J W : Type _} [DecidableEq T] (Z : Integerisable A I J) (tI : Integeriser T) (aI : Integeriser A)
    (t : Transition I T W) : (Integeriser T × Integeriser A) × Transition J Nat W :=
  let r := tI.integeriseList t.word
  let q := Z.integerise aI t.instruction
  ((r.1, q.1), ⟨r.2, t.weight, q.2⟩)

/-- `Integerisable2 for Transition`: `un_integerise` (transition.rs:41-51). -/
def Transition.unInteg {A T I J W : Type _} [DecidableEq T] (Z : Integerisable A I J) (tI : Integeriser T) (aI : Integeriser A)
    (t : Transition J Nat W) : Option (Transition I T W) :=
  match tI.unList t.word, Z.unInteg aI t.instruction with
  | some w, some i => some ⟨w, t.weight, i⟩
  | _, _ => none

/-- `item_map`, the same for all automata (push_down_automaton/mod.rs:245-278, finite_state_automaton/mod.rs:152-185,
tree_stack_automaton/mod.rs:180-213). -/
def itemMap {A T I J S R W : Type _} [DecidableEq T] (Z : Integerisable A I J) (Y : Integerisable A S R) (tI : Integeriser T) (aI : Integeriser A)
    (i : Item R J Nat W) : Option (Item S I T W) :=
  match i.run.toVec.mapM (Transition.unInteg Z tI aI), tI.unList i.conf.word, Y.unInteg aI i.conf.storage with
  | some ts, some w, some s => some ⟨⟨w, s, i.conf.weight⟩, Pushdown.ofSlice ts⟩
  | _, _, _ => none

/-- The loop in `new` of finite state automata (finite_state_automaton/mod.rs:91-99) and tree stack automata (tree_stack_automaton/mod.rs:59-82):
integerise each transition and put it on the heap of its key; heaps are lists. -/
def buildTable {A T I J W : Type _} [DecidableEq T] (Z : Integerisable A I J) (key : J → Nat) : Integeriser T → Integeriser A →
    List (Nat × List (Transition J Nat W)) → List (Transition I T W) →
    Integeriser T × Integeriser A × List (Nat × List (Transition J Nat W))
  | tI, aI, m, [] => (tI, aI, m)
  | tI, aI, m, t :: ts =>
    let r := Transition.integerise Z tI aI t
    buildTable Z key r.1.1 r.1.2 (HMap.upd (key r.2.instruction) [] (r.2 :: ·) m) ts

/-! ### Push-down storage -/

/-- `PushDown<A>` (push_down_automaton/mod.rs:125-127): the elements, bottom first. -/
abbrev PushDown (A : Type _) := List A

/-- `PushDownInstruction<A>` (push_down_automaton/mod.rs:60-65). -/
structure PdInstr (A : Type _) where
  current : List A
  new : List A
deriving DecidableEq

namespace PushDown
variable {A B : Type _}

/-- `new` (push_down_automaton/mod.rs:376-378). -/
def new (empty initial : A) : PushDown A := [empty, initial]

/-- `empty` (push_down_automaton/mod.rs:323-325), `none` is a panic. -/
def empty (p : PushDown A) : Option A := p[0]?

/-- `current_symbol` (push_down_automaton/mod.rs:326-328), `none` is a panic. -/
def currentSymbol (p : PushDown A) : Option A := p.getLast?

/-- `is_bottom` (push_down_automaton/mod.rs:331-333). -/
def isBottom (p : PushDown A) : Bool := p.length == 1

/-- `replace` (push_down_automaton/mod.rs:394-406); `ends_with`, then `truncate` and `append`. -/
def replace [DecidableEq A] (p : PushDown A) (cur new : List A) : Except (PushDown A) (PushDown A) :=
  if cur.reverse.isSuffixOf p then .ok (List.take (p.length - cur.length) p ++ new) else .error p

end PushDown

/-- `Instruction for PushDownInstruction`: `apply` (push_down_automaton/mod.rs:207-214). -/
def PdInstr.apply {A : Type _} [DecidableEq A] (i : PdInstr A) (p : PushDown A) : List (PushDown A) :=
  match p.replace i.current i.new with
  | .ok q => [q]
  | .error _ => []

/-- `PushDownInstruction::map` (push_down_automaton/mod.rs:68-81). -/
def PdInstr.map {A B : Type _} (f : A → B) (i : PdInstr A) : PdInstr B := ⟨i.current.map f, i.new.map f⟩

/-- `Integerisable1 for PushDownInstruction` (push_down_automaton/mod.rs:110-121): `current_val`, then `new_val`. -/
def PdInstr.integ {A : Type _} [DecidableEq A] : Integerisable A (PdInstr A) (PdInstr Nat) where
  integerise i x :=
    let r := i.integeriseList x.current
    let q := r.1.integeriseList x.new
    (q.1, ⟨r.2, q.2⟩)
  unInteg i x :=
    match i.unList x.current, i.unList x.new with
    | some c, some n => some ⟨c, n⟩
    | _, _ => none

/-- `Integerisable1 for PushDown` (push_down_automaton/mod.rs:358-369). -/
def PushDown.integ {A : Type _} [DecidableEq A] : Integerisable A (PushDown A) (PushDown Nat) where
  integerise := Integeriser.integeriseList
  unInteg := Integeriser.unList

/-- `PushDownAutomaton<A, T, W>` (push_down_automaton/mod.rs:28-38). -/
structure PDA (A T W : Type _) where
  aInt : Integeriser A
  tInt : Integeriser T
  table : List (Nat × List (Transition (PdInstr Nat) Nat W))
  initial : PushDown Nat

namespace PDA
variable {A T W : Type _} [DecidableEq A] [DecidableEq T]

/-- The state of the loop in `new`. -/
structure BuildState (A T W : Type _) where
  aInt : Integeriser A
  tInt : Integeriser T
  map : List (Nat × List ((List Nat × PdInstr Nat) × W))

/-- One iteration of the loop in `new` (push_down_automaton/mod.rs:144-160); `none` if `current_val` is empty (`first().unwrap()`). -/
def buildStep [Zero W] [Add W] (s : BuildState A T W) (t : Transition (PdInstr A) T W) : Option (BuildState A T W) :=
  let r := Transition.integerise PdInstr.integ s.tInt s.aInt t
  match r.2.instruction.current[0]? with
  | none => none
  | some a => some ⟨r.1.2, r.1.1, HMap.upd a [] (HMap.upd (r.2.word, r.2.instruction) 0 (· + r.2.weight)) s.map⟩

/-- `PushDownAutomaton::new` (push_down_automaton/mod.rs:135-181), `none` is a panic. -/
def new [Zero W] [Add W] (ts : List (Transition (PdInstr A) T W)) (initial : PushDown A) : Option (PDA A T W) :=
  let r := PushDown.integ.integerise Integeriser.new initial
  match ts.foldlM buildStep (⟨r.1, Integeriser.new, []⟩ : BuildState A T W) with
  | none => none
  | some s => some ⟨s.aInt, s.tInt, s.map.map fun p => (p.1, p.2.map fun q => ⟨q.1.1, q.2, q.1.2⟩), r.2⟩

/-- `list_transitions` (push_down_automaton/mod.rs:190-198), `none` is a panic. -/
def listTransitions (P : PDA A T W) : Option (List (Transition (PdInstr A) T W)) :=
  (P.table.flatMap Prod.snd).mapM (Transition.unInteg PdInstr.integ P.tInt P.aInt)

/-- `initial` (push_down_automaton/mod.rs:241-243), `none` is a panic. -/
def initialStore (P : PDA A T W) : Option (PushDown A) := PushDown.integ.unInteg P.aInt P.initial

/-- What recognition uses (push_down_automaton/mod.rs:284-299). -/
def automaton (P : PDA A T W) : Automaton Nat (PushDown Nat) (PdInstr Nat) Nat W where
  apply := PdInstr.apply
  key c := c.storage.currentSymbol
  isTerminal c := c.word.isEmpty && c.storage.isBottom
  table := P.table
  initial := P.initial

/-- `terminal_to_int` (push_down_automaton/mod.rs:280-282). -/
def terminalToInt (P : PDA A T W) : T → Option Nat := P.tInt.findKey

/-- `item_map` (push_down_automaton/mod.rs:245-278). -/
def itemMap (P : PDA A T W) : Item (PushDown Nat) (PdInstr Nat) Nat W → Option (Item (PushDown A) (PdInstr A) T W) :=
  Rustomata.itemMap PdInstr.integ PushDown.integ P.tInt P.aInt

/-- `recognise` (push_down_automaton/mod.rs:309-311). -/
def recognise [Mul W] [One W] {G : Type _} (P : PDA A T W) (ag : Agenda G (Item (PushDown Nat) (PdInstr Nat) Nat W)) (empty : G)
    (word : List T) (n : Nat) : Option (List (Item (PushDown A) (PdInstr A) T W) × G) :=
  P.automaton.recogniseOuter P.terminalToInt P.itemMap ag empty word n

end PDA

/-! ### Finite state automata -/

/-- `FiniteStateInstruction<Q>` (finite_state_automaton/mod.rs:35-38). -/
structure FsInstr (Q : Type _) where
  source : Q
  target : Q
deriving DecidableEq

/-- `Instruction for FiniteStateInstruction`: `apply` (finite_state_automaton/mod.rs:65-71). -/
def FsInstr.apply {Q : Type _} [DecidableEq Q] (i : FsInstr Q) (p : Q) : List Q := if i.source = p then [i.target] else []

/-- `Integerisable1 for FiniteStateInstruction` (finite_state_automaton/mod.rs:40-57). -/
def FsInstr.integ {Q : Type _} [DecidableEq Q] : Integerisable Q (FsInstr Q) (FsInstr Nat) where
  integerise i x :=
    let r := i.integerise x.source
    let q := r.1.integerise x.target
    (q.1, ⟨r.2, q.2⟩)
  unInteg i x :=
    match i.findValue x.source, i.findValue x.target with
    | some s, some t => some ⟨s, t⟩
    | _, _ => none

/-- States are translated by the integeriser itself (finite_state_automaton/mod.rs:86-87, 174). -/
def stateInteg {Q : Type _} [DecidableEq Q] : Integerisable Q Q Nat where
  integerise := Integeriser.integerise
  unInteg := Integeriser.findValue

/-- `FiniteStateAutomaton<Q, T, W>` (finite_state_automaton/mod.rs:21-32); the bit set of final states is a list. -/
structure FSA (Q T W : Type _) where
  qInt : Integeriser Q
  tInt : Integeriser T
  table : List (Nat × List (Transition (FsInstr Nat) Nat W))
  initial : Nat
  finals : List Nat

namespace FSA
variable {Q T W : Type _} [DecidableEq Q] [DecidableEq T]

/-- `FiniteStateAutomaton::new` (finite_state_automaton/mod.rs:80-108). -/
def new (ts : List (Transition (FsInstr Q) T W)) (initial : Q) (finals : List Q) : FSA Q T W :=
  let r := (Integeriser.new : Integeriser Q).integerise initial
  let f := r.1.integeriseList finals
  let b := buildTable FsInstr.integ FsInstr.source Integeriser.new f.1 [] ts
  ⟨b.2.1, b.1, b.2.2, r.2, f.2⟩

/-- `list_transitions` (finite_state_automaton/mod.rs:110-118). -/
def listTransitions (P : FSA Q T W) : Option (List (Transition (FsInstr Q) T W)) :=
  (P.table.flatMap Prod.snd).mapM (Transition.unInteg FsInstr.integ P.tInt P.qInt)

/-- `initial` (finite_state_automaton/mod.rs:145-150). -/
def initialState (P : FSA Q T W) : Option Q := P.qInt.findValue P.initial

/-- What recognition uses (finite_state_automaton/mod.rs:187-206). -/
def automaton (P : FSA Q T W) : Automaton Nat Nat (FsInstr Nat) Nat W where
  apply := FsInstr.apply
  key c := some c.storage
  isTerminal c := c.word.isEmpty && decide (c.storage ∈ P.finals)
  table := P.table
  initial := P.initial

/-- `recognise` of the automaton trait (recognisable/automaton.rs:115-158) for finite state automata. -/
def recognise [Mul W] [One W] {G : Type _} (P : FSA Q T W) (ag : Agenda G (Item Nat (FsInstr Nat) Nat W)) (empty : G)
    (word : List T) (n : Nat) : Option (List (Item Q (FsInstr Q) T W) × G) :=
  P.automaton.recogniseOuter P.tInt.findKey (Rustomata.itemMap FsInstr.integ stateInteg P.tInt P.qInt) ag empty word n

end FSA

end Rustomata
