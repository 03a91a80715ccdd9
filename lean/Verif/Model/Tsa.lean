import Verif.Model.Pda

/-!
# Model of tree stacks and tree stack automata

Sources: `/repo/src/automata/tree_stack_automaton/tree_stack.rs`, `tree_stack_instruction.rs`, `mod.rs`, `/repo/src/util/tree.rs`.

Simplifications: `Rc` is ignored. The field `parent` of a tree stack is a linked list of parents; here it is a list of frames. A subtree stored in
`children` was put there by `down` (tree_stack.rs:209-222), which takes its `parent`; such subtrees have no parents here by type.
-/

namespace Rustomata

/-- `Vec<Option<Rc<TreeStack<A>>>>` where the tree stacks have no parent: `nil` is the empty vector, `vac` puts `None` in front of a vector,
`occ v c` puts the subtree with value `v` and children `c` in front. -/
inductive Forest (A : Type _)
  | nil
  | vac (rest : Forest A)
  | occ (value : A) (children : Forest A) (rest : Forest A)
deriving DecidableEq

namespace Forest
variable {A B : Type _}

/-- `len()` -/
def length : Forest A → Nat
  | nil => 0
  | vac f => f.length + 1
  | occ _ _ f => f.length + 1

/-- The subtree at index `n`; `none` for `None` and for indices outside of the vector. -/
def slot : Forest A → Nat → Option (A × Forest A)
  | nil, _ => none
  | vac _, 0 => none
  | vac f, n + 1 => f.slot n
  | occ v c _, 0 => some (v, c)
  | occ _ _ f, n + 1 => f.slot n

/-- `v[n] = o`; nothing happens if `n` is outside of the vector (in the code, this panics; see `TreeStack.downPanics`). -/
def write : Forest A → Nat → Option (A × Forest A) → Forest A
  | nil, _, _ => nil
  | vac f, 0, none => vac f
  | vac f, 0, some (v, c) => occ v c f
  | vac f, n + 1, o => vac (f.write n o)
  | occ _ _ f, 0, none => vac f
  | occ _ _ f, 0, some (v, c) => occ v c f
  | occ v c f, n + 1, o => occ v c (f.write n o)

/-- Append `None` until the index `n` exists (tree_stack.rs:69-73). -/
def pad : Forest A → Nat → Forest A
  | nil, 0 => vac nil
  | nil, n + 1 => vac (pad nil n)
  | vac f, 0 => vac f
  | vac f, n + 1 => vac (f.pad n)
  | occ v c f, 0 => occ v c f
  | occ v c f, n + 1 => occ v c (f.pad n)

/-- The index of the first `None`, or the length (tree_stack.rs:110-121). -/
def firstFree : Forest A → Nat
  | nil => 0
  | vac _ => 0
  | occ _ _ f => f.firstFree + 1

/-- The indices of the occupied positions, in order. -/
def occupied : Forest A → List Nat
  | nil => []
  | vac f => f.occupied.map (· + 1)
  | occ _ _ f => 0 :: f.occupied.map (· + 1)

/-- `all` below the current node (tree_stack.rs:134-141). -/
def all (p : A → Bool) : Forest A → Bool
  | nil => true
  | vac f => f.all p
  | occ v c f => p v && c.all p && f.all p

/-- `map` with a state (tree_stack.rs:39-43): value, then children, for each child in order. -/
def mapS {S : Type _} (g : S → A → S × B) : S → Forest A → S × Forest B
  | s, nil => (s, nil)
  | s, vac f => let r := mapS g s f; (r.1, vac r.2)
  | s, occ v c f =>
    let q := g s v
    let r := mapS g q.1 c
    let t := mapS g r.1 f
    (t.1, occ q.2 r.2 t.2)

/-- `map` with a function that may panic. -/
def mapO (g : A → Option B) : Forest A → Option (Forest B)
  | nil => some nil
  | vac f => (f.mapO g).map vac
  | occ v c f =>
    match g v, c.mapO g, f.mapO g with
    | some v, some c, some f => some (occ v c f)
    | _, _, _ => none

end Forest

/-- A parent: the index at which the pointer went up, its value and its children. -/
structure Frame (A : Type _) where
  index : Nat
  value : A
  children : Forest A
deriving DecidableEq

/-- `TreeStack<A>` (tree_stack.rs:12-16). -/
structure TreeStack (A : Type _) where
  parents : List (Frame A)
  value : A
  children : Forest A
deriving DecidableEq

/-- `GornTree<V>` (util/tree.rs): a `BTreeMap` from addresses, here a list sorted by address. -/
abbrev GornTree (V : Type _) := List (List Nat × V)

namespace GornTree
variable {V : Type _}

/-- `insert` (`BTreeMap`). -/
def insert : GornTree V → List Nat → V → GornTree V
  | [], k, v => [(k, v)]
  | (k', v') :: m, k, v => if k = k' then (k, v) :: m else if k < k' then (k, v) :: (k', v') :: m else (k', v') :: insert m k v

/-- `get` (`BTreeMap`). -/
def get : GornTree V → List Nat → Option V
  | [], _ => none
  | (k', v) :: m, k => if k = k' then some v else get m k

end GornTree

namespace TreeStack
variable {A B : Type _}

/-- `new` (tree_stack.rs:20-26). -/
def new (a : A) : TreeStack A := ⟨[], a, .nil⟩

/-- `is_at_bottom` (tree_stack.rs:51-53). -/
def isAtBottom (t : TreeStack A) : Bool := t.parents.isEmpty

/-- `current_symbol` (tree_stack.rs:56-58). -/
def currentSymbol (t : TreeStack A) : A := t.value

/-- `set` (tree_stack.rs:61-64). -/
def set (t : TreeStack A) (a : A) : TreeStack A := { t with value := a }

/-- `push` (tree_stack.rs:68-84) and `push_with` (tree_stack.rs:87-106). -/
def push (t : TreeStack A) (n : Nat) (a : A) : Except (TreeStack A) (TreeStack A) :=
  let c := if n ≥ t.children.length then t.children.pad n else t.children
  match c.slot n with
  | none => .ok ⟨⟨n, t.value, c⟩ :: t.parents, a, .nil⟩
  | some _ => .error { t with children := c }

/-- `push_next` (tree_stack.rs:109-127), `none` is a panic. -/
def pushNext (t : TreeStack A) (a : A) : Option (TreeStack A) :=
  match t.push t.children.firstFree a with
  | .ok s => some s
  | .error _ => none

/-- `all` (tree_stack.rs:130-142). -/
def all (t : TreeStack A) (p : A → Bool) : Bool := p t.value && t.children.all p

/-- `up` (tree_stack.rs:176-192). -/
def up (t : TreeStack A) (n : Nat) : Except (TreeStack A) (TreeStack A) :=
  if t.children.length > n then
    match t.children.slot n with
    | some (v, c) => .ok ⟨⟨n, t.value, t.children.write n none⟩ :: t.parents, v, c⟩
    | none => .error { t with children := t.children.write n none }
  else .error t

/-- `ups` (tree_stack.rs:195-205), `none` is a panic. -/
def ups (t : TreeStack A) : Option (List (TreeStack A)) :=
  t.children.occupied.mapM fun i => match t.up i with
    | .ok s => some s
    | .error _ => none

/-- `down` (tree_stack.rs:209-222). -/
def down (t : TreeStack A) : Except (TreeStack A) (TreeStack A) :=
  match t.parents with
  | f :: ps => .ok ⟨ps, f.value, f.children.write f.index (some (t.value, t.children))⟩
  | [] => .error t

/-- `new_pch[n] = …` in `down` panics (tree_stack.rs:213). -/
def downPanics (t : TreeStack A) : Bool :=
  match t.parents with
  | f :: _ => !decide (f.index < f.children.length)
  | [] => false

/-- `to_tree` for a child: all paths are extended (tree_stack.rs:240-251). -/
def insertForest (path : List Nat) : Nat → Forest A → GornTree A → GornTree A
  | _, .nil, m => m
  | n, .vac f, m => insertForest path (n + 1) f m
  | n, .occ v c f, m => insertForest path (n + 1) f (insertForest (path ++ [n]) 0 c (m.insert (path ++ [n]) v))

/-- `to_tree` of the parents (tree_stack.rs:228-236): the tree and the address of the node above. -/
def parentsToTree : List (Frame A) → GornTree A × List Nat
  | [] => ([], [])
  | f :: ps =>
    let r := parentsToTree ps
    (insertForest r.2 0 f.children (r.1.insert r.2 f.value), r.2 ++ [f.index])

/-- `to_tree` (tree_stack.rs:224-254). The loops that insert a parent's or a child's whole map are inlined. -/
def toTree (t : TreeStack A) : GornTree A × List Nat :=
  let r := parentsToTree t.parents
  (insertForest r.2 0 t.children (r.1.insert r.2 t.value), r.2)

/-- `map` of the parents (tree_stack.rs:33-38): value, parents, children. -/
def mapFrames {S : Type _} (g : S → A → S × B) : S → List (Frame A) → S × List (Frame B)
  | s, [] => (s, [])
  | s, f :: ps =>
    let q := g s f.value
    let r := mapFrames g q.1 ps
    let t := f.children.mapS g r.1
    (t.1, ⟨f.index, q.2, t.2⟩ :: r.2)

/-- `map` with a state (tree_stack.rs:29-48). -/
def mapS {S : Type _} (g : S → A → S × B) (s : S) (t : TreeStack A) : S × TreeStack B :=
  let q := g s t.value
  let r := mapFrames g q.1 t.parents
  let c := t.children.mapS g r.1
  (c.1, ⟨r.2, q.2, c.2⟩)

/-- A frame, with a function that may panic. -/
def Frame.mapO (g : A → Option B) (f : Frame A) : Option (Frame B) :=
  match g f.value, f.children.mapO g with
  | some v, some c => some ⟨f.index, v, c⟩
  | _, _ => none

/-- `map` with a function that may panic (tree_stack.rs:29-48). -/
def mapO (g : A → Option B) (t : TreeStack A) : Option (TreeStack B) :=
  match g t.value, t.parents.mapM (Frame.mapO g), t.children.mapO g with
  | some v, some p, some c => some ⟨p, v, c⟩
  | _, _, _ => none

/-- `Integerisable1 for TreeStack` (tree_stack.rs:257-268). -/
def integ [DecidableEq A] : Integerisable A (TreeStack A) (TreeStack Nat) where
  integerise i t := t.mapS Integeriser.integerise i
  unInteg i t := t.mapO i.findValue

end TreeStack

/-- `TreeStackInstruction<A>` (tree_stack_instruction.rs:12-29). -/
inductive TsInstr (A : Type _)
  | up (n : Nat) (current old new : A)
  | push (n : Nat) (current new : A)
  | down (current old new : A)
deriving DecidableEq

namespace TsInstr
variable {A B : Type _}

/-- The field `current_val`. -/
def current : TsInstr A → A
  | up _ c _ _ => c
  | push _ c _ => c
  | down c _ _ => c

/-- `apply` (tree_stack_instruction.rs:73-128). -/
def apply [DecidableEq A] (i : TsInstr A) (t : TreeStack A) : List (TreeStack A) :=
  match i with
  | up n current old new =>
    if t.currentSymbol = current then
      match t.up n with
      | .ok child => if child.currentSymbol = old then [child.set new] else []
      | .error _ => []
    else []
  | push n current new =>
    if t.currentSymbol = current then
      match t.push n new with
      | .ok s => [s]
      | .error _ => []
    else []
  | down current old new =>
    if t.currentSymbol = current then
      match t.down with
      | .ok parent => if parent.currentSymbol = old then [parent.set new] else []
      | .error _ => []
    else []

/-- `map` with a state (tree_stack_instruction.rs:31-68). -/
def mapS {S : Type _} (g : S → A → S × B) (s : S) : TsInstr A → S × TsInstr B
  | up n c o w => let x := g s c; let y := g x.1 o; let z := g y.1 w; (z.1, up n x.2 y.2 z.2)
  | push n c w => let x := g s c; let z := g x.1 w; (z.1, push n x.2 z.2)
  | down c o w => let x := g s c; let y := g x.1 o; let z := g y.1 w; (z.1, down x.2 y.2 z.2)

/-- `map` with a function that may panic (tree_stack_instruction.rs:31-68). -/
def mapO (g : A → Option B) : TsInstr A → Option (TsInstr B)
  | up n c o w => match g c, g o, g w with
    | some c, some o, some w => some (up n c o w)
    | _, _, _ => none
  | push n c w => match g c, g w with
    | some c, some w => some (push n c w)
    | _, _ => none
  | down c o w => match g c, g o, g w with
    | some c, some o, some w => some (down c o w)
    | _, _, _ => none

/-- `Integerisable1 for TreeStackInstruction` (tree_stack_instruction.rs:131-142). -/
def integ [DecidableEq A] : Integerisable A (TsInstr A) (TsInstr Nat) where
  integerise i t := t.mapS Integeriser.integerise i
  unInteg i t := t.mapO i.findValue

end TsInstr

/-- `TreeStackAutomaton<A, T, W>` (tree_stack_automaton/mod.rs:33-43). -/
structure TSA (A T W : Type _) where
  aInt : Integeriser A
  tInt : Integeriser T
  table : List (Nat × List (Transition (TsInstr Nat) Nat W))
  initial : TreeStack Nat

namespace TSA
variable {A T W : Type _} [DecidableEq A] [DecidableEq T]

/-- `TreeStackAutomaton::new` (tree_stack_automaton/mod.rs:50-89). -/
def new (ts : List (Transition (TsInstr A) T W)) (initial : TreeStack A) : TSA A T W :=
  let r := TreeStack.integ.integerise Integeriser.new initial
  let b := buildTable TsInstr.integ TsInstr.current Integeriser.new r.1 [] ts
  ⟨b.2.1, b.1, b.2.2, r.2⟩

/-- `list_transitions` (tree_stack_automaton/mod.rs:91-99), `none` is a panic. -/
def listTransitions (P : TSA A T W) : Option (List (Transition (TsInstr A) T W)) :=
  (P.table.flatMap Prod.snd).mapM (Transition.unInteg TsInstr.integ P.tInt P.aInt)

/-- `initial` (tree_stack_automaton/mod.rs:101-104, 175-178), `none` is a panic. -/
def initialStack (P : TSA A T W) : Option (TreeStack A) := TreeStack.integ.unInteg P.aInt P.initial

/-- What recognition uses (tree_stack_automaton/mod.rs:165-229). -/
def automaton (P : TSA A T W) : Automaton Nat (TreeStack Nat) (TsInstr Nat) Nat W where
  apply := TsInstr.apply
  key c := some c.storage.currentSymbol
  isTerminal c := c.word.isEmpty && c.storage.isAtBottom
  table := P.table
  initial := P.initial

/-- `recognise` (tree_stack_automaton/mod.rs:133-135). -/
def recognise [Mul W] [One W] {G : Type _} (P : TSA A T W) (ag : Agenda G (Item (TreeStack Nat) (TsInstr Nat) Nat W)) (empty : G)
    (word : List T) (n : Nat) : Option (List (Item (TreeStack A) (TsInstr A) T W) × G) :=
  P.automaton.recogniseOuter P.tInt.findKey (itemMap TsInstr.integ TreeStack.integ P.tInt P.aInt) ag empty word n

end TSA
end Rustomata
