import Verif.Model.Search
import Verif.Model.Heaps
import Verif.Model.Util

/-!
# Model of weighted automata with storage and of recognition

Source: `/repo/src/recognisable/{mod,configuration,transition,automaton}.rs`.
-/

namespace Rustomata

/-- Like `Search.run`, but the successor function may panic (`none`); then the call of `next` that pops the item panics
(search/src/search.rs:86-93). -/
def Search.runP {A X : Type _} (G : Agenda A X) (succ : X → Option (List X)) : Nat → A → Option (List X × A)
  | 0, a => some ([], a)
  | n + 1, a =>
    match G.pop a with
    | none => some ([], a)
    | some (x, a') =>
      match succ x with
      | none => none
      | some ys =>
        match Search.runP G succ n (G.extend a' ys) with
        | none => none
        | some (r, b) => some (x :: r, b)

/-- `Transition` (transition.rs:13-17). -/
structure Transition (I T W : Type _) where
  word : List T
  weight : W
  instruction : I
deriving DecidableEq

/-- `Configuration` (configuration.rs:7-11). Lean's equality also compares weights, Rust's `==` does not. -/
structure Configuration (S T W : Type _) where
  word : List T
  storage : S
  weight : W
deriving DecidableEq

/-- `Item` (recognisable/mod.rs:25-28). -/
structure Item (S I T W : Type _) where
  conf : Configuration S T W
  run : Pushdown (Transition I T W)
deriving DecidableEq

variable {K S I T W : Type _}

/-- `Transition::apply` (transition.rs:90-108); `ap` is `Instruction::apply` (mod.rs:17-21).
`split_off(n)` of the word is `drop n`. -/
def Transition.apply [DecidableEq T] [Mul W] (ap : I → S → List S) (t : Transition I T W)
    (c : Configuration S T W) : List (Configuration S T W) :=
  if ¬ t.word.isPrefixOf c.word then []
  else (ap t.instruction c.storage).map fun s1 => ⟨c.word.drop t.word.length, s1, c.weight * t.weight⟩

/-- What recognition uses of an `Automaton` (automaton.rs:25-81), in the internal representation.
The transition map is a list of key-value pairs, the order of the transitions under a key (a `BinaryHeap`) is arbitrary. -/
structure Automaton (K S I T W : Type _) where
  /-- `Instruction::apply` -/
  apply : I → S → List S
  /-- `extract_key`; `none` is a panic -/
  key : Configuration S T W → Option K
  /-- `is_terminal` -/
  isTerminal : Configuration S T W → Bool
  /-- `transition_map` -/
  table : List (K × List (Transition I T W))
  /-- `initial_int` -/
  initial : S

namespace Automaton

/-- All transitions (`transitions()`: the values of the map, concatenated). -/
def transitions (M : Automaton K S I T W) : List (Transition I T W) := M.table.flatMap Prod.snd

/-- `trans_map.get(key).unwrap_or(&bh)` (automaton.rs:144-146). -/
def lookup [DecidableEq K] (M : Automaton K S I T W) (k : K) : List (Transition I T W) :=
  match M.table.find? (fun p => p.1 = k) with
  | some p => p.2
  | none => []

/-- The successor function in `recognise` (automaton.rs:142-155), `none` if `extract_key` panics. -/
def successors [DecidableEq K] [DecidableEq T] [Mul W] (M : Automaton K S I T W) (i : Item S I T W) :
    Option (List (Item S I T W)) :=
  match M.key i.conf with
  | none => none
  | some k => some ((M.lookup k).flatMap fun r =>
      (r.apply M.apply i.conf).map fun conf1 => ⟨conf1, i.run.push r⟩)

/-- The initial item, if all terminals are known (automaton.rs:129-140). -/
def initItem [One W] (M : Automaton K S I T W) (word : Option (List T)) : List (Item S I T W) :=
  match word with
  | none => []
  | some w => [⟨⟨w, M.initial, 1⟩, Pushdown.new⟩]

/-- `recognise` (automaton.rs:115-158) without the translation into the outer representation: all items found in the first `n` steps of the
search that are terminal, and the agenda afterwards; `none` if a step panics. `G` is the heap of `Search::weighted`, `empty` its empty state. -/
def recognise [DecidableEq K] [DecidableEq T] [Mul W] [One W] {A : Type _} (M : Automaton K S I T W)
    (G : Agenda A (Item S I T W)) (empty : A) (word : Option (List T)) (n : Nat) :
    Option (List (Item S I T W) × A) :=
  (Search.runP G M.successors n (G.extend empty (M.initItem word))).map fun r =>
    (r.1.filter fun i => M.isTerminal i.conf, r.2)

/-- `recognise_beam` (automaton.rs:160-207). -/
def recogniseBeam [DecidableEq K] [DecidableEq T] [Mul W] [One W] {H : Type _} (M : Automaton K S I T W)
    (heap : MinMaxHeap H (Item S I T W)) (beam : Nat) (word : Option (List T)) (n : Nat) :
    Option (List (Item S I T W) × LimitedHeap H) :=
  M.recognise (LimitedHeap.agenda heap) (LimitedHeap.withCapacity heap beam) word n

/-- `recognise` (automaton.rs:115-158) with the translation of the word (`terminal_to_int`) and of the items (`item_map`, `none` if it panics). -/
def recogniseOuter [DecidableEq K] [DecidableEq T] [Mul W] [One W] {A S' I' T' : Type _} (M : Automaton K S I T W)
    (toInt : T' → Option T) (itemMap : Item S I T W → Option (Item S' I' T' W))
    (G : Agenda A (Item S I T W)) (empty : A) (word : List T') (n : Nat) : Option (List (Item S' I' T' W) × A) :=
  match M.recognise G empty (word.mapM toInt) n with
  | none => none
  | some (out, a) =>
    match out.mapM itemMap with
    | none => none
    | some out' => some (out', a)

/-- The inner loop of `check_run` (automaton.rs:91-98): weight and storages. -/
def checkRunLoop [Mul W] (ap : I → S → List S) : List (Transition I T W) → W × List S → W × List S
  | [], r => r
  | t :: ts, (w, ss) => checkRunLoop ap ts (w * t.weight, ss.foldl (fun acc s => acc ++ ap t.instruction s) [])

/-- `check_run` (automaton.rs:84-112); in the outer representation. -/
def checkRun [Mul W] [One W] (ap : I → S → List S) (initial : S) (run : Pushdown (Transition I T W)) :
    List (Item S I T W) :=
  let r := checkRunLoop ap run.toVec (1, [initial])
  r.2.map fun s => ⟨⟨[], s, r.1⟩, run⟩

end Automaton

end Rustomata
