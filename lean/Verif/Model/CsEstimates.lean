import Verif.Model.CsAutomaton
import Verif.Model.Heaps
import Verif.Model.CsChart
import Mathlib.Data.Prod.Lex

/-!
# Model of the estimates of the Chomsky-Schützenberger parser

Source: `/repo/src/grammars/lcfrs/csparsing/automaton/estimates.rs`.

`BinaryHeap<(W, StateT)>` is a list from which a maximum with respect to the lexicographic order is removed. Equal pairs cannot be distinguished, so that this
determines the behaviour of the heap. `none` is a panic, unless stated otherwise. The constructors are only called with a width that fits `u8`
(csparsing/mod.rs:213).
-/

namespace Rustomata

section heap
variable {W : Type _} [LinearOrder W]

/-- `BinaryHeap<(W, StateT)>::pop` -/
def csPop (h : List (W × Nat)) : Option ((W × Nat) × List (W × Nat)) := removeMax (fun p : W × Nat => toLex p) h

end heap

/-- `SxInside<W>` (estimates.rs:10-11). -/
structure SxInside (W : Type _) where
  table : List W
  states : Nat

/-- `SxOutside<W>` (estimates.rs:17-18). -/
structure SxOutside (W : Type _) where
  table : List W
  maxrange : Nat
  states : Nat

namespace SxInside
variable {W T : Type _} [Zero W] [Mul W] [LinearOrder W]

/-- `index` (estimates.rs:21-23), `none` is a panic. -/
def index (s : SxInside W) (q range : Nat) : Option Nat :=
  if range = 0 then none else some (s.states * (range - 1) + q)

/-- `with_capacity` (estimates.rs:25-27). -/
def withCapacity (states maxrange : Nat) : SxInside W := ⟨List.replicate (states * maxrange) 0, states⟩

/-- `insert` (estimates.rs:29-38), `none` is a panic. The result is not used. -/
def insert (s : SxInside W) (q range : Nat) (weight : W) : Option (SxInside W) :=
  match s.index q range with
  | none => none
  | some k =>
    match s.table[k]? with
    | none => none
    | some w => some (if w = 0 then { s with table := s.table.set k weight } else s)

/-- `get` (estimates.rs:40-47), the outer `none` is a panic. -/
def get (s : SxInside W) (q range : Nat) : Option (Option W) :=
  match s.index q range with
  | none => none
  | some k =>
    match s.table[k]? with
    | none => none
    | some w => some (if w = 0 then none else some w)

/-- `iterate_states` (estimates.rs:49-61), `none` is a panic. -/
def iterateStates (s : SxInside W) (range : Nat) : Option (List (Nat × W)) :=
  if range = 0 ∨ s.table.length < (range - 1) * s.states + s.states then none
  else some ((((s.table.drop ((range - 1) * s.states)).take s.states).zipIdx.filter fun p => p.1 ≠ 0).map fun p => (p.2, p.1))

end SxInside

/-- `filter_map` with a closure that may panic. -/
def filterMapP {X Y : Type _} (f : X → Option (Option Y)) : List X → Option (List Y)
  | [] => some []
  | x :: xs =>
    match f x with
    | none => none
    | some none => filterMapP f xs
    | some (some y) => (filterMapP f xs).map (y :: ·)

/-- `flat_map` with a closure that may panic. -/
def flatMapP {X Y : Type _} (f : X → Option (List Y)) : List X → Option (List Y)
  | [] => some []
  | x :: xs =>
    match f x, flatMapP f xs with
    | some ys, some zs => some (ys ++ zs)
    | _, _ => none

namespace SxInside
variable {W T : Type _} [Zero W] [Mul W] [LinearOrder W]

/-- The closure that follows a chain rule to a state that is not marked (estimates.rs:96-106, 231-238). -/
def follow (filter : List Bool) (w : W) (q : Nat) : Option (Option (W × Nat)) :=
  match filter[q]? with
  | none => none
  | some true => some none
  | some false => some (some (w, q))

/-- The loop that empties the queue (estimates.rs:91-108). The first argument bounds the iterations, see `from_automaton`. The chain rules are followed with
the weight of the rule only. -/
def close (A : CsAutomaton T W) (range : Nat) : Nat → SxInside W → List Bool → List (W × Nat) → Option (SxInside W)
  | 0, _, _, _ => none
  | fuel + 1, s, filter, queue =>
    match csPop queue with
    | none => some s
    | some ((w1, q1), queue) =>
      match filter[q1]? with
      | none => none
      | some true => close A range fuel s filter queue
      | some false =>
        let filter := filter.set q1 true
        match s.insert q1 range w1, A.buUnaries[q1]? with
        | some s, some us =>
          match filterMapP (fun u : BuRule W => follow filter u.weight u.lhs) us with
          | none => none
          | some new => close A range fuel s filter (queue ++ new)
        | _, _ => none

/-- The item for a binary rule, a weight for the left part and the size of the right part (estimates.rs:80-85). -/
def combine (s : SxInside W) (size : Nat) (wl : W) (b : BuBinary W) : Option (Option (W × Nat)) :=
  match s.get b.right size with
  | none => none
  | some none => some none
  | some (some wr) => some (some (wl * b.weight * wr, b.lhs))

/-- The items for a state and weight of the left part (estimates.rs:78-86). -/
def combineState (A : CsAutomaton T W) (s : SxInside W) (size : Nat) (l : Nat × W) : Option (List (W × Nat)) :=
  match A.buBinaries[l.1]? with
  | none => none
  | some bs => filterMapP (combine s size l.2) bs

/-- The items for a size of the left part (estimates.rs:77-88). -/
def combineSize (A : CsAutomaton T W) (s : SxInside W) (range left : Nat) : Option (List (W × Nat)) :=
  match s.iterateStates left with
  | none => none
  | some ls => flatMapP (combineState A s (range - left)) ls

/-- The queue after the binary step (estimates.rs:69-89). -/
def queue (A : CsAutomaton T W) (s : SxInside W) (range : Nat) : Option (List (W × Nat)) :=
  let base := if range = 1 then A.buInitials.flatMap fun p => p.2.map fun r => (r.weight, r.lhs) else []
  (flatMapP (combineSize A s range) (List.range' 1 (range - 1))).map fun new => base ++ new

/-- Number of chain rules; a queue `l` is empty after at most `l.length` plus this number of iterations, because each state is processed once. -/
def chainRules (A : CsAutomaton T W) : Nat := (A.buUnaries.map List.length).sum

/-- The body of the loop over the sizes (estimates.rs:68-109). -/
def step (A : CsAutomaton T W) (s : SxInside W) (range : Nat) : Option (SxInside W) :=
  match s.queue A range with
  | none => none
  | some queue => close A range (queue.length + chainRules A + 1) s (List.replicate s.states false) queue

/-- `from_automaton` (estimates.rs:65-112), `none` is a panic. -/
def fromAutomaton (A : CsAutomaton T W) (maxrange : Nat) : Option (SxInside W) :=
  (List.range' 1 maxrange).foldlM (step A) (withCapacity A.states maxrange)

end SxInside

namespace SxOutside
variable {W T : Type _} [Zero W] [One W] [Mul W] [LinearOrder W]

/-- `index`, `index_usize` (estimates.rs:116-127), `none` is a panic. -/
def index (s : SxOutside W) (q i j : Nat) : Option Nat := chartIndexWithState i j q s.maxrange s.states

/-- `with_capacity` (estimates.rs:129-135). -/
def withCapacity (states maxrange : Nat) : SxOutside W := ⟨List.replicate (states * maxrange * (maxrange + 1) / 2) 0, maxrange, states⟩

/-- `insert` (estimates.rs:137-146), `none` is a panic. The result is not used. -/
def insert (s : SxOutside W) (q i j : Nat) (weight : W) : Option (SxOutside W) :=
  match s.index q i j with
  | none => none
  | some k =>
    match s.table[k]? with
    | none => none
    | some w => some (if w = 0 then { s with table := s.table.set k weight } else s)

/-- `iterate_states` (estimates.rs:148-162), `none` is a panic. -/
def iterateStates (s : SxOutside W) (i j : Nat) : Option (List (Nat × W)) :=
  match s.index 0 i j with
  | none => none
  | some start =>
    if start + s.states ≤ s.table.length then
      some ((((s.table.drop start).take s.states).zipIdx.filter fun p => p.1 ≠ 0).map fun p => (p.2, p.1))
    else none

/-- `get` (estimates.rs:169-182), the outer `none` is a panic. `i + n - j` and `j + maxrange - n` are evaluated from left to right. -/
def get (s : SxOutside W) (q i j n : Nat) : Option (Option W) :=
  if i + n < j then none
  else if s.maxrange ≤ i + n - j then some (some 1)
  else if j + s.maxrange < n then none
  else
    match s.index q i (j + s.maxrange - n) with
    | none => none
    | some k =>
      match s.table[k]? with
      | none => none
      | some w => some (if w = 0 then none else some w)

/-- The loop that empties the queue (estimates.rs:226-240). The first argument bounds the iterations. -/
def close (A : CsAutomaton T W) (i j : Nat) : Nat → SxOutside W → List Bool → List (W × Nat) → Option (SxOutside W)
  | 0, _, _, _ => none
  | fuel + 1, s, filter, queue =>
    match csPop queue with
    | none => some s
    | some ((w0, q0), queue) =>
      match filter[q0]? with
      | none => none
      | some true => close A i j fuel s filter queue
      | some false =>
        let filter := filter.set q0 true
        match s.insert q0 i j w0, A.tdUnaries[q0]? with
        | some s, some us =>
          match filterMapP (fun u : TdUnary W => SxInside.follow filter (u.weight * w0) u.succ) us with
          | none => none
          | some new => close A i j fuel s filter (queue ++ new)
        | _, _ => none

/-- The item for the right successor of a binary rule, the size of the left part and the outside weight of the left-hand side (estimates.rs:205-209). -/
def useLeft (ins : SxInside W) (size : Nat) (w : W) (b : TdBinary W) : Option (Option (W × Nat)) :=
  match ins.get b.left size with
  | none => none
  | some none => some none
  | some (some wl) => some (some (wl * b.weight * w, b.right))

/-- The same with the roles of left and right exchanged (estimates.rs:217-221). -/
def useRight (ins : SxInside W) (size : Nat) (w : W) (b : TdBinary W) : Option (Option (W × Nat)) :=
  match ins.get b.right size with
  | none => none
  | some none => some none
  | some (some wr) => some (some (b.weight * wr * w, b.left))

/-- The binary rules with the given left-hand side (estimates.rs:203-210, 215-222). -/
def useState (A : CsAutomaton T W) (f : W → TdBinary W → Option (Option (W × Nat))) (p : Nat × W) : Option (List (W × Nat)) :=
  match A.tdBinaries[p.1]? with
  | none => none
  | some bs => filterMapP (f p.2) bs

/-- All items for the outside weights of a span (estimates.rs:201-211, 213-223). -/
def useSpan (A : CsAutomaton T W) (s : SxOutside W) (f : W → TdBinary W → Option (Option (W × Nat))) (i j : Nat) : Option (List (W × Nat)) :=
  match s.iterateStates i j with
  | none => none
  | some ps => flatMapP (useState A f) ps

/-- The queue after the binary steps (estimates.rs:197-223). -/
def queue (A : CsAutomaton T W) (ins : SxInside W) (s : SxOutside W) (maxrange i j : Nat) : Option (List (W × Nat)) :=
  let base : List (W × Nat) := if j - i = maxrange then [(1, A.initial)] else []
  match flatMapP (fun i' : Nat => useSpan A s (useLeft ins (i - i')) i' j) (List.range i),
    flatMapP (fun j' : Nat => useSpan A s (useRight ins (j' - j)) i j') (List.range' (j + 1) (maxrange - j)) with
  | some ls, some rs => some (base ++ ls ++ rs)
  | _, _ => none

/-- Number of chain rules. -/
def chainRules (A : CsAutomaton T W) : Nat := (A.tdUnaries.map List.length).sum

/-- The body of the loops (estimates.rs:195-240). -/
def step (A : CsAutomaton T W) (ins : SxInside W) (maxrange : Nat) (s : SxOutside W) (p : Nat × Nat) : Option (SxOutside W) :=
  match s.queue A ins maxrange p.1 p.2 with
  | none => none
  | some queue => close A p.1 p.2 (queue.length + chainRules A + 1) s (List.replicate s.states false) queue

/-- The spans in the order of the loops (estimates.rs:193-195). -/
def spans (maxrange : Nat) : List (Nat × Nat) :=
  (List.range' 1 maxrange).reverse.flatMap fun size => (List.range (maxrange - size + 1)).map fun i => (i, i + size)

/-- `from_automaton` (estimates.rs:186-244), `none` is a panic. -/
def fromAutomaton (A : CsAutomaton T W) (maxrange : Nat) : Option (SxOutside W) :=
  match SxInside.fromAutomaton A maxrange with
  | none => none
  | some ins => (spans maxrange).foldlM (step A ins maxrange) (withCapacity A.states maxrange)

end SxOutside

end Rustomata
