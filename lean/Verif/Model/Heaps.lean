import Verif.Model.Search
import Mathlib.Order.Basic

/-!
# Model of the priority queues

Source: `/repo/search/src/agenda/{binary_heap,beam_heap,limited_heap}.rs`,
`/repo/unique-heap/src/lib.rs`.

`std::collections::BinaryHeap` and `min_max_heap::MinMaxHeap` are external: they are parameters `G`, `M` whose
contracts are `HeapLaws` and `MinMaxLaws`.
-/

namespace Rustomata

/-- Contract of `BinaryHeap` with respect to a priority: nothing is lost, `pop` returns a maximum. -/
structure HeapLaws {H X W : Type _} [LE W] (G : Agenda H X) (content : H → Multiset X)
    (prio : X → W) : Prop where
  lossless : G.Lossless content
  max : G.PopsMax content prio

/-- `BinaryHeap::peek`: the item `pop` would return. -/
def heapPeek {H X : Type _} (G : Agenda H X) (h : H) : Option X := (G.pop h).map Prod.fst

/-- Removes the first maximal element of a list. -/
def removeMax {X W : Type _} [LT W] [DecidableRel (α := W) (· < ·)] (prio : X → W) :
    List X → Option (X × List X)
  | [] => none
  | x :: xs =>
    match removeMax prio xs with
    | none => some (x, xs)
    | some (y, ys) => if prio x < prio y then some (y, x :: ys) else some (x, xs)

/-- A concrete heap (an unsorted list), used to show that the contracts are satisfiable and in witnesses. -/
def listHeap {X W : Type _} [LT W] [DecidableRel (α := W) (· < ·)] (prio : X → W) :
    Agenda (List X) X where
  push h x := x :: h
  pop h := removeMax prio h

/-- The operations of `min_max_heap::MinMaxHeap` used by `LimitedHeap`. -/
structure MinMaxHeap (H X : Type _) where
  empty : H
  len : H → Nat
  push : H → X → H
  popMax : H → Option (X × H)
  /-- `push_pop_min`: inserts, then removes and returns a minimum -/
  pushPopMin : H → X → X × H

/-- Contract of `min_max_heap::MinMaxHeap`. -/
structure MinMaxLaws {H X W : Type _} [LE W] (M : MinMaxHeap H X) (content : H → Multiset X)
    (prio : X → W) : Prop where
  empty : content M.empty = 0
  len : ∀ h, M.len h = (content h).card
  push : ∀ h x, content (M.push h x) = x ::ₘ content h
  pop_none : ∀ h, M.popMax h = none → content h = 0
  pop_some : ∀ h x h', M.popMax h = some (x, h') → content h = x ::ₘ content h'
  pop_max : ∀ h x h', M.popMax h = some (x, h') → ∀ y ∈ content h', prio y ≤ prio x
  ppm : ∀ h x, (M.pushPopMin h x).1 ::ₘ content (M.pushPopMin h x).2 = x ::ₘ content h
  ppm_min : ∀ h x, ∀ y ∈ content (M.pushPopMin h x).2, prio (M.pushPopMin h x).1 ≤ prio y

/-- `LimitedHeap` (limited_heap.rs:9-15). -/
structure LimitedHeap (H : Type _) where
  heap : H
  capacity : Nat

namespace LimitedHeap
variable {H X : Type _} (M : MinMaxHeap H X)

/-- `with_capacity` (limited_heap.rs:18-23). -/
def withCapacity (capacity : Nat) : LimitedHeap H := ⟨M.empty, capacity⟩

/-- `LimitedHeap::push` (limited_heap.rs:25-32): the discarded item, if any, and the new heap. -/
def push (l : LimitedHeap H) (x : X) : Option X × LimitedHeap H :=
  if l.capacity > M.len l.heap then (none, ⟨M.push l.heap x, l.capacity⟩)
  else
    let r := M.pushPopMin l.heap x
    (some r.1, ⟨r.2, l.capacity⟩)

/-- `LimitedHeap::pop` (limited_heap.rs:34-36). -/
def pop (l : LimitedHeap H) : Option (X × LimitedHeap H) :=
  (M.popMax l.heap).map fun (x, h) => (x, ⟨h, l.capacity⟩)

/-- `impl Agenda for LimitedHeap` (agenda/mod.rs:129-150): the reported discarded item is ignored. -/
def agenda : Agenda (LimitedHeap H) X where
  push l x := (push M l x).2
  pop l := pop M l

end LimitedHeap

/-- A concrete min-max heap (an unsorted list). -/
def listMinMax {X W : Type _} [LT W] [DecidableRel (α := W) (· < ·)] (prio : X → W) :
    MinMaxHeap (List X) X where
  empty := []
  len := List.length
  push h x := x :: h
  popMax h := removeMax prio h
  pushPopMin h x :=
    match removeMax (W := Wᵒᵈ) (fun y => OrderDual.toDual (prio y)) (x :: h) with
    | none => (x, h)
    | some r => r

/-- `BeamHeap` (beam_heap.rs:9-15). -/
structure BeamHeap (H W : Type _) where
  heap : H
  beta : W

namespace BeamHeap
variable {H X W : Type _} [LE W] [DecidableRel (α := W) (· ≤ ·)] [Mul W]
  (G : Agenda H X) (prio : X → W)

/-- `BeamHeap::push` (beam_heap.rs:28-40) with the priority given by the item. -/
def push (b : BeamHeap H W) (x : X) : Bool × BeamHeap H W :=
  match heapPeek G b.heap with
  | none => (true, ⟨G.push b.heap x, b.beta⟩)
  | some best =>
    if prio best * b.beta ≤ prio x then (true, ⟨G.push b.heap x, b.beta⟩) else (false, b)

/-- `BeamHeap::pop` (beam_heap.rs:46-48). -/
def pop (b : BeamHeap H W) : Option (X × BeamHeap H W) :=
  (G.pop b.heap).map fun (x, h) => (x, ⟨h, b.beta⟩)

/-- `impl Agenda for BeamHeap` (agenda/mod.rs:106-127). -/
def agenda : Agenda (BeamHeap H W) X where
  push b x := (push G prio b x).2
  pop b := pop G b

end BeamHeap

/-- `UniqueHeap` (unique-heap/src/lib.rs:28-36); the `HashSet` is a list. -/
structure UniqueHeap (H It : Type _) where
  heap : H
  items : List It

namespace UniqueHeap
variable {H It Wt : Type _} [DecidableEq It] (G : Agenda H (Wt × It))

/-- `Default::default` (lib.rs:91-96), with an empty heap given. -/
def default (empty : H) : UniqueHeap H It := ⟨empty, []⟩

/-- `UniqueHeap::push` (lib.rs:46-56). -/
def push (u : UniqueHeap H It) (i : It) (w : Wt) : Bool × UniqueHeap H It :=
  if i ∈ u.items then (false, u) else (true, ⟨G.push u.heap (w, i), i :: u.items⟩)

/-- `UniqueHeap::pop` (lib.rs:59-66). -/
def pop (u : UniqueHeap H It) : Option (It × Wt) × UniqueHeap H It :=
  match G.pop u.heap with
  | some ((w, i), h) => (some (i, w), ⟨h, u.items.filter (· ≠ i)⟩)
  | none => (none, u)

/-- `FromIterator::from_iter` (lib.rs:105-127). -/
def fromIter (empty : H) (l : List (It × Wt)) : UniqueHeap H It :=
  l.foldl (fun u p =>
    if p.1 ∈ u.items then u else ⟨G.push u.heap (p.2, p.1), p.1 :: u.items⟩) ⟨empty, []⟩

/-- `From<Vec<(W, I)>>` (lib.rs:136-142): all elements are put on the heap, the set gets all items. -/
def fromVec (empty : H) (l : List (Wt × It)) : UniqueHeap H It :=
  ⟨G.extend empty l, l.foldl (fun s p => if p.2 ∈ s then s else p.2 :: s) []⟩

/-- `into_sorted_vec` (lib.rs:72-74) is `BinaryHeap::into_sorted_vec`: pop everything, then reverse.
`fuel` bounds the number of pops (the number of items suffices). -/
def drain : Nat → H → List (Wt × It)
  | 0, _ => []
  | n + 1, h =>
    match G.pop h with
    | none => []
    | some (x, h') => drain n h' ++ [x]

/-- `len` (lib.rs:80-82) of the heap: its number of elements. -/
def intoSortedVec (size : H → Nat) (u : UniqueHeap H It) : List (Wt × It) := drain G (size u.heap) u.heap

end UniqueHeap

end Rustomata
