import Mathlib.Data.Multiset.Basic

/-!
# Model of the crate `search`

Source: `/repo/search/src/search.rs`, `/repo/search/src/agenda/*.rs`.

The successor function is `FnMut` in Rust; it is modelled as a pure function.
-/

namespace Rustomata

/-- The trait `Agenda` (search/src/agenda/mod.rs:25-41), reduced to `push` and `pop`;
`&mut self` methods return the new agenda. -/
structure Agenda (A I : Type _) where
  /-- agenda/mod.rs:27 -/
  push : A → I → A
  /-- agenda/mod.rs:28 -/
  pop : A → Option (I × A)

namespace Agenda

/-- `Agenda::extend` (agenda/mod.rs:36-40): push the elements in order. -/
def extend {A I : Type _} (G : Agenda A I) (a : A) (xs : List I) : A :=
  xs.foldl G.push a

/-- An agenda that neither drops nor invents items, with respect to its `content`.
This is the contract of `Vec`, `VecDeque` and `BinaryHeap`. -/
structure Lossless {A I : Type _} (G : Agenda A I) (content : A → Multiset I) : Prop where
  push : ∀ a x, content (G.push a x) = x ::ₘ content a
  pop_none : ∀ a, G.pop a = none → content a = 0
  pop_some : ∀ a x a', G.pop a = some (x, a') → content a = x ::ₘ content a'

/-- An agenda that may drop, but never invents items.
This is the contract of `BeamHeap` and `LimitedHeap`. -/
structure Sound {A I : Type _} (G : Agenda A I) (content : A → Multiset I) : Prop where
  push : ∀ a x, content (G.push a x) ≤ x ::ₘ content a
  pop_some : ∀ a x a', G.pop a = some (x, a') → content a = x ::ₘ content a'

/-- `pop` returns an item of maximal priority (the contract of the heaps, ties are unspecified). -/
def PopsMax {A I W : Type _} [LE W] (G : Agenda A I) (content : A → Multiset I)
    (prio : I → W) : Prop :=
  ∀ a x a', G.pop a = some (x, a') → ∀ y ∈ content a', prio y ≤ prio x

end Agenda

/-- `impl Agenda for Vec` (agenda/mod.rs:43-61): push to and pop from the end. -/
def vecAgenda (I : Type _) : Agenda (List I) I where
  push a x := a ++ [x]
  pop a := a.getLast?.map fun x => (x, a.dropLast)

/-- `impl Agenda for VecDeque` (agenda/mod.rs:63-81): `push_front` and `pop_back`.
The head of the list is the front. -/
def dequeAgenda (I : Type _) : Agenda (List I) I where
  push a x := x :: a
  pop a := a.getLast?.map fun x => (x, a.dropLast)

/-- `Search::next` (search.rs:86-93): the returned item and the new agenda. -/
def Search.next {A I : Type _} (G : Agenda A I) (succ : I → List I) (a : A) : Option (I × A) :=
  match G.pop a with
  | none => none
  | some (x, a') => some (x, G.extend a' (succ x))

/-- The first `n` calls to `next` (an iterator consumer stops at the first `None`):
the items returned so far and the agenda afterwards. -/
def Search.run {A I : Type _} (G : Agenda A I) (succ : I → List I) : Nat → A → List I × A
  | 0, a => ([], a)
  | n + 1, a =>
    match Search.next G succ a with
    | none => ([], a)
    | some (x, a') => let r := Search.run G succ n a'; (x :: r.1, r.2)

/-- `Search::dfs` (search.rs:51-53) collects the initial items into a `Vec`;
the first `n` items. -/
def Search.dfs {I : Type _} (initials : List I) (succ : I → List I) (n : Nat) : List I :=
  (Search.run (vecAgenda I) succ n initials).1

/-- `Search::bfs` (search.rs:62-64) collects the initial items into a `VecDeque`, i.e. the *last*
initial item is popped first; the first `n` items. -/
def Search.bfs {I : Type _} (initials : List I) (succ : I → List I) (n : Nat) : List I :=
  (Search.run (dequeAgenda I) succ n initials).1

/-- State of `unique::Search` (search.rs:102-110): agenda and the `BTreeSet` of yielded elements,
represented by a list. -/
structure USearch (A I : Type _) where
  agenda : A
  elements : List I

/-- `unique::Search::from_search` (search.rs:120-125). -/
def USearch.init {A I : Type _} (a : A) : USearch A I := ⟨a, []⟩

/-- `unique::Search::next` (search.rs:136-156). The state is changed also if `None` is returned
because of a duplicate on the agenda. -/
def USearch.next {A I : Type _} [DecidableEq I] (G : Agenda A I) (succ : I → List I)
    (s : USearch A I) : Option I × USearch A I :=
  match G.pop s.agenda with
  | none => (none, s)
  | some (x, a') =>
    if x ∈ s.elements then (none, ⟨a', s.elements⟩)
    else
      let el := x :: s.elements
      (some x, ⟨G.extend a' ((succ x).filter fun y => y ∉ el), el⟩)

/-- What a consumer (e.g. a `for` loop) sees of the first `n` calls: it stops at the first `None`. -/
def USearch.run {A I : Type _} [DecidableEq I] (G : Agenda A I) (succ : I → List I) :
    Nat → USearch A I → List I × USearch A I
  | 0, s => ([], s)
  | n + 1, s =>
    match USearch.next G succ s with
    | (none, _) => ([], s)
    | (some x, s') => let r := USearch.run G succ n s'; (x :: r.1, r.2)

/-- What a consumer sees that keeps calling `next` after a `None`: the items of the first `n` calls. -/
def USearch.runThrough {A I : Type _} [DecidableEq I] (G : Agenda A I) (succ : I → List I) :
    Nat → USearch A I → List I × USearch A I
  | 0, s => ([], s)
  | n + 1, s =>
    let (o, s') := USearch.next G succ s
    let r := USearch.runThrough G succ n s'
    (o.toList ++ r.1, r.2)

end Rustomata
