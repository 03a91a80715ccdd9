import Mathlib.Order.Basic
import Mathlib.Order.Lattice
import Mathlib.Order.Defs.LinearOrder

/-!
# Model of the utility data structures

Source: `/repo/vecmultimap/src/lib.rs`, `/repo/src/util/{partition,push_down,reverse,integerisable}.rs`.
-/

namespace Rustomata

/-! ### finite maps in ascending key order (`std::collections::BTreeMap`) -/

/-- `BTreeMap`: an association list in ascending key order. -/
abbrev BMap (K V : Type _) := List (K × V)

namespace BMap
variable {K V : Type _} [LinearOrder K]

/-- `BTreeMap::get`. -/
def get (m : BMap K V) (k : K) : Option V := (m.find? fun p => p.1 = k).map Prod.snd

/-- `BTreeMap::insert`: the old value and the new map. -/
def insert : BMap K V → K → V → Option V × BMap K V
  | [], k, v => (none, [(k, v)])
  | (k', v') :: m, k, v =>
    if k < k' then (none, (k, v) :: (k', v') :: m)
    else if k = k' then (some v', (k, v) :: m)
    else
      let r := insert m k v
      (r.1, (k', v') :: r.2)

/-- `BTreeMap::keys`. -/
def keys (m : BMap K V) : List K := m.map Prod.fst

end BMap

/-! ### `VecMultiMap` -/

/-- `VecMultiMap<T>` (vecmultimap/src/lib.rs:4). The adapter (lib.rs:5, 7-32) has the same methods on a borrowed vector. -/
abbrev VecMultiMap (T : Type _) := List (List T)

namespace VecMultiMap
variable {T : Type _}

/-- `VecMultiMap::new` (lib.rs:35-37). -/
def new : VecMultiMap T := []

/-- `Vec::resize_with(n, Vec::new)`. -/
def resize (m : VecMultiMap T) (n : Nat) : VecMultiMap T :=
  m.take n ++ List.replicate (n - m.length) []

/-- `pad_to` (lib.rs:39-43). -/
def padTo (m : VecMultiMap T) (i : Nat) : VecMultiMap T :=
  if i ≥ m.length then resize m (i + 1) else m

/-- `push_to` (lib.rs:45-48). -/
def pushTo (m : VecMultiMap T) (i : Nat) (x : T) : VecMultiMap T :=
  (padTo m i).modify i (· ++ [x])

/-- `get` (lib.rs:50-53): the list (`get_unchecked`: reading out of bounds would be `none` here)
and the padded map. -/
def get (m : VecMultiMap T) (i : Nat) : Option (List T) × VecMultiMap T :=
  ((padTo m i)[i]?, padTo m i)

/-- `get_mut` (lib.rs:59-62) where the caller changes the list by `f`; also `index_mut` of the adapter (lib.rs:95-99). -/
def getMut (m : VecMultiMap T) (i : Nat) (f : List T → List T) : VecMultiMap T :=
  (padTo m i).modify i f

/-- `get_or_fail` (lib.rs:55-57). -/
def getOrFail (m : VecMultiMap T) (i : Nat) : Option (List T) := m[i]?

/-- `into_vec_with_size` (lib.rs:64-67). -/
def intoVecWithSize (m : VecMultiMap T) (n : Nat) : List (List T) := resize m n

/-- `Into<Vec<Vec<T>>>` (lib.rs:76-86); `rfind` over the enumeration. -/
def intoVec (m : VecMultiMap T) : List (List T) :=
  match m.zipIdx.reverse.find? (fun p => p.1.length > 0) with
  | some (_, i) => intoVecWithSize m (i + 1)
  | none => []

end VecMultiMap

/-! ### `Partition` -/

/-- `Partition<T>` (partition.rs:12): symbols mapped to their cell. A `BTreeSet` is the ascending list of its elements. -/
abbrev Partition (T : Type _) := BMap T (List T)

namespace Partition
variable {T : Type _} [LinearOrder T]

/-- The inner loop of `new` (partition.rs:24-28) for one cell: `none` if a symbol was present. -/
def insertCell (cell : List T) : List T → Partition T → Option (Partition T)
  | [], p => some p
  | s :: ss, p =>
    match BMap.insert p s cell with
    | (some _, _) => none
    | (none, p') => insertCell cell ss p'

/-- `Partition::new` (partition.rs:19-32). -/
def new (cells : List (List T)) : Option (Partition T) :=
  cells.foldlM (fun p cell => insertCell cell cell p) []

/-- `get_cell` (partition.rs:37-44). -/
def getCell (p : Partition T) (x : T) : Option (List T) := BMap.get p x

/-- The loop of `collapse` (partition.rs:52-57); `alphabet` is a set. -/
def collapseLoop : Partition T → List T → List (List T)
  | [], _ => []
  | (s, cell) :: p, alphabet =>
    if s ∈ alphabet then collapseLoop p alphabet
    else cell :: collapseLoop p (cell ++ alphabet)

/-- `collapse` (partition.rs:47-60). -/
def collapse (p : Partition T) : List (List T) := collapseLoop p []

/-- `alphabet` (partition.rs:63-67). -/
def alphabet (p : Partition T) : List T := BMap.keys p

end Partition

/-! ### `Pushdown` -/

/-- `Pushdown<A>` (push_down.rs:10-13); `Rc` is ignored. -/
inductive Pushdown (A : Type _)
  | empty
  | cons (value : A) (below : Pushdown A)
deriving DecidableEq

namespace Pushdown
variable {A B : Type _}

/-- `new` (push_down.rs:38-40). -/
def new : Pushdown A := .empty
/-- `push` (push_down.rs:43-48). -/
def push (p : Pushdown A) (a : A) : Pushdown A := .cons a p
/-- `set` (push_down.rs:52-57). -/
def set (p : Pushdown A) (a : A) : Except (Pushdown A) (Pushdown A) :=
  match p with
  | .empty => .error .empty
  | .cons _ b => .ok (.cons a b)
/-- `is_empty` (push_down.rs:60-65). -/
def isEmpty : Pushdown A → Bool
  | .empty => true
  | .cons _ _ => false
/-- `map` (push_down.rs:68-82) for a stateless function. -/
def map (f : A → B) : Pushdown A → Pushdown B
  | .empty => .empty
  | .cons a b => .cons (f a) (map f b)
/-- `map` (push_down.rs:68-82) for a function with state (`FnMut`), top first. -/
def mapS {S : Type _} (f : S → A → S × B) : S → Pushdown A → S × Pushdown B
  | s, .empty => (s, .empty)
  | s, .cons a b =>
    let r := f s a
    let q := mapS f r.1 b
    (q.1, .cons r.2 q.2)
/-- `pop` (push_down.rs:88-93). -/
def pop : Pushdown A → Except (Pushdown A) (Pushdown A × A)
  | .empty => .error .empty
  | .cons a b => .ok (b, a)
/-- `peek` (push_down.rs:103-108). -/
def peek : Pushdown A → Option A
  | .empty => none
  | .cons a _ => some a
/-- The loop of `to_vec` (push_down.rs:113-124) with accumulator `res`. -/
def toVecLoop : Pushdown A → List A → List A
  | .empty, res => res
  | .cons a b, res => toVecLoop b (res ++ [a])
/-- `to_vec` (push_down.rs:110-127), also `iter` (129-131) and `Into<Vec>` (150-166). -/
def toVec (p : Pushdown A) : List A := (toVecLoop p []).reverse
/-- `From<&[A]>` (push_down.rs:140-148). -/
def ofSlice (l : List A) : Pushdown A := l.foldl push .empty

end Pushdown

/-! ### `Reverse` -/

/-- `Reverse<W>` (reverse.rs:9). -/
structure Reverse (W : Type _) where
  inner : W
deriving DecidableEq

namespace Reverse
variable {W : Type _}

/-- `Ord::cmp` (reverse.rs:20-27): `other.0.cmp(&self.0)`. -/
def cmp (c : W → W → Ordering) (a b : Reverse W) : Ordering := c b.inner a.inner
/-- `Mul` (reverse.rs:109-117). -/
def mul [Mul W] (a b : Reverse W) : Reverse W := ⟨a.inner * b.inner⟩
/-- `Add` (reverse.rs:71-79). -/
def add [Add W] (a b : Reverse W) : Reverse W := ⟨a.inner + b.inner⟩
/-- `One` (reverse.rs:62-69). -/
def one [One W] : Reverse W := ⟨1⟩
/-- `Zero` (reverse.rs:49-60). -/
def zero [Zero W] : Reverse W := ⟨0⟩
/-- `Factorizable` (reverse.rs:166-174). -/
def factorize (f : W → Nat → List W) (a : Reverse W) (n : Nat) : List (Reverse W) :=
  (f a.inner n).map Reverse.mk

end Reverse

/-! ### `HashIntegeriser` -/

/-- `HashIntegeriser<A>` (external crate `integeriser`): a list without repetitions, the key of a value is its index. -/
structure Integeriser (A : Type _) where
  values : List A

namespace Integeriser
variable {A : Type _} [DecidableEq A]

/-- `HashIntegeriser::new`. -/
def new : Integeriser A := ⟨[]⟩

/-- `find_key`. -/
def findKey (i : Integeriser A) (a : A) : Option Nat :=
  i.values.findIdx? (· = a)

/-- `find_value`. -/
def findValue (i : Integeriser A) (n : Nat) : Option A := i.values[n]?

/-- `integerise`: the new integeriser and the key. -/
def integerise (i : Integeriser A) (a : A) : Integeriser A × Nat :=
  match i.findKey a with
  | some n => (i, n)
  | none => (⟨i.values ++ [a]⟩, i.values.length)

end Integeriser

end Rustomata
