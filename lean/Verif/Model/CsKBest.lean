import Verif.Model.CsFill
import Verif.Model.Dyck

/-!
# Model of the k-best enumeration of the Chomsky-Schützenberger parser

Source: `/repo/src/grammars/lcfrs/csparsing/automaton/kbest/`.

The algorithm `kth` calls itself for other items (spans and states). Each definition that does so takes a bound for the depth of the recursion; `none` is a panic or
a recursion that exceeds the bound. Indices are natural numbers (`u32` in the code). `FnvUniqueHeap` is a list without equal elements from which a maximum is removed.
-/

namespace Rustomata

/-- `IndexedBacktrace<W>` (kbest/backtrace.rs:10-14). -/
inductive Backtrace (W : Type _)
  | binary (rid q₁ mid q₂ : Nat) (w : W) (i₁ i₂ : Nat)
  | unary (rid q : Nat) (w : W) (i : Nat)
  | nullary (rid : Nat) (w : W)
deriving DecidableEq

namespace Backtrace
variable {W : Type _}

/-- `PartialEq::eq` (backtrace.rs:17-29): states and weights are not compared. -/
def same : Backtrace W → Backtrace W → Bool
  | nullary r₁ _, nullary r₂ _ => r₁ = r₂
  | unary r₁ _ _ i₁, unary r₂ _ _ i₂ => (r₁, i₁) = (r₂, i₂)
  | binary r₁ _ m₁ _ _ i₁₁ i₁₂, binary r₂ _ m₂ _ _ i₂₁ i₂₂ => (r₁, m₁, i₁₁, i₁₂) = (r₂, m₂, i₂₁, i₂₂)
  | _, _ => false

/-- `Ord::cmp` (backtrace.rs:47-62). -/
def cmp : Backtrace W → Backtrace W → Ordering
  | nullary r₁ _, nullary r₂ _ => compare r₁ r₂
  | nullary _ _, _ => .gt
  | _, nullary _ _ => .lt
  | unary r₁ _ _ i₁, unary r₂ _ _ i₂ => (compare i₂ i₁).then (compare r₁ r₂)
  | unary _ _ _ _, _ => .gt
  | binary r₁ _ m₁ _ _ i₁₁ i₁₂, binary r₂ _ m₂ _ _ i₂₁ i₂₂ => (compare i₂₁ i₁₁).then ((compare i₂₂ i₁₂).then ((compare r₁ r₂).then (compare m₁ m₂)))
  | _, _ => .lt

/-- `iter` (backtrace.rs:63-107): the backtraces in which one index is increased. -/
def succs : Backtrace W → List (Backtrace W)
  | binary r q₁ m q₂ w i₁ i₂ => [binary r q₁ m q₂ w i₁ (i₂ + 1), binary r q₁ m q₂ w (i₁ + 1) i₂]
  | unary r q w i => [unary r q w (i + 1)]
  | nullary _ _ => []

end Backtrace

section heap
variable {W : Type _} [LinearOrder W]

/-- The order of the pairs in the heap (unique-heap/src/lib.rs:34): first the weight, then the backtrace. -/
def btLt (a b : W × Backtrace W) : Bool := a.1 < b.1 ∨ (a.1 = b.1 ∧ a.2.cmp b.2 = .lt)

omit [LinearOrder W] in
/-- `UniqueHeap::push` (unique-heap/src/lib.rs:46-56). -/
def btPush (h : List (W × Backtrace W)) (b : Backtrace W) (w : W) : List (W × Backtrace W) :=
  if h.any fun x => x.2.same b then h else h ++ [(w, b)]

/-- `UniqueHeap::pop` (unique-heap/src/lib.rs:59-66). -/
def btPop : List (W × Backtrace W) → Option ((W × Backtrace W) × List (W × Backtrace W))
  | [] => none
  | x :: xs =>
    match btPop xs with
    | none => some (x, xs)
    | some (y, ys) => if btLt x y then some (y, x :: ys) else some (x, xs)

end heap

/-- The field `d` (kbest/mod.rs:25-32): for each span and state the derivations found so far and the candidates. -/
abbrev KCache (W : Type _) := AMap (Nat × Nat × Nat) (List (Backtrace W × W) × List (W × Backtrace W))

section
variable {T W : Type _} [Zero W] [Mul W] [LinearOrder W] [DecidableEq T]

/-- The candidate of a binary rule for a position (kbest/mod.rs:107-115). -/
def btBinary (chart : DenseChart W) (i j : Nat) (b : TdBinary W) (mid : Nat) : Option (Option (W × Backtrace W)) :=
  match chart.getWeight i mid b.left with
  | none => none
  | some none => some none
  | some (some lew) =>
    match chart.getWeight mid j b.right with
    | none => none
    | some none => some none
    | some (some riw) => some (some (b.weight * (lew * riw), .binary b.rid b.left mid b.right b.weight 0 0))

/-- The candidates of a binary rule (kbest/mod.rs:102-117). -/
def btBinaries (chart : DenseChart W) (filter : List Bool) (i j : Nat) (b : TdBinary W) : Option (List (W × Backtrace W)) :=
  match filter[b.rid]? with
  | none => none
  | some false => some []
  | some true => filterMapP (btBinary chart i j b) (List.range' (i + 1) (j - (i + 1)))

/-- The candidate of a chain rule (kbest/mod.rs:119-126). -/
def btUnary (chart : DenseChart W) (filter : List Bool) (i j : Nat) (b : TdUnary W) : Option (Option (W × Backtrace W)) :=
  match filter[b.rid]? with
  | none => none
  | some false => some none
  | some true =>
    match chart.getWeight i j b.succ with
    | none => none
    | some none => some none
    | some (some w₁) => some (some (w₁ * b.weight, .unary b.rid b.succ b.weight 0))

omit [Zero W] [Mul W] [LinearOrder W] in
/-- The candidate of a terminal rule (kbest/mod.rs:128-134): the terminal is not compared to the word. -/
def btNullary (filter : List Bool) (b : TdNullary W) : Option (Option (W × Backtrace W)) :=
  match filter[b.rid]? with
  | none => none
  | some false => some none
  | some true => some (some (b.weight, .nullary b.rid b.weight))

/-- `backtraces` (kbest/mod.rs:90-138), `none` is a panic. -/
def backtraces (A : CsAutomaton T W) (chart : DenseChart W) (filter : List Bool) (i j q : Nat) : Option (List (W × Backtrace W)) :=
  if j < i then none
  else
    match A.tdBinaries[q]?, A.tdUnaries[q]?, if j - i = 1 then A.tdNullaries[q]? else some [] with
    | some bs, some us, some ns =>
      match flatMapP (btBinaries chart filter i j) bs, filterMapP (btUnary chart filter i j) us, filterMapP (btNullary filter) ns with
      | some l₁, some l₂, some l₃ => some ((l₁ ++ l₂ ++ l₃).foldl (fun h c => btPush h c.2 c.1) [])
      | _, _, _ => none
    | _, _, _ => none

/-- The type of `kth`: span, state, index and cache. -/
abbrev KthFn (W : Type _) := Nat → Nat → Nat → Nat → KCache W → Option (Option (Backtrace W × W) × KCache W)

omit [Zero W] [LinearOrder W] in
/-- `weight` (kbest/mod.rs:71-86). -/
def btWeight (kth : KthFn W) (i j : Nat) (b : Backtrace W) (d : KCache W) : Option (Option W × KCache W) :=
  match b with
  | .nullary _ w => some (some w, d)
  | .unary _ q₁ w k =>
    match kth i j q₁ k d with
    | none => none
    | some (none, d) => some (none, d)
    | some (some r, d) => some (some (w * r.2), d)
  | .binary _ q₁ m q₂ w k₁ k₂ =>
    match kth i m q₁ k₁ d with
    | none => none
    | some (none, d) => some (none, d)
    | some (some r₁, d) =>
      match kth m j q₂ k₂ d with
      | none => none
      | some (none, d) => some (none, d)
      | some (some r₂, d) => some (some (w * r₁.2 * r₂.2), d)

omit [Zero W] [LinearOrder W] in
/-- The successors that have a weight (kbest/mod.rs:187-192). -/
def btWorse (kth : KthFn W) (i j : Nat) : List (Backtrace W) → KCache W → Option (List (Backtrace W × W) × KCache W)
  | [], d => some ([], d)
  | b :: bs, d =>
    match btWeight kth i j b d with
    | none => none
    | some (o, d) =>
      match btWorse kth i j bs d with
      | none => none
      | some (l, d) => some ((match o with | none => l | some w => (b, w) :: l), d)

omit [Zero W] in
/-- The loop of `kth` (kbest/mod.rs:184-213): `len`, `last` and `lw` are the variables `vec_len`, `last_deriv` and `last_weight`; the first number bounds the
iterations. -/
def kthLoop (kth : KthFn W) (i j q k : Nat) : Nat → Nat → Backtrace W → W → KCache W → Option (Nat × Backtrace W × W × KCache W)
  | fuel, len, last, lw, d =>
    if len < k + 1 then
      match fuel with
      | 0 => none
      | fuel + 1 =>
        match btWorse kth i j last.succs d with
        | none => none
        | some (new, d) =>
          match d.get (i, j, q) with
          | none => none
          | some (derivs, candidates) =>
            match btPop (new.foldl (fun h c => btPush h c.1 c.2) candidates) with
            | none => some (len, last, lw, d.set (i, j, q) (derivs, []))
            | some ((w, b), rest) => kthLoop kth i j q k fuel (len + 1) b w (d.set (i, j, q) (derivs ++ [(b, w)], rest))
    else some (len, last, lw, d)

omit [Zero W] in
/-- The loop and the result of `kth` (kbest/mod.rs:184-219). -/
def kthFinish (kth : KthFn W) (i j q k len : Nat) (last : Backtrace W) (lw : W) (d : KCache W) : Option (Option (Backtrace W × W) × KCache W) :=
  match kthLoop kth i j q k (k + 1) len last lw d with
  | none => none
  | some (len, last, lw, d) =>
    match compare len (k + 1) with
    | .eq => some (some (last, lw), d)
    | .lt => some (none, d)
    | .gt =>
      match d.get (i, j, q) with
      | none => none
      | some (derivs, _) =>
        match derivs[k]? with
        | none => none
        | some r => some (some r, d)

/-- `kth` (kbest/mod.rs:141-220). -/
def kth (A : CsAutomaton T W) (chart : DenseChart W) (filter : List Bool) : Nat → KthFn W
  | 0, _, _, _, _, _ => none
  | fuel + 1, i, j, q, k, d =>
    match d.get (i, j, q) with
    | none =>
      match backtraces A chart filter i j q with
      | none => none
      | some bts =>
        match btPop bts with
        | none => some (none, d.set (i, j, q) ([], []))
        | some ((w, b), rest) => kthFinish (kth A chart filter fuel) i j q k 1 b w (d.set (i, j, q) ([(b, w)], rest))
    | some (derivs, _) =>
      match derivs.getLast? with
      | none => some (none, d)
      | some (b, w) => kthFinish (kth A chart filter fuel) i j q k derivs.length b w d

/-- A word in brackets, unless the bracket is `Ignore` (kbest/mod.rs:243-246, 250-253). -/
def bracketed (b : BracketContent) (w : List (Bracket BracketContent)) : List (Bracket BracketContent) :=
  if b.isIgnore then w else .open_ b :: (w ++ [.close b])

/-- `read` (kbest/mod.rs:223-281), `none` is a panic or an exceeded bound. -/
def readBt (A : CsAutomaton T W) (chart : DenseChart W) (filter : List Bool) :
    Nat → Nat → Nat → Backtrace W → KCache W → Option (List (Bracket BracketContent) × KCache W)
  | 0, _, _, _, _ => none
  | fuel + 1, i, j, .binary rid q₁ m q₂ _ k₁ k₂, d =>
    match kth A chart filter fuel i m q₁ k₁ d with
    | some (some r₁, d) =>
      match kth A chart filter fuel m j q₂ k₂ d with
      | some (some r₂, d) =>
        match A.brackets[rid]? with
        | none => none
        | some br =>
          match readBt A chart filter fuel i m r₁.1 d with
          | none => none
          | some (w₁, d) =>
            match readBt A chart filter fuel m j r₂.1 d with
            | none => none
            | some (w₂, d) => some (bracketed br.outer (bracketed br.left w₁ ++ .open_ br.right :: (w₂ ++ [.close br.right])), d)
      | _ => none
    | _ => none
  | fuel + 1, i, j, .unary rid q _ k, d =>
    match kth A chart filter fuel i j q k d with
    | some (some r, d) =>
      match readBt A chart filter fuel i j r.1 d with
      | none => none
      | some (w, d) =>
        match A.brackets[rid]? with
        | none => none
        | some br => some (.open_ br.outer :: .open_ br.left :: (w ++ [.close br.left, .close br.outer]), d)
    | _ => none
  | _ + 1, _, _, .nullary rid _, d =>
    match A.brackets[rid]? with
    | none => none
    | some br => some ([.open_ br.outer, .open_ br.left, .close br.left, .close br.outer], d)

/-- The part of `ChartIterator` that changes (kbest/mod.rs:14-38). -/
structure KIter (W : Type _) where
  d : KCache W
  k : Nat

omit [Zero W] [Mul W] [LinearOrder W] in
/-- `ChartIterator::new` (kbest/mod.rs:41-63). -/
def KIter.new : KIter W := ⟨[], 0⟩

/-- `next` (kbest/mod.rs:285-293); `n` is the number of words. -/
def KIter.next (A : CsAutomaton T W) (chart : DenseChart W) (filter : List Bool) (fuel n : Nat) (it : KIter W) :
    Option (Option (List (Bracket BracketContent)) × KIter W) :=
  match kth A chart filter fuel 0 (u8 n) A.initial it.k it.d with
  | none => none
  | some (none, d) => some (none, ⟨d, it.k + 1⟩)
  | some (some r, d) =>
    match readBt A chart filter fuel 0 (u8 n) r.1 d with
    | none => none
    | some (w, d) => some (some w, ⟨d, it.k + 1⟩)

/-- The results of the first calls of `next`. -/
def KIter.run (A : CsAutomaton T W) (chart : DenseChart W) (filter : List Bool) (fuel n : Nat) : Nat → KIter W → Option (List (Option (List (Bracket BracketContent))))
  | 0, _ => some []
  | m + 1, it =>
    match it.next A chart filter fuel n with
    | none => none
    | some (r, it) => (KIter.run A chart filter fuel n m it).map (r :: ·)

end

end Rustomata
