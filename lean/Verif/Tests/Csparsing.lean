import Verif.Tests.Basic
import Verif.Model.CsParse

/-!
# The unit tests of the Chomsky-Schützenberger parser

Sources: the modules `test` in `/repo/src/grammars/lcfrs/csparsing/` (mod.rs:281-330, cowderiv.rs:272-600, automaton/estimates.rs:243-297,
automaton/rulemask.rs:157-250, automaton/kbest/mod.rs:294-575).
-/

namespace Rustomata.Tests.Csparsing

set_option synthInstance.maxSize 4096

/-- The automaton of a grammar in text form. -/
def automaton (s : String) : Option (CsAutomaton (List Nat) ℚ≥0) :=
  match Lcfrs.fromStr str str dec (txt s) with
  | some (some g) => CsAutomaton.fromGrammar factors (g.rules.zipIdx.map fun x => (x.2, x.1)) g.init
  | _ => none

/-! ### kbest/mod.rs -/

/-- `example_automaton` (kbest/mod.rs:300-311). -/
def example1 : Option (CsAutomaton (List Nat) ℚ≥0) := automaton "initial: [S]\n\n
               S → [[T a]] () # 0.7\n
               S → [[Var 0 0]] (S) # 0.3"

/-- The automaton and the chart of the tests `kth`, `structure` and `elements`. -/
def chart1 : Option (CsAutomaton (List Nat) ℚ≥0 × DenseChart ℚ≥0) :=
  example1.bind fun A => (SxOutside.fromAutomaton A 0).bind fun e => (fillChart A [txt "a"] 1 0 e [true, true]).map fun c => (A, c)

def w1 : ℚ≥0 := 7 / 10
def w2 : ℚ≥0 := 3 / 10

/-- Successive calls of `kth` for the same span and state. -/
def kths {T W : Type} [Zero W] [Mul W] [LinearOrder W] [DecidableEq T] (A : CsAutomaton T W) (chart : DenseChart W) (filter : List Bool) (fuel i j q : Nat) :
    List Nat → KCache W → Option (List (Option (Backtrace W × W)))
  | [], _ => some []
  | k :: ks, d =>
    match kth A chart filter fuel i j q k d with
    | none => none
    | some (r, d) => (kths A chart filter fuel i j q ks d).map (r :: ·)

/-- `kth` (kbest/mod.rs:314-344). -/
example : chart1.bind (fun x => kths x.1 x.2 [true, true] 10 0 1 0 [0, 1, 2, 3] []) =
    some [some (.nullary 0 w1, w1), some (.unary 1 0 w2 0, w1 * w2), some (.unary 1 0 w2 1, w1 * w2 * w2), some (.unary 1 0 w2 2, w1 * w2 * w2 * w2)] := by
  decide +kernel

/-- The cache after some calls of `next`, and whether the last call gave a result. -/
def caches (n : Nat) : Option (List (Option (List (Backtrace ℚ≥0 × ℚ≥0) × List (ℚ≥0 × Backtrace ℚ≥0)) × Bool)) :=
  chart1.bind fun x => go x.1 x.2 n KIter.new
where
  go A c : Nat → KIter ℚ≥0 → Option (List (Option (List (Backtrace ℚ≥0 × ℚ≥0) × List (ℚ≥0 × Backtrace ℚ≥0)) × Bool))
    | 0, _ => some []
    | n + 1, it =>
      match it.next A c [true, true] 10 1 with
      | none => none
      | some (r, it) => (go A c n it).map ((it.d.get (0, 1, 0), r.isSome) :: ·)

/-- `structure` (kbest/mod.rs:347-381). -/
example : (KIter.new : KIter ℚ≥0).d.isEmpty = true ∧ (KIter.new : KIter ℚ≥0).k = 0 ∧ (caches 3).map (·.take 2) =
    some [(some ([(.nullary 0 w1, w1)], [(w1 * w2, .unary 1 0 w2 0)]), true),
      (some ([(.nullary 0 w1, w1), (.unary 1 0 w2 0, w1 * w2)], []), true)] ∧
    (caches 3).map (fun l => (l.drop 2).map Prod.snd) = some [true] := by decide +kernel

/-- The expected words (kbest/mod.rs:404-451). -/
def words1 : List (List (Bracket BracketContent)) :=
  [[.open_ (.component 0 0), .open_ .terminal, .close .terminal, .close (.component 0 0)],
    [.open_ (.component 1 0), .open_ (.variable 1 0 0), .open_ (.component 0 0), .open_ .terminal, .close .terminal, .close (.component 0 0), 
    .close (.variable 1 0 0), .close (.component 1 0)],
    [.open_ (.component 1 0), .open_ (.variable 1 0 0), .open_ (.component 1 0), .open_ (.variable 1 0 0), .open_ (.component 0 0), 
    .open_ .terminal, .close .terminal, .close (.component 0 0), .close (.variable 1 0 0), .close (.component 1 0), .close (.variable 1 0 0), 
    .close (.component 1 0)],
    [.open_ (.component 1 0), .open_ (.variable 1 0 0), .open_ (.component 1 0), .open_ (.variable 1 0 0), .open_ (.component 1 0), 
    .open_ (.variable 1 0 0), .open_ (.component 0 0), .open_ .terminal, .close .terminal, .close (.component 0 0), .close (.variable 1 0 0), 
    .close (.component 1 0), .close (.variable 1 0 0), .close (.component 1 0), .close (.variable 1 0 0), .close (.component 1 0)]]

/-- `elements` (kbest/mod.rs:384-454). -/
example : chart1.bind (fun x => KIter.run x.1 x.2 [true, true] 20 1 4 KIter.new) = some (words1.map some) ∧
    (chart1.bind fun x => KIter.run x.1 x.2 [true, true] 20 1 10 KIter.new).map (fun l => l.map Option.isSome) = some (List.replicate 10 true) := by decide +kernel

/-- `example_automaton2` (kbest/mod.rs:502-517). -/
def example2 : Option (CsAutomaton (List Nat) ℚ≥0) := automaton "initial: [S]\n\n
                       S → [[Var 0 0, Var 1 0, Var 0 1, Var 1 1]] (A, B) # 1\n
                       A → [[Var 0 0, Var 1 0], [Var 0 1, Var 2 0]] (A, W, X) # 0.4\n
                       A → [[Var 0 0], [Var 1 0]] (W, X) # 0.6\n
                       B → [[Var 0 0, Var 1 0], [Var 0 1, Var 2 0]] (B, Y, Z) # 0.3\n
                       B → [[Var 0 0], [Var 1 0]] (Y, Z) # 0.7\n
                       W → [[T a]] () # 1\n
                       X → [[T b]] () # 1\n
                       Y → [[T c]] () # 1\n
                       Z → [[T d]] () # 1"

def filter2 : List Bool := List.replicate 15 true

/-- The automaton and the chart of the tests `kth2` and `elements2`. -/
def chart2 : Option (CsAutomaton (List Nat) ℚ≥0 × DenseChart ℚ≥0) :=
  example2.bind fun A => (SxOutside.fromAutomaton A 0).bind fun e => (fillChart A (["a", "c", "b", "b", "d"].map txt) 10 0 e filter2).map fun c => (A, c)

-- `kth2` (kbest/mod.rs:457-475)
#guard chart2.map (fun x => (x.2.getWeight 0 5 0).map Option.isSome) = some (some true) ∧
    chart2.bind (fun x => kths x.1 x.2 filter2 20 0 5 0 [1, 2, 3, 4, 5, 6, 7, 8, 9] []) = some (List.replicate 9 none)

/-- `example_words2` (kbest/mod.rs:519-574). -/
def words2 : List (Bracket BracketContent) :=
  [.open_ (.component 0 0), .open_ (.variable 0 0 0), .open_ (.component 2 0), .open_ (.variable 2 0 0), .open_ (.component 5 0), 
    .open_ .terminal, .close .terminal, .close (.component 5 0), .close (.variable 2 0 0), .close (.component 2 0), .close (.variable 0 0 0), 
    .open_ (.variable 0 1 0), .open_ (.component 4 0), .open_ (.variable 4 0 0), .open_ (.component 7 0), .open_ .terminal, .close .terminal, 
    .close (.component 7 0), .close (.variable 4 0 0), .close (.component 4 0), .close (.variable 0 1 0), .open_ (.variable 0 0 1), 
    .open_ (.component 1 1), .open_ (.variable 1 0 1), .open_ (.component 2 1), .open_ (.variable 2 1 0), .open_ (.component 6 0), 
    .open_ .terminal, .close .terminal, .close (.component 6 0), .close (.variable 2 1 0), .close (.component 2 1), .close (.variable 1 0 1), 
    .open_ (.variable 1 2 0), .open_ (.component 6 0), .open_ .terminal, .close .terminal, .close (.component 6 0), .close (.variable 1 2 0), 
    .close (.component 1 1), .close (.variable 0 0 1), .open_ (.variable 0 1 1), .open_ (.component 4 1), .open_ (.variable 4 1 0), 
    .open_ (.component 8 0), .open_ .terminal, .close .terminal, .close (.component 8 0), .close (.variable 4 1 0), .close (.component 4 1), 
    .close (.variable 0 1 1), .close (.component 0 0)]

-- `elements2` (kbest/mod.rs:478-500)
#guard chart2.bind (fun x => KIter.run x.1 x.2 filter2 30 5 10 KIter.new) = some (some words2 :: List.replicate 9 none)

/-! ### estimates.rs -/

/-- `lcfrs` (estimates.rs:273-295, csparsing/mod.rs:309-331). -/
def grammar : Lcfrs String Char ℚ≥0 := ⟨[⟨"S", ["S", "S"], [[.var 0 0, .var 1 0]], 3 / 10⟩, ⟨"S", [], [[.t 'A']], 7 / 10⟩], "S"⟩

/-- `estimates` (estimates.rs:254-271). -/
example : ((CsAutomaton.fromGrammar factors (grammar.rules.zipIdx.map fun x => (x.2, x.1)) grammar.init).bind fun A =>
    (SxInside.fromAutomaton A 3).bind fun ins => (SxOutside.fromAutomaton A 3).map fun out =>
      [ins.get 0 1, ins.get 0 2, ins.get 0 3, out.get 0 0 3 3, out.get 0 1 2 3, out.get 0 1 2 4]) =
    let w1 : ℚ≥0 := 3 / 10
    let w2 : ℚ≥0 := 7 / 10
    some ([w2, w1 * w2 * w2, w1 * w1 * w2 * w2 * w2, 1, w1 * w2 * w1 * w2, 1].map fun w => some (some w)) := by decide +kernel

/-! ### rulemask.rs -/

/-- The rules of the test `filter` (rulemask.rs:169-231). -/
def maskRules : List (PMCFGRule String Nat Nat) :=
  [⟨"A", ["A", "T1", "T2"], [[.var 1 0, .var 0 0], [.var 0 1, .var 2 0]], 1⟩,
    ⟨"A", ["B"], [[.var 1 0, .var 0 0], [.var 0 1, .var 2 0]], 1⟩,
    ⟨"A", ["T0", "T0"], [[.var 0 0], [.var 1 0]], 1⟩,
    ⟨"B", ["T3", "T3"], [[.var 0 0], [.var 1 0]], 1⟩,
    ⟨"C", ["T3", "T3"], [[.var 0 0], [.var 1 0]], 1⟩,
    ⟨"T0", [], [[.t 0]], 1⟩, ⟨"T1", [], [[.t 1]], 1⟩, ⟨"T2", [], [[.t 2]], 1⟩, ⟨"T3", [], [[.t 3]], 1⟩]

/-- `hots` (rulemask.rs:162-167). -/
def hots (l : List Nat) (n : Nat) : List Bool := l.foldl (fun v i => v.set i true) (List.replicate n false)

/-- `filter` (rulemask.rs:170-250), for two orders of the hash sets. -/
example : ∀ order ∈ [fun (_ : Nat) (l : List Nat) => l.dedup, fun (_ : Nat) (l : List Nat) => l.dedup.reverse],
    (RuleMaskBuilder.new order maskRules "A").map (fun b => [[], [1], [2], [1, 2], [0, 1], [0, 1, 2], [1, 2, 3], [0, 1, 2, 3]].map b.build) =
    some ([hots [] 14, hots [] 14, hots [] 14, hots [] 14, hots [4, 5, 10] 14, hots [0, 1, 4, 5, 10, 11, 12] 14, hots [0, 1, 2, 3, 6, 7, 11, 12, 13] 14,
      hots [0, 1, 2, 3, 4, 5, 6, 7, 10, 11, 12, 13] 14].map some) := by decide +kernel

/-! ### cowderiv.rs -/

/-- `rule_merging` (cowderiv.rs:281-323). -/
example : (mergeRules 'A' [(0, 0, (⟨'A', ['B', 'C'], [[.var 1 0], [.var 0 0]], 1⟩ : PMCFGRule Char Char ℚ≥0)),
    (1, 1, ⟨'A', ['D', 'E'], [[], [.var 0 0, .var 1 0]], 1⟩)]).map Prod.snd =
    some ⟨'A', ['C', 'D', 'E'], [[.var 0 0], [.var 1 0, .var 2 0]], 0⟩ := by decide +kernel

/-- `rules` (cowderiv.rs:340-403). -/
def cowRules : List (PMCFGRule Char String ℚ≥0) :=
  [⟨'S', ['A'], [[.var 0 0, .var 0 1]], 1⟩,
    ⟨'A', [], [[], [.t "asdf"]], 1⟩,
    ⟨'A', [], [[.t "qwer"], []], 1⟩,
    ⟨'A', ['B', 'C'], [[.var 1 1], []], 1⟩,
    ⟨'A', ['D', 'E'], [[], [.var 1 1]], 1⟩,
    ⟨'C', ['A'], [[.var 0 0], [.var 0 1]], 1⟩,
    ⟨'E', ['A'], [[.var 0 1], [.var 0 0]], 1⟩]

/-- The first word (cowderiv.rs:417-428). -/
def cowWord1 : List (Bracket BracketContent) :=
  [.open_ (.component 0 0), .open_ (.variable 0 0 0), .open_ (.component 1 0), .close (.component 1 0), .close (.variable 0 0 0), 
    .open_ (.variable 0 0 1), .open_ (.component 2 0), .close (.component 2 0), .close (.variable 0 0 1), .close (.component 0 0)]

/-- The second word (cowderiv.rs:463-490). -/
def cowWord2 : List (Bracket BracketContent) :=
  [.open_ (.component 0 0), .open_ (.variable 0 0 0), .open_ (.component 3 0), .open_ (.variable 3 1 1), .open_ (.component 5 1), 
    .open_ (.variable 5 0 1), .open_ (.component 2 1), .close (.component 2 1), .close (.variable 5 0 1), .close (.component 5 1), 
    .close (.variable 3 1 1), .close (.component 3 0), .close (.variable 0 0 0), .open_ (.variable 0 0 1), .open_ (.component 4 1), 
    .open_ (.variable 4 1 1), .open_ (.component 6 1), .open_ (.variable 6 0 0), .open_ (.component 1 0), .close (.component 1 0), 
    .close (.variable 6 0 0), .close (.component 6 1), .close (.variable 4 1 1), .close (.component 4 0), .close (.variable 0 0 1), 
    .close (.component 0 0)]

/-- `readoff` (cowderiv.rs:326-330). -/
example : CowNode.new cowWord1 = some (.node 0 [((0, 0), .node 1 []), ((0, 1), .node 2 [])]) ∧
    CowNode.new cowWord2 = some (.node 0 [((0, 0), .node 3 [((1, 1), .node 5 [((0, 1), .node 2 [])])]),
      ((0, 1), .node 4 [((1, 1), .node 6 [((0, 0), .node 1 [])])])]) := ⟨rfl, rfl⟩

/-- `tree_merging` (cowderiv.rs:333-337). -/
example : (CowNode.new cowWord1).bind (CowNode.fallback cowRules 5) =
      some [([], ⟨'S', ['A'], [[.var 0 0, .var 0 1]], 0⟩), ([0], ⟨'A', [], [[], []], 0⟩)] ∧
    (CowNode.new cowWord2).bind (CowNode.fallback cowRules 5) =
      some [([], ⟨'S', ['A'], [[.var 0 0, .var 0 1]], 0⟩), ([0], ⟨'A', ['C', 'E'], [[.var 0 1], [.var 1 1]], 0⟩), ([0, 0], ⟨'C', ['A'], [[], [.var 0 1]], 0⟩),
        ([0, 0, 0], ⟨'A', [], [[], []], 0⟩), ([0, 1], ⟨'E', ['A'], [[], [.var 0 0]], 0⟩), ([0, 1, 0], ⟨'A', [], [[]], 0⟩)] := by decide +kernel

/-! ### csparsing/mod.rs -/

/-- The first derivations of some words. -/
def firsts : Option (List (Option (List (GornTree (PMCFGRule String Char ℚ≥0))))) :=
  (CsRep.new factors (fun _ l => l.dedup) grammar 0).map fun R => [['A'], ['A', 'A']].map fun w => R.parses .default w 10 1

/-- `csrep` (csparsing/mod.rs:289-307). -/
example : firsts = some [some [[([], ⟨"S", [], [[.t 'A']], 7 / 10⟩)]],
      some [[([], ⟨"S", ["S", "S"], [[.var 0 0, .var 1 0]], 3 / 10⟩), ([0], ⟨"S", [], [[.t 'A']], 7 / 10⟩), ([1], ⟨"S", [], [[.t 'A']], 7 / 10⟩)]]] := by
  decide +kernel

end Rustomata.Tests.Csparsing
