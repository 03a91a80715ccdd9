/-!
# Model of the chart of the Chomsky-Schützenberger parser

Source: `/repo/src/grammars/lcfrs/csparsing/automaton/chart.rs`.

`none` is a panic; in particular, a subtraction of machine integers that would be negative panics (as in a build with overflow checks). The bounds of
`RangeT = u8` are not part of the chart; the casts to `RangeT` are modelled where they happen (`fill_chart`).
-/

namespace Rustomata

/-- `chart_size` (chart.rs:16-18). -/
def chartSize (n : Nat) : Nat := n * (n + 1) / 2

/-- `chart_size_with_states` (chart.rs:19-21). -/
def chartSizeWithStates (n states : Nat) : Nat := n * (n + 1) * states / 2

/-- `index` (chart.rs:23-26), `none` is a panic. -/
def chartIndex (i j n : Nat) : Option Nat :=
  if i ≤ j ∧ j - i ≤ n then
    if (n - (j - i) + 1) * (n - (j - i) + 2) ≤ n * (n + 1) then
      some ((n * (n + 1) - (n - (j - i) + 1) * (n - (j - i) + 2)) / 2 + i)
    else none
  else none

/-- `index_with_state` (chart.rs:27-30), `none` is a panic. -/
def chartIndexWithState (i j q n states : Nat) : Option Nat := (chartIndex i j n).map fun k => k * states + q

/-- `DenseChart<W>` (chart.rs:7-14). -/
structure DenseChart (W : Type _) where
  /-- number of saved nonterminals per span -/
  counts : List Nat
  /-- nonterminals with weight per span, at most `beam` for each -/
  entries : List (Nat × W)
  /-- weight per span and nonterminal -/
  weights : List W
  n : Nat
  states : Nat
  beam : Nat

namespace DenseChart
variable {W : Type _}

/-- `new` (chart.rs:35-48), `none` is a panic. -/
def new [Zero W] (n states btPerCell : Nat) : Option (DenseChart W) :=
  if btPerCell ≤ 65535 then
    some ⟨List.replicate (chartSize n) 0, List.replicate (chartSize n * btPerCell) (0, 0),
      List.replicate (chartSizeWithStates n states) 0, n, states, btPerCell⟩
  else none

/-- `add_entry` (chart.rs:51-59), `none` is a panic. -/
def addEntry (c : DenseChart W) (i j state : Nat) (weight : W) : Option (DenseChart W) :=
  match chartIndex i j c.n with
  | none => none
  | some k =>
    match c.counts[k]? with
    | none => none
    | some nts =>
      if nts < c.beam then
        if k * c.beam + nts < c.entries.length ∧ k * c.states + state < c.weights.length then
          some { c with
            entries := c.entries.set (k * c.beam + nts) (state, weight)
            weights := c.weights.set (k * c.states + state) weight
            counts := c.counts.set k (nts + 1) }
        else none
      else some c

/-- `get_weight` (chart.rs:62-72), the outer `none` is a panic. -/
def getWeight [Zero W] [DecidableEq W] (c : DenseChart W) (i j q : Nat) : Option (Option W) :=
  match chartIndexWithState i j q c.n c.states with
  | none => none
  | some k =>
    match c.weights[k]? with
    | none => none
    | some w => some (if w = 0 then none else some w)

/-- `iterate_nont` (chart.rs:96-105), `none` is a panic. -/
def iterateNont (c : DenseChart W) (i j : Nat) : Option (List (Nat × W)) :=
  match chartIndex i j c.n with
  | none => none
  | some k =>
    match c.counts[k]? with
    | none => none
    | some nts =>
      if k * c.beam + nts ≤ c.entries.length then some ((c.entries.drop (k * c.beam)).take nts) else none

end DenseChart

end Rustomata
