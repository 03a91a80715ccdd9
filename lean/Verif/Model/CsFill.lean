import Verif.Model.CsEstimates

/-!
# Model of the chart parser of the Chomsky-Schützenberger parser

Source: `/repo/src/grammars/lcfrs/csparsing/automaton/mod.rs`, `fill_chart`.

Positions are cast to `RangeT = u8` for all accesses to the chart. `none` is a panic.
-/

namespace Rustomata

/-- The cast to `RangeT` (automaton/mod.rs:25). -/
def u8 (x : Nat) : Nat := x % 256

section
variable {T W : Type _} [Zero W] [One W] [Mul W] [LinearOrder W] [DecidableEq T]

/-- The item for a rule that passed the rule filter, unless there is no outside estimate (automaton/mod.rs:299-304, 324-325, 344-348). -/
def csPropose (outsides : SxOutside W) (filter : List Bool) (l r n rid q : Nat) (w : W) : Option (Option (W × Nat)) :=
  match filter[rid]? with
  | none => none
  | some false => some none
  | some true =>
    match outsides.get q l r n with
    | none => none
    | some none => some none
    | some (some _) => some (some (w, q))

/-- The initial predictions (automaton/mod.rs:295-306). -/
def csInitials (A : CsAutomaton T W) (word : List T) (outsides : SxOutside W) (filter : List Bool) (l r : Nat) : Option (List (W × Nat)) :=
  match word[l]? with
  | none => none
  | some t =>
    match A.buInitials.get t with
    | none => some []
    | some rs => filterMapP (fun b : BuRule W => csPropose outsides filter l r word.length b.rid b.lhs b.weight) rs

/-- The closure of the binary step (automaton/mod.rs:314-327); the cache is never filled. -/
def csBinary (chart : DenseChart W) (outsides : SxOutside W) (filter : List Bool) (l mid r n : Nat) (lew : W) (b : BuBinary W) :
    Option (Option (W × Nat)) :=
  match filter[b.rid]? with
  | none => none
  | some false => some none
  | some true =>
    match chart.getWeight (u8 mid) (u8 r) b.right with
    | none => none
    | some none => some none
    | some (some riw) =>
      match outsides.get b.lhs l r n with
      | none => none
      | some none => some none
      | some (some _) => some (some (lew * b.weight * riw, b.lhs))

/-- The binary step (automaton/mod.rs:309-330). -/
def csBinaries (A : CsAutomaton T W) (chart : DenseChart W) (outsides : SxOutside W) (filter : List Bool) (l r n : Nat) : Option (List (W × Nat)) :=
  flatMapP (fun mid : Nat =>
    match chart.iterateNont (u8 l) (u8 mid) with
    | none => none
    | some ls => flatMapP (fun e : Nat × W =>
        match A.buBinaries[e.1]? with
        | none => none
        | some bs => filterMapP (csBinary chart outsides filter l mid r n e.2) bs) ls)
    (List.range' (l + 1) (r - (l + 1)))

/-- The unary step and insertion into the chart (automaton/mod.rs:337-357). The first argument bounds the iterations: each state is processed at most once, so
that the number of items in the heap plus the number of chain rules is sufficient. -/
def csClose (A : CsAutomaton T W) (outsides : SxOutside W) (filter : List Bool) (l r n : Nat) (worst : W) :
    Nat → DenseChart W → List Bool → Nat → List (W × Nat) → Option (DenseChart W)
  | 0, _, _, _, _ => none
  | fuel + 1, chart, skip, i, heap =>
    match csPop heap with
    | none => some chart
    | some ((w, q), heap) =>
      match skip[q]? with
      | none => none
      | some true => csClose A outsides filter l r n worst fuel chart skip i heap
      | some false =>
        let skip := skip.set q true
        match chart.addEntry (u8 l) (u8 r) q w, A.buUnaries[q]? with
        | some chart, some us =>
          match filterMapP (fun b : BuRule W => csPropose outsides filter l r n b.rid b.lhs (b.weight * w)) us with
          | none => none
          | some new =>
            match i with
            | 0 => none
            | i + 1 =>
              if i = 0 ∨ w < worst then some chart
              else csClose A outsides filter l r n worst fuel chart skip i (heap ++ new)
        | _, _ => none

/-- The body of the loops (automaton/mod.rs:289-358). -/
def csCell (A : CsAutomaton T W) (word : List T) (beam : Nat) (delta : W) (outsides : SxOutside W) (filter : List Bool)
    (chart : DenseChart W) (p : Nat × Nat) : Option (DenseChart W) :=
  match (if p.2 - p.1 = 1 then csInitials A word outsides filter p.1 p.2 else some []),
    csBinaries A chart outsides filter p.1 p.2 word.length with
  | some init, some bins =>
    let heap := init ++ bins
    let worst := delta * (((csPop heap).map fun r => r.1.1).getD 0)
    csClose A outsides filter p.1 p.2 word.length worst (heap.length + SxInside.chainRules A + 1) chart (List.replicate A.states false) beam heap
  | _, _ => none

/-- The spans in the order of the loops (automaton/mod.rs:287-289). -/
def csSpans (n : Nat) : List (Nat × Nat) :=
  (List.range' 1 n).flatMap fun range => (List.range (n - range + 1)).map fun l => (l, l + range)

/-- `fill_chart` (automaton/mod.rs:275-353), `none` is a panic. -/
def fillChart (A : CsAutomaton T W) (word : List T) (beam : Nat) (delta : W) (outsides : SxOutside W) (filter : List Bool) : Option (DenseChart W) :=
  match DenseChart.new word.length A.states beam with
  | none => none
  | some chart => (csSpans word.length).foldlM (csCell A word beam delta outsides filter) chart

end

end Rustomata
