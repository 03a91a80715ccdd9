import Verif.Model.Pmcfg
import Verif.Model.Util
import Verif.Model.Map

/-!
# Model of the automaton of the Chomsky-Schützenberger parser

Source: `/repo/src/grammars/lcfrs/csparsing/automaton/mod.rs`, `/repo/src/grammars/lcfrs/csparsing/mod.rs`.

Simplifications: the mirrored binary rules (field 6 of `Automaton`) are never read and not modelled; rule ids, states, component and successor indices are
natural numbers (`u32`, `u8` in the code, which documents the assumption that fanouts and arities fit). A `HashMap` is an association list.
-/

namespace Rustomata

/-- `BracketContent` (csparsing/mod.rs:23-31). -/
inductive BracketContent
  | ignore
  | terminal
  | component (rule comp : Nat)
  | variable (rule i j : Nat)
deriving DecidableEq

/-- `is_ignore` (csparsing/mod.rs:34-40). -/
def BracketContent.isIgnore : BracketContent → Bool
  | ignore => true
  | _ => false

/-- `State<Nt>` (automaton/mod.rs:70-74). -/
inductive CsState (N : Type _)
  | non (n : N) (j : Nat)
  | unique (rule comp pos : Nat)
deriving DecidableEq

/-- `BuRule<W>` with the rule identifier (automaton/mod.rs:28, 50-52). -/
structure BuRule (W : Type _) where
  rid : Nat
  weight : W
  lhs : Nat
deriving DecidableEq

/-- The entries of the bottom-up table for binary rules (automaton/mod.rs:50): rule identifier, right state, weight and target state. -/
structure BuBinary (W : Type _) where
  rid : Nat
  right : Nat
  weight : W
  lhs : Nat
deriving DecidableEq

/-- `TdBinary<W>` (automaton/mod.rs:30). -/
structure TdBinary (W : Type _) where
  rid : Nat
  left : Nat
  right : Nat
  weight : W
deriving DecidableEq

/-- `TdUnary<W>` (automaton/mod.rs:32). -/
structure TdUnary (W : Type _) where
  rid : Nat
  succ : Nat
  weight : W
deriving DecidableEq

/-- `TdNullary<W>` (automaton/mod.rs:34). -/
structure TdNullary (W : Type _) where
  rid : Nat
  weight : W
deriving DecidableEq

/-- `TdBrackets` (automaton/mod.rs:40). -/
structure TdBrackets where
  outer : BracketContent
  left : BracketContent
  right : BracketContent
deriving DecidableEq

/-- `Automaton<T, W>` (automaton/mod.rs:49-65). -/
structure CsAutomaton (T W : Type _) where
  buBinaries : List (List (BuBinary W))
  buUnaries : List (List (BuRule W))
  buInitials : AMap T (List (BuRule W))
  tdBinaries : List (List (TdBinary W))
  tdUnaries : List (List (TdUnary W))
  tdNullaries : List (List (TdNullary W))
  initial : Nat
  brackets : List TdBrackets

/-- `states` (automaton/mod.rs:268-270). -/
def CsAutomaton.states {T W : Type _} (A : CsAutomaton T W) : Nat := A.buBinaries.length

/-- The local variables of `from_grammar` (automaton/mod.rs:90-98). -/
structure CsBuild (N T W : Type _) where
  ints : Integeriser (CsState N)
  buBin : VecMultiMap (BuBinary W)
  buUn : VecMultiMap (BuRule W)
  buInit : AMap T (List (BuRule W))
  tdBin : VecMultiMap (TdBinary W)
  tdUn : VecMultiMap (TdUnary W)
  tdInit : VecMultiMap (TdNullary W)
  brackets : List TdBrackets

namespace CsBuild
variable {N T W : Type _} [DecidableEq N] [DecidableEq T]

/-- The state before the loop (automaton/mod.rs:90-98). -/
def empty : CsBuild N T W := ⟨Integeriser.new, [], [], [], [], [], [], []⟩

/-- `state_integerizer.integerise(…)`. -/
def state (b : CsBuild N T W) (s : CsState N) : CsBuild N T W × Nat :=
  let r := b.ints.integerise s
  ({ b with ints := r.1 }, r.2)

/-- A terminal rule (automaton/mod.rs:112-121). -/
def addNullary (b : CsBuild N T W) (a : T) (w : W) (q : Nat) (br : TdBrackets) : CsBuild N T W :=
  { b with
    buInit := b.buInit.set a ((b.buInit.get a).getD [] ++ [⟨b.brackets.length, w, q⟩])
    tdInit := b.tdInit.pushTo q ⟨b.brackets.length, w⟩
    brackets := b.brackets ++ [br] }

/-- A chain rule (automaton/mod.rs:126-142). -/
def addUnary (b : CsBuild N T W) (succ : Nat) (w : W) (q : Nat) (br : TdBrackets) : CsBuild N T W :=
  { b with
    buUn := b.buUn.pushTo succ ⟨b.brackets.length, w, q⟩
    tdUn := b.tdUn.pushTo q ⟨b.brackets.length, succ, w⟩
    brackets := b.brackets ++ [br] }

/-- A binary rule (automaton/mod.rs:167-185, 206-225). -/
def addBinary (b : CsBuild N T W) (left right : Nat) (w : W) (q : Nat) (br : TdBrackets) : CsBuild N T W :=
  { b with
    buBin := b.buBin.pushTo left ⟨b.brackets.length, right, w, q⟩
    tdBin := b.tdBin.pushTo q ⟨b.brackets.length, left, right, w⟩
    brackets := b.brackets ++ [br] }

/-- The loop over the remaining nonterminals of a component (automaton/mod.rs:187-226): `q` is the state of the component, `left` is `targetstate`;
`none` is a panic. -/
def rest [One W] (rid cid : Nat) (tail : List N) (q : Nat) : List (VarT T) → Nat → CsBuild N T W → Nat → Option (CsBuild N T W)
  | [], _, b, _ => some b
  | .t _ :: _, _, _, _ => none
  | .var i j :: c, off, b, left =>
    match tail[i]? with
    | none => none
    | some n =>
      let r := b.state (.non n j)
      match c with
      | [] => some (r.1.addBinary left r.2 1 q ⟨.component rid cid, .ignore, .variable rid i j⟩)
      | _ :: _ =>
        let s := r.1.state (.unique rid cid off)
        rest rid cid tail q c (off + 1) (s.1.addBinary left r.2 1 s.2 ⟨.ignore, .ignore, .variable rid i j⟩) s.2

/-- The body of the loop over the components (automaton/mod.rs:102-229), `none` is a panic. -/
def component [One W] (rid cid : Nat) (head : N) (tail : List N) (c : List (VarT T)) (w : W) (b : CsBuild N T W) : Option (CsBuild N T W) :=
  let h := b.state (.non head cid)
  match c with
  | [] => none
  | [.t a] => some (h.1.addNullary a w h.2 ⟨.component rid cid, .terminal, .ignore⟩)
  | [.var i j] =>
    match tail[i]? with
    | none => none
    | some n =>
      let s := h.1.state (.non n j)
      some (s.1.addUnary s.2 w h.2 ⟨.component rid cid, .variable rid i j, .ignore⟩)
  | .var i₁ j₁ :: .var i₂ j₂ :: c =>
    match tail[i₁]?, tail[i₂]? with
    | some n₁, some n₂ =>
      let s₁ := h.1.state (.non n₁ j₁)
      let s₂ := s₁.1.state (.non n₂ j₂)
      match c with
      | [] => some (s₂.1.addBinary s₁.2 s₂.2 w h.2 ⟨.component rid cid, .variable rid i₁ j₁, .variable rid i₂ j₂⟩)
      | _ :: _ =>
        let u := s₂.1.state (.unique rid cid 0)
        rest rid cid tail h.2 c 1 (u.1.addBinary s₁.2 s₂.2 w u.2 ⟨.ignore, .variable rid i₁ j₁, .variable rid i₂ j₂⟩) u.2
    | _, _ => none
  | _ :: _ :: _ => none

/-- The loop over the components of a rule (automaton/mod.rs:102-230). -/
def components [One W] (rid : Nat) (head : N) (tail : List N) : List (List (VarT T) × W) → Nat → CsBuild N T W → Option (CsBuild N T W)
  | [], _, b => some b
  | (c, w) :: cs, cid, b =>
    match component rid cid head tail c w b with
    | none => none
    | some b' => components rid head tail cs (cid + 1) b'

/-- The loop over the rules (automaton/mod.rs:100-231); `factorize` is `Factorizable::factorize` (util/factorizable.rs:4-9). -/
def rules [One W] (factorize : W → Nat → List W) : List (Nat × PMCFGRule N T W) → CsBuild N T W → Option (CsBuild N T W)
  | [], b => some b
  | (rid, r) :: rs, b =>
    match components rid r.head r.tail (r.composition.zip (factorize r.weight r.composition.length)) 0 b with
    | none => none
    | some b' => rules factorize rs b'

end CsBuild

/-- `from_grammar` (automaton/mod.rs:78-253), `none` is a panic. -/
def CsAutomaton.fromGrammar {N T W : Type _} [DecidableEq N] [DecidableEq T] [One W] (factorize : W → Nat → List W)
    (rules : List (Nat × PMCFGRule N T W)) (init : N) : Option (CsAutomaton T W) :=
  (CsBuild.rules factorize rules CsBuild.empty).map fun b =>
    let size := b.ints.values.length
    { buBinaries := b.buBin.intoVecWithSize size
      buUnaries := b.buUn.intoVecWithSize size
      buInitials := b.buInit
      tdBinaries := b.tdBin.intoVecWithSize size
      tdUnaries := b.tdUn.intoVecWithSize size
      tdNullaries := b.tdInit.intoVecWithSize size
      initial := (b.ints.integerise (.non init 0)).2
      brackets := b.brackets }

end Rustomata
