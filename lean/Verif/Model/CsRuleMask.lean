import Verif.Model.CsAutomaton

/-!
# Model of the rule filter of the Chomsky-Schützenberger parser

Source: `/repo/src/grammars/lcfrs/csparsing/automaton/rulemask.rs`.

Simplifications: identifiers are natural numbers (`u32` in the code). A `HashSet` that is turned into a vector gives the distinct elements in an arbitrary order;
this order is a parameter, `order k l` for the set of the elements of `l` in the `k`-th iteration. `component.len() - 1` underflows for an empty component, which is
a panic (with overflow checks).
-/

namespace Rustomata

/-- The local variables of `RuleMaskBuilder::new` (rulemask.rs:40-45). -/
structure MaskBuild (N T : Type _) where
  ints : Integeriser N
  terminal : AMap T (List Nat)
  inner : VecMultiMap (List Nat × Nat)
  td : VecMultiMap (List Nat × List Nat)
  rid : Nat

/-- `RuleMaskBuilder<T>` (rulemask.rs:14-24). -/
structure RuleMaskBuilder (T : Type _) where
  initial : Nat
  terminal : AMap T (List Nat)
  inner : List (List (List Nat × Nat))
  td : List (List (List Nat × List Nat))
  ruleids : Nat
  states : Nat

namespace MaskBuild
variable {N T W : Type _} [DecidableEq N] [DecidableEq T]

/-- The state before the loop (rulemask.rs:40-45). -/
def empty : MaskBuild N T := ⟨Integeriser.new, [], [], [], 0⟩

/-- `integeriser.integerise(…)`. -/
def key (b : MaskBuild N T) (n : N) : MaskBuild N T × Nat :=
  let r := b.ints.integerise n
  ({ b with ints := r.1 }, r.2)

/-- `rule.tail.iter().map(|i| integeriser.integerise(i))` (rulemask.rs:73-76). -/
def keys : List N → MaskBuild N T → MaskBuild N T × List Nat
  | [], b => (b, [])
  | n :: ns, b =>
    let r := b.key n
    let rs := keys ns r.1
    (rs.1, r.2 :: rs.2)

/-- The terminal of a rule that consists of one terminal (rulemask.rs:50-53). -/
def terminalOf (c : Composition T) : Option T :=
  match c with
  | [[.t a]] => some a
  | _ => none

/-- The rule identifiers of the components, starting with `rid` (rulemask.rs:61-69); `none` is a panic. -/
def ruleIds : Composition T → Nat → Option (List Nat)
  | [], _ => some []
  | c :: cs, rid =>
    if c.length = 0 then none
    else (ruleIds cs (rid + max (c.length - 1) 1)).map fun l => List.range' rid (max (c.length - 1) 1) ++ l

/-- The loop over the right-hand side (rulemask.rs:79-85). -/
def pushInner (rhs : List Nat) (nid : Nat) (m : VecMultiMap (List Nat × Nat)) : VecMultiMap (List Nat × Nat) :=
  rhs.zipIdx.foldl (fun m p => m.pushTo p.1 (rhs.eraseIdx p.2, nid)) m

/-- The body of the loop over the rules (rulemask.rs:47-88); `order` gives the order of a `HashSet`. -/
def rule (order : List Nat → List Nat) (r : PMCFGRule N T W) (b : MaskBuild N T) : Option (MaskBuild N T) :=
  let h := b.key r.head
  match terminalOf r.composition with
  | some a =>
    some { h.1 with
      terminal := h.1.terminal.set a ((h.1.terminal.get a).getD [] ++ [h.2])
      td := h.1.td.pushTo h.2 ([h.1.rid], [])
      rid := h.1.rid + 1 }
  | none =>
    match ruleIds r.composition h.1.rid with
    | none => none
    | some rids =>
      let t := keys r.tail { h.1 with rid := h.1.rid + rids.length }
      let rhs := order t.2
      some { t.1 with
        inner := pushInner rhs h.2 t.1.inner
        td := t.1.td.pushTo h.2 (rids, rhs) }

/-- The loop over the rules (rulemask.rs:47-88). -/
def rules (order : Nat → List Nat → List Nat) : List (PMCFGRule N T W) → Nat → MaskBuild N T → Option (MaskBuild N T)
  | [], _, b => some b
  | r :: rs, k, b =>
    match rule (order k) r b with
    | none => none
    | some b' => rules order rs (k + 1) b'

end MaskBuild

namespace RuleMaskBuilder
variable {N T W : Type _} [DecidableEq N] [DecidableEq T]

/-- `new` (rulemask.rs:30-100), `none` is a panic. -/
def new (order : Nat → List Nat → List Nat) (rules : List (PMCFGRule N T W)) (initial : N) : Option (RuleMaskBuilder T) :=
  (MaskBuild.rules order rules 0 MaskBuild.empty).bind fun b =>
    (b.ints.findKey initial).map fun q =>
      { initial := q
        terminal := b.terminal
        inner := b.inner.intoVecWithSize b.ints.values.length
        td := b.td.intoVecWithSize b.ints.values.length
        ruleids := b.rid
        states := b.ints.values.length }

/-- `nts.iter().all(|nt| flags[nt])` (rulemask.rs:128, 146), `none` is a panic. -/
def allSet (flags : List Bool) : List Nat → Option Bool
  | [] => some true
  | x :: xs =>
    match flags[x]? with
    | none => none
    | some false => some false
    | some true => allSet flags xs

/-- The `filter_map` over the rules that use a nonterminal (rulemask.rs:124-134). -/
def newlyProductive (flags : List Bool) : List (List Nat × Nat) → Option (List Nat)
  | [] => some []
  | (others, top) :: es =>
    match flags[top]? with
    | none => none
    | some true => newlyProductive flags es
    | some false =>
      match allSet flags others with
      | none => none
      | some false => newlyProductive flags es
      | some true => (newlyProductive flags es).map (top :: ·)

/-- The first loop of `build` (rulemask.rs:120-135): `stack` has its top first, the number is a bound for the number of iterations. -/
def productiveLoop (b : RuleMaskBuilder T) : Nat → List Nat → List Bool → Option (List Bool)
  | _, [], flags => some flags
  | 0, _ :: _, _ => none
  | fuel + 1, nt :: stack, flags =>
    match flags[nt]? with
    | none => none
    | some true => productiveLoop b fuel stack flags
    | some false =>
      let flags := flags.set nt true
      match b.inner[nt]? with
      | none => none
      | some es =>
        match newlyProductive flags es with
        | none => none
        | some new => productiveLoop b fuel (new.reverse ++ stack) flags

/-- The loop over the rules of a nonterminal (rulemask.rs:145-152): the rules that are switched on and the nonterminals that are pushed. -/
def useRules (productive : List Bool) : List (List Nat × List Nat) → List Bool → List Nat → Option (List Bool × List Nat)
  | [], mask, stack => some (mask, stack)
  | (ids, bottom) :: es, mask, stack =>
    match allSet productive bottom with
    | none => none
    | some false => useRules productive es mask stack
    | some true => if ids.all (· < mask.length) then useRules productive es (ids.foldl (fun m i => m.set i true) mask) (bottom.reverse ++ stack) else none

/-- The second loop of `build` (rulemask.rs:140-153). -/
def reachableLoop (b : RuleMaskBuilder T) (productive : List Bool) : Nat → List Nat → List Bool → List Bool → Option (List Bool)
  | _, [], _, mask => some mask
  | 0, _ :: _, _, _ => none
  | fuel + 1, nt :: stack, reachable, mask =>
    match reachable[nt]? with
    | none => none
    | some true => reachableLoop b productive fuel stack reachable mask
    | some false =>
      let reachable := reachable.set nt true
      match productive[nt]? with
      | none => none
      | some false => reachableLoop b productive fuel stack reachable mask
      | some true =>
        match b.td[nt]? with
        | none => none
        | some es =>
          match useRules productive es mask stack with
          | none => none
          | some (mask, stack) => reachableLoop b productive fuel stack reachable mask

/-- The initial stack (rulemask.rs:112-116). -/
def initialStack (b : RuleMaskBuilder T) (word : List T) : List Nat := (word.flatMap fun t => (b.terminal.get t).getD []).reverse

/-- `build` (rulemask.rs:102-156), `none` is a panic. The numbers of iterations are bounded by the numbers of elements that are ever pushed. -/
def build (b : RuleMaskBuilder T) (word : List T) : Option (List Bool) :=
  match productiveLoop b ((b.initialStack word).length + (b.inner.map List.length).sum) (b.initialStack word) (List.replicate b.states false) with
  | none => none
  | some productive =>
    reachableLoop b productive (1 + (b.td.map fun es => (es.map fun e => e.2.length).sum).sum) [b.initial] (List.replicate b.states false)
      (List.replicate b.ruleids false)

end RuleMaskBuilder

end Rustomata
