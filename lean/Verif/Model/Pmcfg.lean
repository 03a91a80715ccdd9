import Verif.Model.Tsa
import Verif.Model.Cfg
import Verif.Model.Search
import Verif.Model.Map
import Mathlib.Data.List.Sort

/-!
# Model of parallel multiple context-free grammars, MCFG and LCFRS

Sources: `/repo/src/grammars/pmcfg/mod.rs`, `/repo/src/grammars/cfg/from_pmcfg.rs`,
`/repo/src/grammars/mcfg/mod.rs`, `/repo/src/grammars/lcfrs/mod.rs`, `/repo/src/grammars/lcfrs/conversion.rs`.

A panic is `none`.
-/

namespace Rustomata

/-- `VarT` (pmcfg/mod.rs:16-22). -/
inductive VarT (T : Type _)
  | var (i j : Nat)
  | t (a : T)
deriving DecidableEq

/-- `VarT::is_var` (pmcfg/mod.rs:25-30). -/
def VarT.isVar {T : Type _} : VarT T → Bool
  | .var _ _ => true
  | .t _ => false

/-- `VarT::is_t` (pmcfg/mod.rs:32-37). -/
def VarT.isT {T : Type _} : VarT T → Bool
  | .var _ _ => false
  | .t _ => true

/-- `Composition` (pmcfg/mod.rs:57-60); the newtype is dropped. -/
abbrev Composition (T : Type _) := List (List (VarT T))

/-- `PMCFGRule` (pmcfg/mod.rs:133-139). -/
structure PMCFGRule (N T W : Type _) where
  head : N
  tail : List N
  composition : Composition T
  weight : W
deriving DecidableEq

/-- `PMCFG` (pmcfg/mod.rs:182-186). -/
structure PMCFG (N T W : Type _) where
  initial : List N
  rules : List (PMCFGRule N T W)

/-- The iterator `filter_map(|s| if let VarT::Var(i, j) = *s {Some((i, j))} …)` over one component
(mcfg/mod.rs:36-43, lcfrs/mod.rs:117-122, conversion.rs:94-99). -/
def componentVars {T : Type _} (c : List (VarT T)) : List (Nat × Nat) :=
  c.filterMap fun s => match s with
    | .var i j => some (i, j)
    | .t _ => none

/-- The variables of a composition in order (`flat_map` over the components, same places). -/
def Composition.vars {T : Type _} (c : Composition T) : List (Nat × Nat) := c.flatMap componentVars

/-! ### `evaluate` -/

section Evaluate
variable {T : Type _}

/-- The inner loop of `evaluate_pos` over the symbols of a component (pmcfg/mod.rs:316-346).
`child i` is the evaluation of the `i`-th child, `cache` is `expanded_nonterminals` and
`acc` is `expanded_component`. -/
def evalSymbols (child : Nat → Option (Composition T)) :
    List (VarT T) → AMap Nat (Composition T) → List (VarT T) → Option (List (VarT T) × AMap Nat (Composition T))
  | [], cache, acc => some (acc, cache)
  | .t a :: s, cache, acc => evalSymbols child s cache (acc ++ [.t a])
  | .var i j :: s, cache, acc =>
    match (if (cache.get i).isNone then (child i).map fun c => cache.set i c else some cache) with
    | none => none
    | some cache =>
      match cache.get i with
      | none => none
      | some nonterCompos =>
        match nonterCompos[j]? with
        | none => none
        | some compon => evalSymbols child s cache (acc ++ compon)

/-- The outer loop of `evaluate_pos` over the components (pmcfg/mod.rs:313-349). -/
def evalComponents (child : Nat → Option (Composition T)) :
    Composition T → AMap Nat (Composition T) → Composition T → Option (Composition T)
  | [], _, acc => some acc
  | c :: cs, cache, acc =>
    match evalSymbols child c cache [] with
    | none => none
    | some (c', cache') => evalComponents child cs cache' (acc ++ [c'])

/-- `evaluate_pos` (pmcfg/mod.rs:305-352) with a bound on the recursion depth. -/
def evaluatePos (m : GornTree (Composition T)) : Nat → List Nat → Option (Composition T)
  | 0, _ => none
  | fuel + 1, address =>
    match m.get address with
    | none => none
    | some c => evalComponents (fun i => evaluatePos m fuel (address ++ [i])) c [] []

/-- Length of the longest address. -/
def GornTree.depth {V : Type _} (m : GornTree V) : Nat := (m.map fun p => p.1.length).foldl max 0

/-- `evaluate` (pmcfg/mod.rs:298-303). Each recursive call extends the address by one element, and a call
for an address that is not in the tree panics; so a recursion depth of `depth + 1` is never exceeded. -/
def evaluate (m : GornTree (Composition T)) : Option (Composition T) := evaluatePos m (m.depth + 1) []

/-- `to_term` (pmcfg/mod.rs:354-379). -/
def toTerm {N W : Type _} (m : GornTree (PMCFGRule N T W)) : GornTree (Composition T) × GornTree N :=
  m.foldl (fun r p => (r.1.insert p.1 p.2.composition, r.2.insert p.1 p.2.head)) ([], [])

end Evaluate

/-! ### `separate_terminal_rules` -/

section Separate
variable {HT W : Type _} [DecidableEq HT]

/-- Local state of the loop over the symbols of a rule (pmcfg/mod.rs:462-468): `next` is the next number of the
range `next_child_num`, `childNum` is `terminal_child_num`, `children` is `terminal_children`. -/
structure SepState (HT : Type _) where
  next : Nat
  childNum : AMap HT Nat
  children : List HT
  firstVariable : Bool
  onlyOne : Bool

/-- One symbol (pmcfg/mod.rs:473-496): the new state and the symbol pushed to `new_component`. -/
def sepSymbol (s : SepState HT) : VarT HT → SepState HT × VarT HT
  | .var i j => ({ s with firstVariable := false }, .var i j)
  | .t a =>
    match s.childNum.get a with
    | some n => ({ s with onlyOne := s.firstVariable, firstVariable := false }, .var n 0)
    | none =>
      (⟨s.next + 1, s.childNum.set a s.next, s.children ++ [a], false, s.firstVariable⟩, .var s.next 0)

/-- The loop over a component (pmcfg/mod.rs:470-499). -/
def sepComponent : SepState HT → List (VarT HT) → SepState HT × List (VarT HT)
  | s, [] => (s, [])
  | s, x :: xs =>
    let r := sepSymbol s x
    let r' := sepComponent r.1 xs
    (r'.1, r.2 :: r'.2)

/-- The loop over the components (pmcfg/mod.rs:469-502). -/
def sepComposition : SepState HT → Composition HT → SepState HT × Composition HT
  | s, [] => (s, [])
  | s, c :: cs =>
    let r := sepComponent s c
    let r' := sepComposition r.1 cs
    (r'.1, r.2 :: r'.2)

/-- The loop `while old_heads.contains(&terminal) {terminal.extend(vec![original_terminal.clone()])}`
(pmcfg/mod.rs:517-519), where `ext` is the type's `extend` by one element. After `old_heads.len()`
iterations there either was a value twice, and the loop never ends (`none`), or a value that is not in `old_heads`. -/
def freshName (ext : HT → HT → HT) (oldHeads : List HT) (original : HT) : Nat → HT → Option HT
  | 0, t => if t ∈ oldHeads then none else some t
  | n + 1, t => if t ∈ oldHeads then freshName ext oldHeads original n (ext t original) else some t

/-- The loop over `terminal_children` (pmcfg/mod.rs:514-534): new tree and `unique_terminal_children`. -/
def sepChildren (ext : HT → HT → HT) (oldHeads : List HT) (address : List Nat) (w : W) (childNum : AMap HT Nat) :
    List HT → GornTree (PMCFGRule HT HT W) → Option (GornTree (PMCFGRule HT HT W) × List HT)
  | [], m => some (m, [])
  | t :: ts, m =>
    match freshName ext oldHeads t oldHeads.length t, childNum.get t with
    | some t', some n =>
      match sepChildren ext oldHeads address w childNum ts (m.insert (address ++ [n]) ⟨t', [], [[.t t]], w⟩) with
      | none => none
      | some (m', us) => some (m', t' :: us)
    | _, _ => none

/-- The body of the loop over the rules of the tree (pmcfg/mod.rs:453-549). -/
def sepRule (ext : HT → HT → HT) (oldHeads : List HT) (m : GornTree (PMCFGRule HT HT W)) (address : List Nat)
    (r : PMCFGRule HT HT W) : Option (GornTree (PMCFGRule HT HT W)) :=
  let s := sepComposition ⟨r.tail.length, [], [], true, false⟩ r.composition
  if s.1.onlyOne then some (m.insert address r)
  else
    match sepChildren ext oldHeads address r.weight s.1.childNum s.1.children m with
    | none => none
    | some (m', us) => some (m'.insert address ⟨r.head, r.tail ++ us, s.2, r.weight⟩)

/-- The loop over the rules of the tree. -/
def sepRules (ext : HT → HT → HT) (oldHeads : List HT) :
    List (List Nat × PMCFGRule HT HT W) → GornTree (PMCFGRule HT HT W) → Option (GornTree (PMCFGRule HT HT W))
  | [], m => some m
  | (a, r) :: rs, m =>
    match sepRule ext oldHeads m a r with
    | none => none
    | some m' => sepRules ext oldHeads rs m'

/-- `separate_terminal_rules` (pmcfg/mod.rs:435-553). `none`: the call does not return. -/
def separateTerminalRules (ext : HT → HT → HT) (m : GornTree (PMCFGRule HT HT W)) :
    Option (GornTree (PMCFGRule HT HT W)) :=
  sepRules ext (m.map fun p => p.2.head) m []

end Separate

/-! ### PMCFG to CFG -/

/-- The loop over the symbols (cfg/from_pmcfg.rs:19-30). -/
def cfgLetters {N T : Type _} (tail : List N) : List (VarT T) → Option (List (LetterT N T))
  | [] => some []
  | .t x :: s => (cfgLetters tail s).map (.value x :: ·)
  | .var i 0 :: s =>
    match tail[i]? with
    | none => none
    | some x => (cfgLetters tail s).map (.label x :: ·)
  | .var _ (_ + 1) :: _ => none

/-- The body of the loop over the rules (cfg/from_pmcfg.rs:10-38). -/
def cfgRule {N T W : Type _} (r : PMCFGRule N T W) : Option (CFGRule N T W) :=
  match r.composition with
  | [c] => (cfgLetters r.tail c).map fun l => ⟨r.head, l, r.weight⟩
  | _ => none

/-- `impl From<PMCFG> for CFG` (cfg/from_pmcfg.rs:7-44). -/
def CFG.ofPmcfg {N T W : Type _} (g : PMCFG N T W) : Option (CFG N T W) :=
  (g.rules.mapM cfgRule).map fun rs => ⟨g.initial, rs⟩

/-! ### MCFG -/

/-- `Mcfg` (mcfg/mod.rs:5-9). -/
structure Mcfg (N T W : Type _) where
  rules : List (PMCFGRule N T W)
  initial : N

/-- The loop `for (i, j) in … {if !variables.insert((i, j)) {return None;}}` (mcfg/mod.rs:35-48):
`true` if it does not return. -/
def checkLinear : List (Nat × Nat) → List (Nat × Nat) → Bool
  | [], _ => true
  | v :: vs, seen => if v ∈ seen then false else checkLinear vs (v :: seen)

/-- `Mcfg::from_pmcfg` (mcfg/mod.rs:29-60). -/
def Mcfg.ofPmcfg {N T W : Type _} (g : PMCFG N T W) : Option (Mcfg N T W) :=
  if g.rules.all fun r => checkLinear (Composition.vars r.composition) [] then
    match g.initial with
    | [s] => some ⟨g.rules, s⟩
    | _ => none
  else none

/-! ### LCFRS -/

/-- `Lcfrs` (lcfrs/mod.rs:14-18). -/
structure Lcfrs (N T W : Type _) where
  rules : List (PMCFGRule N T W)
  init : N

section Lcfrs
variable {N T W : Type _} [DecidableEq N]

/-- The loop of `read_fanouts` (lcfrs/mod.rs:98-107). -/
def readFanoutsLoop : List (PMCFGRule N T W) → AMap N Nat → Option (AMap N Nat)
  | [], m => some m
  | r :: rs, m =>
    match m.get r.head with
    | none => readFanoutsLoop rs (m.set r.head r.composition.length)
    | some f => if f ≠ r.composition.length then none else readFanoutsLoop rs m

/-- `read_fanouts` (lcfrs/mod.rs:91-108). -/
def readFanouts (rules : List (PMCFGRule N T W)) : Option (AMap N Nat) := readFanoutsLoop rules []

/-- `check_composition` (lcfrs/mod.rs:112-136). `fanouts[i]` is in bounds because of the first conjunct. -/
def checkComposition (c : Composition T) (fanouts : List Nat) : Bool :=
  let occ : VecMultiMap Nat := (Composition.vars c).foldl (fun m v => m.getMut v.1 (· ++ [v.2])) []
  occ.length == fanouts.length &&
    (occ.zipIdx.all fun p => p.1.insertionSort (· ≤ ·) == List.range (fanouts.getD p.2 0))

/-- The closure `check_fanouts` (lcfrs/mod.rs:33-36); `fanouts[nt]` panics if there is no rule for `nt`. -/
def checkFanouts (fanouts : AMap N Nat) (r : PMCFGRule N T W) : Option Bool :=
  (r.tail.mapM fun nt => fanouts.get nt).map fun fs => checkComposition r.composition fs

/-- `Iterator::all` with a closure that may panic; stops at the first `false`. -/
def allPanicking {A : Type _} (p : A → Option Bool) : List A → Option Bool
  | [] => some true
  | x :: xs =>
    match p x with
    | none => none
    | some false => some false
    | some true => allPanicking p xs

/-- `Lcfrs::new` (lcfrs/mod.rs:29-50). The outer `none` is a panic. -/
def Lcfrs.new (rules : List (PMCFGRule N T W)) (init : N) : Option (Option (Lcfrs N T W)) :=
  match readFanouts rules with
  | none => some none
  | some fanouts =>
    if fanouts.get init ≠ some 1 then some none
    else
      match allPanicking (checkFanouts fanouts) rules with
      | none => none
      | some false => some none
      | some true => some (some ⟨rules, init⟩)

/-- `Lcfrs::in_normal_form` (lcfrs/mod.rs:52-65). -/
def Lcfrs.inNormalForm (g : Lcfrs N T W) : Bool :=
  g.rules.all fun r =>
    (r.composition.all fun c => !c.isEmpty) &&
      ((r.composition.flatMap id).all VarT.isVar ||
        match r.composition with
        | [[x]] => x.isT
        | _ => false)

/-! ### MCFG to LCFRS -/

/-- The components that are not deleted (conversion.rs:46-58 and 125-136). `BTreeSet<usize>` is a sorted list. -/
def remComp (c : Composition T) (deletions : List Nat) : Composition T :=
  (c.zipIdx.filter fun p => p.2 ∉ deletions).map Prod.fst

/-- The loop of `composition_deletes` (conversion.rs:93-102); `deletions[i]` may panic. -/
def deletesLoop : List (Nat × Nat) → List (List Nat) → Option (List (List Nat))
  | [], d => some d
  | (i, j) :: vs, d => if i < d.length then deletesLoop vs (d.modify i (·.erase j)) else none

/-- `composition_deletes` (conversion.rs:85-105). -/
def compositionDeletes (c : Composition T) (fanouts : List Nat) : Option (List (List Nat)) :=
  deletesLoop (Composition.vars c) (fanouts.map List.range)

/-- The successors of a pair (conversion.rs:38-68). A panic in `composition_deletes` is represented by no successors;
then `toLcfrsRule` panics for the same pair and rule. -/
def mcfgSuccessors (rules : List (PMCFGRule N T W)) (fanouts : AMap N Nat) (x : N × List Nat) : List (N × List Nat) :=
  (rules.filter fun r => r.head = x.1).flatMap fun r =>
    match r.tail.mapM fun nt => fanouts.get nt with
    | none => []
    | some fs => r.tail.zip ((compositionDeletes (remComp r.composition x.2) fs).getD [])

/-- The closure that renumbers a variable (conversion.rs:145-151). -/
def renumber (deletions : List (List Nat)) : VarT T → Option (VarT T)
  | .var i j =>
    match deletions[i]? with
    | none => none
    | some ds => some (.var i (j - (ds.filter (· < j)).length))
  | .t a => some (.t a)

/-- `to_lcfrs_rule` (conversion.rs:108-167). The subtraction does not underflow, because `deletions[i]` is a set. -/
def toLcfrsRule (r : PMCFGRule N T W) (deletions : List Nat) (fanouts : AMap N Nat) :
    Option (PMCFGRule (N × List Nat) T W) :=
  match r.tail.mapM fun nt => fanouts.get nt with
  | none => none
  | some fs =>
    match compositionDeletes (remComp r.composition deletions) fs with
    | none => none
    | some ds =>
      match (remComp r.composition deletions).mapM fun c : List (VarT T) => c.mapM (renumber ds) with
      | none => none
      | some c => some ⟨(r.head, deletions), r.tail.zip ds, c, r.weight⟩

/-- The pairs returned by the first `n` calls of the iterator `Search::bfs(…).uniques()` and the state of the
iterator afterwards (conversion.rs:36-70). -/
def mcfgSearch (g : Mcfg N T W) (fanouts : AMap N Nat) (n : Nat) :=
  USearch.run (dequeAgenda (N × List Nat)) (mcfgSuccessors g.rules fanouts) n (USearch.init [(g.initial, [])])

/-- The body of the `for` loop (conversion.rs:72-74). -/
def lcfrsRulesFor (g : Mcfg N T W) (fanouts : AMap N Nat) (x : N × List Nat) :
    Option (List (PMCFGRule (N × List Nat) T W)) :=
  (g.rules.filter fun r => r.head = x.1).mapM fun r => toLcfrsRule r x.2 fanouts

/-- `impl From<Mcfg> for Lcfrs` (conversion.rs:22-81), where the `for` loop is cut after `n` iterations. -/
def Lcfrs.ofMcfg (g : Mcfg N T W) (n : Nat) : Option (Lcfrs (N × List Nat) T W) :=
  match readFanouts g.rules with
  | none => none
  | some fanouts =>
    ((mcfgSearch g fanouts n).1.mapM (lcfrsRulesFor g fanouts)).map fun rs => ⟨rs.flatten, (g.initial, [])⟩

/-- The iterator has returned `None` after at most `n` elements, i.e. the loop has ended. -/
def Lcfrs.ofMcfgEnded (g : Mcfg N T W) (n : Nat) : Prop :=
  ∀ fanouts, readFanouts g.rules = some fanouts →
    (USearch.next (dequeAgenda (N × List Nat)) (mcfgSuccessors g.rules fanouts) (mcfgSearch g fanouts n).2).1 = none

end Lcfrs

end Rustomata
