import Verif.Model.CsKBest
import Verif.Model.CsRuleMask

/-!
# Model of the read-off of derivations and of the interface of the Chomsky-Schützenberger parser

Sources: `/repo/src/grammars/lcfrs/csparsing/mod.rs`, `/repo/src/grammars/lcfrs/csparsing/cowderiv.rs`.

Casts between `usize`, `u32` and `u8` in rule identifiers and indices are not modelled. `Display` and the measurement of time in `debug` are not modelled.
-/

namespace Rustomata

/-! ### `toderiv` -/

/-- The loop of `toderiv` (csparsing/mod.rs:256-273); `none` is `return None`. -/
def toderivLoop : List (Bracket BracketContent) → GornTree Nat → List Nat → Option (GornTree Nat)
  | [], tree, _ => some tree
  | .open_ (.component rid _) :: v, tree, pos =>
    match tree.get pos with
    | none => toderivLoop v (tree.insert pos rid) pos
    | some rid' => if rid' ≠ rid then none else toderivLoop v tree pos
  | .open_ (.variable _ i _) :: v, tree, pos => toderivLoop v tree (pos ++ [i])
  | .close (.variable _ _ _) :: v, tree, pos => toderivLoop v tree pos.dropLast
  | _ :: v, tree, pos => toderivLoop v tree pos

/-- `toderiv` (csparsing/mod.rs:252-280); the outer `none` is a panic. -/
def toderiv {R : Type _} (rules : List R) (v : List (Bracket BracketContent)) : Option (Option (GornTree R)) :=
  match toderivLoop v [] [] with
  | none => some none
  | some tree => (tree.mapM fun x => (rules[x.2]?).map fun r => (x.1, r)).map some

/-! ### Cow derivations -/

/-- `CowDerivation`, that is `LabelledTreeNode<(usize, usize), usize>` (cowderiv.rs:7-11, 43). -/
inductive CowNode
  | node (content : Nat) (successors : List ((Nat × Nat) × CowNode))

namespace CowNode

def content : CowNode → Nat
  | node c _ => c

def successors : CowNode → List ((Nat × Nat) × CowNode)
  | node _ s => s

/-- Changes the node that is reached by `k` steps to the last successor. -/
def modifyLast (f : CowNode → CowNode) : Nat → CowNode → CowNode
  | 0, t => f t
  | k + 1, .node c s =>
    match s.getLast? with
    | none => .node c s
    | some x => .node c (s.dropLast ++ [(x.1, modifyLast f k x.2)])

/-- The loop of `CowDerivation::new` (cowderiv.rs:57-80). The vector `pos` contains pointers to the root and to the last successors from there on, so that it is
given by its length; `none` is a panic. -/
def newLoop : List (Bracket BracketContent) → CowNode → Nat → Option CowNode
  | [], root, _ => some root
  | .open_ (.component rid _) :: v, root, len =>
    match len with
    | 0 => none
    | k + 1 => newLoop v (root.modifyLast (fun t => .node rid t.successors) k) len
  | .open_ (.variable _ i j) :: v, root, len =>
    match len with
    | 0 => none
    | k + 1 => newLoop v (root.modifyLast (fun t => .node t.content (t.successors ++ [((i, j), .node 0 [])])) k) (len + 1)
  | .close (.variable _ _ _) :: v, root, len => newLoop v root (len - 1)
  | _ :: v, root, len => newLoop v root len

/-- `CowDerivation::new` (cowderiv.rs:47-83). -/
def new (v : List (Bracket BracketContent)) : Option CowNode := newLoop v (.node 0 []) 1

/-- The successors of all trees, grouped by the first index (cowderiv.rs:32-37 and 114-119). -/
def groups (trees : List CowNode) : List (List CowNode) :=
  (trees.flatMap successors).foldl (fun m (s : (Nat × Nat) × CowNode) => VecMultiMap.pushTo m s.1.1 s.2) []

/-- All contents are equal (cowderiv.rs:25-29 and 107-111). -/
def sameContent : List CowNode → Bool
  | [] => true
  | t :: ts => ts.all fun te => te.content = t.content

/-- `is_consistent_vec` (cowderiv.rs:23-41); the first number bounds the depth of the recursion. -/
def isConsistentVec : Nat → List CowNode → Option Bool
  | 0, _ => none
  | fuel + 1, trees => if sameContent trees then allPanicking (isConsistentVec fuel) (groups trees) else some false

/-- `is_consistent` (cowderiv.rs:19-21). -/
def isConsistent (fuel : Nat) (t : CowNode) : Option Bool := isConsistentVec fuel [t]

/-- The loop over the groups in `cows_to_mcfg_deriv` (cowderiv.rs:122-134) with the index of the first group. -/
def cowsLoop {R : Type _} (rec : List CowNode → GornTree R → List Nat → Option (Bool × GornTree R)) (pos : List Nat) :
    Nat → List (List CowNode) → GornTree R → Option (Bool × GornTree R)
  | _, [], deriv => some (true, deriv)
  | idx, g :: gs, deriv =>
    match rec g deriv (pos ++ [idx]) with
    | none => none
    | some (false, deriv) => some (false, deriv)
    | some (true, deriv) => cowsLoop rec pos (idx + 1) gs deriv

/-- `cows_to_mcfg_deriv` (cowderiv.rs:100-140); `none` is a panic or an exceeded bound. -/
def cowsToDeriv {R : Type _} (rules : List R) : Nat → List CowNode → GornTree R → List Nat → Option (Bool × GornTree R)
  | 0, _, _, _ => none
  | fuel + 1, trees, deriv, pos =>
    if sameContent trees then
      match cowsLoop (cowsToDeriv rules fuel) pos 0 (groups trees) deriv with
      | none => none
      | some (false, deriv) => some (false, deriv)
      | some (true, deriv) =>
        match trees with
        | [] => none
        | t :: _ => (rules[t.content]?).map fun r => (true, deriv.insert pos r)
    else some (false, deriv)

/-- `to_mcfg_deriv` (cowderiv.rs:85-98); the outer `none` is a panic or an exceeded bound. -/
def toDeriv {R : Type _} (rules : List R) (fuel : Nat) (t : CowNode) : Option (Option (GornTree R)) :=
  (cowsToDeriv rules fuel [t] [] []).map fun x => if x.1 then some x.2 else none

end CowNode

section
variable {N T W : Type _}

/-- One variable in the first pass of `merge_rules` (cowderiv.rs:202-206). -/
def mergeVar (rid : Nat) (tail : List N) (s : AMap (Nat × Nat) Nat × List N) (i : Nat) : Option (AMap (Nat × Nat) Nat × List N) :=
  match s.1.get (rid, i) with
  | some _ => some s
  | none => (tail[i]?).map fun n => (s.1.set (rid, i) s.2.length, s.2 ++ [n])

/-- The variables of a component (cowderiv.rs:195-207). -/
def mergeComp (rid : Nat) (tail : List N) : List (VarT T) → AMap (Nat × Nat) Nat × List N → Option (AMap (Nat × Nat) Nat × List N)
  | [], s => some s
  | .t _ :: c, s => mergeComp rid tail c s
  | .var i _ :: c, s =>
    match mergeVar rid tail s i with
    | none => none
    | some s => mergeComp rid tail c s

/-- The first pass of `merge_rules` (cowderiv.rs:191-210): the new numbers and the right-hand side. -/
def mergeFirst : List (Nat × Nat × PMCFGRule N T W) → AMap (Nat × Nat) Nat × List N → Option (AMap (Nat × Nat) Nat × List N)
  | [], s => some s
  | (comp, rid, r) :: rs, s =>
    match r.composition[comp]? with
    | none => none
    | some c =>
      match mergeComp rid r.tail c s with
      | none => none
      | some s => mergeFirst rs s

/-- The new symbol for a symbol (cowderiv.rs:218-222). -/
def mergeSymbol (reindex : AMap (Nat × Nat) Nat) (rid : Nat) : VarT T → Option (VarT T)
  | .t a => some (.t a)
  | .var i j => (reindex.get (rid, i)).map fun k => .var k j

/-- The second pass of `merge_rules` (cowderiv.rs:217-224). -/
def mergeSecond (reindex : AMap (Nat × Nat) Nat) : List (Nat × Nat × PMCFGRule N T W) → Composition T → Option (Composition T)
  | [], composition => some composition
  | (comp, rid, r) :: rs, composition =>
    match r.composition[comp]? with
    | none => none
    | some c =>
      match c.mapM (mergeSymbol reindex rid) with
      | none => none
      | some c => if comp < composition.length then mergeSecond reindex rs (composition.modify comp (· ++ c)) else none

/-- `merge_rules` (cowderiv.rs:177-236), `none` is a panic. -/
def mergeRules [Zero W] (head : N) (roots : List (Nat × Nat × PMCFGRule N T W)) : Option (AMap (Nat × Nat) Nat × PMCFGRule N T W) :=
  match mergeFirst roots ([], []) with
  | none => none
  | some (reindex, tail) =>
    match mergeSecond reindex roots (List.replicate ((roots.map fun x => x.1 + 1).foldl max 0) []) with
    | none => none
    | some composition => some (reindex, ⟨head, tail, composition, 0⟩)

/-- One successor in `collect_children` (cowderiv.rs:153-156). -/
def collectChild (reindex : AMap (Nat × Nat) Nat) (m : List (List (Nat × CowNode))) (rid : Nat) (s : (Nat × Nat) × CowNode) : Option (List (List (Nat × CowNode))) :=
  (reindex.get (rid, s.1.1)).map fun index => VecMultiMap.pushTo m index (s.1.2, s.2)

/-- `collect_children` (cowderiv.rs:147-160), `none` is a panic. -/
def collectChildren (reindex : AMap (Nat × Nat) Nat) (trees : List CowNode) : Option (List (List (Nat × CowNode))) :=
  (trees.flatMap fun t => t.successors.map fun s => (t.content, s)).foldlM (fun m x => collectChild reindex m x.1 x.2) []

/-- The loop over the groups of children in `fallback_vec` (cowderiv.rs:259-267) with the index of the first group. -/
def fallbackLoop (rec : List (Nat × CowNode) → GornTree (PMCFGRule N T W) → List Nat → Option (GornTree (PMCFGRule N T W))) (pos : List Nat) :
    Nat → List (List (Nat × CowNode)) → GornTree (PMCFGRule N T W) → Option (GornTree (PMCFGRule N T W))
  | _, [], tree => some tree
  | idx, g :: gs, tree =>
    if g.isEmpty then fallbackLoop rec pos (idx + 1) gs tree
    else
      match rec g tree (pos ++ [idx]) with
      | none => none
      | some tree => fallbackLoop rec pos (idx + 1) gs tree

/-- `fallback_vec` (cowderiv.rs:239-270); `none` is a panic or an exceeded bound. -/
def fallbackVec [Zero W] (rules : List (PMCFGRule N T W)) :
    Nat → List (Nat × CowNode) → GornTree (PMCFGRule N T W) → List Nat → Option (GornTree (PMCFGRule N T W))
  | 0, _, _, _ => none
  | fuel + 1, roots, tree, pos =>
    match roots.mapM fun x => (rules[x.2.content]?).map fun r => (x.1, x.2.content, r) with
    | none => none
    | some [] => none
    | some ((j, rid, r) :: rs) =>
      match mergeRules r.head ((j, rid, r) :: rs) with
      | none => none
      | some (reindex, root) =>
        match collectChildren reindex (roots.map Prod.snd) with
        | none => none
        | some groups =>
          match fallbackLoop (fallbackVec rules fuel) pos 0 groups tree with
          | none => none
          | some tree => some (tree.insert pos root)

/-- `fallback` (cowderiv.rs:162-173). -/
def CowNode.fallback [Zero W] (rules : List (PMCFGRule N T W)) (fuel : Nat) (t : CowNode) : Option (GornTree (PMCFGRule N T W)) :=
  fallbackVec rules fuel [(0, t)] [] []

end

/-! ### The interface -/

/-- `CSRepresentation` (csparsing/mod.rs:58-67). -/
structure CsRep (N T W : Type _) where
  generator : CsAutomaton T W
  estimates : SxOutside W
  masks : RuleMaskBuilder T
  rules : List (PMCFGRule N T W)

section
variable {N T W : Type _} [DecidableEq N] [DecidableEq T] [Zero W] [One W] [Mul W] [LinearOrder W]

/-- `CSRepresentation::new` (csparsing/mod.rs:203-229); `order` is the iteration order of the hash sets of `RuleMaskBuilder::new`; `none` is a panic. -/
def CsRep.new (factorize : W → Nat → List W) (order : Nat → List Nat → List Nat) (g : Lcfrs N T W) (width : Nat) : Option (CsRep N T W) :=
  if width ≤ 255 then
    if g.inNormalForm then
      match CsAutomaton.fromGrammar factorize (g.rules.zipIdx.map fun x => (x.2, x.1)) g.init, RuleMaskBuilder.new order g.rules g.init with
      | some A, some masks => (SxOutside.fromAutomaton A width).map fun estimates => ⟨A, estimates, masks, g.rules⟩
      | _, _ => none
    else none
  else none

/-- `GeneratorBuilder` (csparsing/mod.rs:69-75) without the reference to the grammar; `root_prediction` is never read. -/
structure CsOptions (W : Type _) where
  candidates : Option Nat
  beam : Option Nat
  delta : W

omit [One W] [Mul W] [LinearOrder W] in
/-- `build_generator` (csparsing/mod.rs:231-242). -/
def CsOptions.default : CsOptions W := ⟨none, none, 0⟩

omit [DecidableEq N] [One W] in
/-- The results of the first `m` calls of the iterator that `generate` returns for a word (csparsing/mod.rs:110-115, automaton/mod.rs:255-262). -/
def CsRep.generate (R : CsRep N T W) (o : CsOptions W) (word : List T) (fuel m : Nat) : Option (List (Option (List (Bracket BracketContent)))) :=
  match R.masks.build word with
  | none => none
  | some mask =>
    match fillChart R.generator word (o.beam.getD R.generator.states) o.delta R.estimates mask with
    | none => none
    | some chart => KIter.run R.generator chart mask fuel word.length m KIter.new

/-- The results until the first `None`. -/
def untilNone {A : Type _} : List (Option A) → List A
  | some a :: l => a :: untilNone l
  | _ => []

/-- `take_while(count_candidates)` (csparsing/mod.rs:119-128, 131). -/
def CsOptions.limit {A W : Type _} (o : CsOptions W) (l : List A) : List A :=
  match o.candidates with
  | none => l
  | some c => l.take c

omit [DecidableEq N] [One W] in
/-- The first component of `with_fallback` (csparsing/mod.rs:96-137), where the iterator over the bracket words is called `m` times; `none` is a panic or an
exceeded bound. -/
def CsRep.parses (R : CsRep N T W) (o : CsOptions W) (word : List T) (fuel m : Nat) : Option (List (GornTree (PMCFGRule N T W))) :=
  (R.generate o word fuel m).bind fun vs => filterMapP (toderiv R.rules) (o.limit (untilNone vs))

omit [DecidableEq N] [One W] in
/-- The second component of `with_fallback` (csparsing/mod.rs:116-118, 134). -/
def CsRep.fallback (R : CsRep N T W) (o : CsOptions W) (word : List T) (fuel : Nat) : Option (Option (GornTree (PMCFGRule N T W))) :=
  (R.generate o word fuel 1).bind fun vs =>
    match untilNone vs with
    | [] => some none
    | v :: _ => (CowNode.new v).bind fun t => (t.fallback R.rules fuel).map some

/-- `DebugResult` (csparsing/mod.rs:195-199). -/
inductive DebugResult (N T W : Type _)
  | parse (tree : GornTree (PMCFGRule N T W)) (words : Nat)
  | fallback (tree : GornTree (PMCFGRule N T W)) (words : Nat)
  | noparse

/-- The first derivation and the number of words that were read (csparsing/mod.rs:167-174). -/
def firstDeriv {R : Type _} (rules : List R) : List (List (Bracket BracketContent)) → Nat → Option (Option (GornTree R) × Nat)
  | [], n => some (none, n)
  | v :: vs, n =>
    match toderiv rules v with
    | none => none
    | some (some t) => some (some t, n + 1)
    | some none => firstDeriv rules vs (n + 1)

omit [DecidableEq N] [One W] in
/-- The last component of `debug` (csparsing/mod.rs:139-192), where the iterator over the bracket words is called at most `m` times. -/
def CsRep.debug (R : CsRep N T W) (o : CsOptions W) (word : List T) (fuel m : Nat) : Option (DebugResult N T W) :=
  (R.generate o word fuel m).bind fun vs =>
    match firstDeriv R.rules (o.limit (untilNone vs)) 0 with
    | none => none
    | some (some t, n) => some (.parse t n)
    | some (none, n) =>
      match o.limit (untilNone vs) with
      | [] => some .noparse
      | v :: _ => (CowNode.new v).bind fun t => (t.fallback R.rules fuel).map fun d => .fallback d n

end

end Rustomata
