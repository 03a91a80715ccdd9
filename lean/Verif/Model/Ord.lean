import Verif.Model.Tsa
import Verif.Model.Cfg
import Verif.Model.Pmcfg
import Verif.Model.CsKBest
import Verif.Model.Approximation

/-!
# Model of the implementations of `PartialEq`, `PartialOrd`, `Ord` and `Hash`

Sources: `/repo/src/recognisable/{configuration,transition,mod}.rs`, `/repo/src/util/{push_down,reverse,tree}.rs`,
`/repo/src/automata/tree_stack_automaton/tree_stack.rs`, `/repo/src/grammars/{cfg,pmcfg}/mod.rs`,
`/repo/src/grammars/lcfrs/csparsing/automaton/kbest/backtrace.rs`, `/repo/src/approximation/equivalence_classes.rs`,
`/repo/search/src/agenda/weighted.rs`.

The operations of the type parameters are arguments: `e` is `==`, `c` is `cmp`, `p` is `partial_cmp` and `h` is the sequence of numbers that `hash` hands to the hasher.
`#[derive]` and the implementations of the standard library (`Vec`, `Option`, tuples, `HashMap`, `BTreeMap`) are external and are written out as documented: fields in the
order of their declaration, variants in the order of their declaration, vectors lexicographically.
-/

namespace Rustomata
variable {A B S T I N W X : Type _}

/-! ### standard library -/

/-- `Vec::eq`. -/
def vecEq (e : A → A → Bool) : List A → List A → Bool
  | [], [] => true
  | a :: l, b :: m => e a b && vecEq e l m
  | _, _ => false

/-- `Vec::cmp`. -/
def vecCmp (c : A → A → Ordering) : List A → List A → Ordering
  | [], [] => .eq
  | [], _ :: _ => .lt
  | _ :: _, [] => .gt
  | a :: l, b :: m => (c a b).then (vecCmp c l m)

/-- The next `partial_cmp` counts if the first one says `Some(Equal)` (derived implementations, tuples and `Vec`). -/
def pAnd (x y : Option Ordering) : Option Ordering := if x = some .eq then y else x

/-- `Vec::partial_cmp`. -/
def vecPcmp (p : A → A → Option Ordering) : List A → List A → Option Ordering
  | [], [] => some .eq
  | [], _ :: _ => some .lt
  | _ :: _, [] => some .gt
  | a :: l, b :: m => pAnd (p a b) (vecPcmp p l m)

/-- `Vec::hash`: the length and the elements. -/
def vecFeed (h : A → List Nat) (l : List A) : List Nat := l.length :: l.flatMap h

/-- The next `partial_cmp` counts if the first one says `None` or `Some(Equal)` (configuration.rs:36-45, transition.rs:118-124, tree_stack.rs:287-293). -/
def pOr (x y : Option Ordering) : Option Ordering := if x = none ∨ x = some .eq then y else x

/-! ### `Configuration` -/

namespace Configuration

/-- `eq` (configuration.rs:22-24). -/
def eq (eT : T → T → Bool) (eS : S → S → Bool) (x y : Configuration S T W) : Bool := vecEq eT x.word y.word && eS x.storage y.storage

/-- `hash` (configuration.rs:14-17). -/
def feed (hT : T → List Nat) (hS : S → List Nat) (x : Configuration S T W) : List Nat := vecFeed hT x.word ++ hS x.storage

/-- `partial_cmp` (configuration.rs:35-46). -/
def pcmp (pW : W → W → Option Ordering) (pT : T → T → Option Ordering) (pS : S → S → Option Ordering) (x y : Configuration S T W) : Option Ordering :=
  pOr (pW x.weight y.weight) (pOr (some (compare y.word.length x.word.length)) (pOr (vecPcmp pT x.word y.word) (pS x.storage y.storage)))

/-- `cmp` (configuration.rs:55-66). -/
def cmp (cW : W → W → Ordering) (cT : T → T → Ordering) (cS : S → S → Ordering) (x y : Configuration S T W) : Ordering :=
  (cW x.weight y.weight).then ((compare y.word.length x.word.length).then ((vecCmp cT x.word y.word).then (cS x.storage y.storage)))

end Configuration

/-! ### `Transition` -/

namespace Transition

/-- `eq` (transition.rs:71-73). -/
def eq (eT : T → T → Bool) (eI : I → I → Bool) (x y : Transition I T W) : Bool := vecEq eT x.word y.word && eI x.instruction y.instruction

/-- `hash` (transition.rs:59-62). -/
def feed (hT : T → List Nat) (hI : I → List Nat) (x : Transition I T W) : List Nat := vecFeed hT x.word ++ hI x.instruction

/-- `partial_cmp` (transition.rs:117-125). -/
def pcmp (pW : W → W → Option Ordering) (pT : T → T → Option Ordering) (pI : I → I → Option Ordering) (x y : Transition I T W) : Option Ordering :=
  pOr (pW x.weight y.weight) (pOr (vecPcmp pT x.word y.word) (pI x.instruction y.instruction))

/-- `cmp` (transition.rs:134-142). -/
def cmp (cW : W → W → Ordering) (cT : T → T → Ordering) (cI : I → I → Ordering) (x y : Transition I T W) : Ordering :=
  (cW x.weight y.weight).then ((vecCmp cT x.word y.word).then (cI x.instruction y.instruction))

end Transition

/-! ### `Pushdown` -/

namespace Pushdown

/-- `cmp` (derived, push_down.rs:9-13). -/
def cmp (c : A → A → Ordering) : Pushdown A → Pushdown A → Ordering
  | .empty, .empty => .eq
  | .empty, .cons _ _ => .lt
  | .cons _ _, .empty => .gt
  | .cons a l, .cons b m => (c a b).then (cmp c l m)

/-- `partial_cmp` (derived, push_down.rs:9-13). -/
def pcmp (p : A → A → Option Ordering) : Pushdown A → Pushdown A → Option Ordering
  | .empty, .empty => some .eq
  | .empty, .cons _ _ => some .lt
  | .cons _ _, .empty => some .gt
  | .cons a l, .cons b m => pAnd (p a b) (pcmp p l m)

/-- `eq` (push_down.rs:16-31) without the comparison of addresses, see `RcPushdown.eq`. -/
def eq (e : A → A → Bool) : Pushdown A → Pushdown A → Bool
  | .empty, .empty => true
  | .cons a l, .cons b m => e a b && eq e l m
  | _, _ => false

end Pushdown

/-- `Pushdown<A>` (push_down.rs:10-13) with the address to which each `Rc` points. -/
inductive RcPushdown (A : Type _)
  | empty
  | cons (value : A) (addr : Nat) (below : RcPushdown A)

namespace RcPushdown

/-- The value without addresses. -/
def forget : RcPushdown A → Pushdown A
  | .empty => .empty
  | .cons a _ b => .cons a b.forget

/-- `eq` (push_down.rs:16-31). -/
def eq (e : A → A → Bool) : RcPushdown A → RcPushdown A → Bool
  | .empty, .empty => true
  | .cons a₁ r₁ b₁, .cons a₂ r₂ b₂ => e a₁ a₂ && (r₁ == r₂ || eq e b₁ b₂)
  | _, _ => false

end RcPushdown

/-! ### `Item` -/

namespace Item

/-- `eq` (derived, recognisable/mod.rs:24-28). -/
def eq (eT : T → T → Bool) (eS : S → S → Bool) (eI : I → I → Bool) (x y : Item S I T W) : Bool :=
  x.conf.eq eT eS y.conf && x.run.eq (Transition.eq eT eI) y.run

/-- `cmp` (derived, recognisable/mod.rs:24-28). -/
def cmp (cW : W → W → Ordering) (cT : T → T → Ordering) (cS : S → S → Ordering) (cI : I → I → Ordering) (x y : Item S I T W) : Ordering :=
  (x.conf.cmp cW cT cS y.conf).then (x.run.cmp (Transition.cmp cW cT cI) y.run)

/-- `partial_cmp` (derived, recognisable/mod.rs:24-28). -/
def pcmp (pW : W → W → Option Ordering) (pT : T → T → Option Ordering) (pS : S → S → Option Ordering) (pI : I → I → Option Ordering) (x y : Item S I T W) :
    Option Ordering :=
  pAnd (x.conf.pcmp pW pT pS y.conf) (x.run.pcmp (Transition.pcmp pW pT pI) y.run)

end Item

/-! ### grammars -/

namespace LetterT

/-- `eq` (derived, cfg/mod.rs:8-12). -/
def eq (eN : N → N → Bool) (eT : T → T → Bool) : LetterT N T → LetterT N T → Bool
  | .label a, .label b => eN a b
  | .value a, .value b => eT a b
  | _, _ => false

/-- `cmp` (derived, cfg/mod.rs:8-12). -/
def cmp (cN : N → N → Ordering) (cT : T → T → Ordering) : LetterT N T → LetterT N T → Ordering
  | .label a, .label b => cN a b
  | .label _, .value _ => .lt
  | .value _, .label _ => .gt
  | .value a, .value b => cT a b

/-- `hash` (derived, cfg/mod.rs:8-12): the index of the variant and its field. -/
def feed (hN : N → List Nat) (hT : T → List Nat) : LetterT N T → List Nat
  | .label a => 0 :: hN a
  | .value a => 1 :: hT a

end LetterT

namespace CFGRule

/-- `eq` (cfg/mod.rs:86-90). -/
def eq (eN : N → N → Bool) (eT : T → T → Bool) (x y : CFGRule N T W) : Bool := eN x.head y.head && vecEq (LetterT.eq eN eT) x.composition y.composition

/-- `hash` (cfg/mod.rs:79-84). -/
def feed (hN : N → List Nat) (hT : T → List Nat) (x : CFGRule N T W) : List Nat := hN x.head ++ vecFeed (LetterT.feed hN hT) x.composition

/-- `cmp` (derived, cfg/mod.rs:45-50). -/
def cmp (cN : N → N → Ordering) (cT : T → T → Ordering) (cW : W → W → Ordering) (x y : CFGRule N T W) : Ordering :=
  (cN x.head y.head).then ((vecCmp (LetterT.cmp cN cT) x.composition y.composition).then (cW x.weight y.weight))

end CFGRule

namespace VarT

/-- `eq` (derived, pmcfg/mod.rs:16-22). -/
def eq (eT : T → T → Bool) : VarT T → VarT T → Bool
  | .var i j, .var k l => i == k && j == l
  | .t a, .t b => eT a b
  | _, _ => false

/-- `cmp` (derived, pmcfg/mod.rs:16-22). -/
def cmp (cT : T → T → Ordering) : VarT T → VarT T → Ordering
  | .var i j, .var k l => (compare i k).then (compare j l)
  | .var _ _, .t _ => .lt
  | .t _, .var _ _ => .gt
  | .t a, .t b => cT a b

/-- `hash` (derived, pmcfg/mod.rs:16-22). -/
def feed (hT : T → List Nat) : VarT T → List Nat
  | .var i j => [0, i, j]
  | .t a => 1 :: hT a

end VarT

namespace PMCFGRule

/-- `eq` (pmcfg/mod.rs:206-210). -/
def eq (eN : N → N → Bool) (eT : T → T → Bool) (x y : PMCFGRule N T W) : Bool :=
  eN x.head y.head && vecEq eN x.tail y.tail && vecEq (vecEq (VarT.eq eT)) x.composition y.composition

/-- `hash` (pmcfg/mod.rs:198-204). -/
def feed (hN : N → List Nat) (hT : T → List Nat) (x : PMCFGRule N T W) : List Nat :=
  hN x.head ++ vecFeed hN x.tail ++ vecFeed (vecFeed (VarT.feed hT)) x.composition

/-- `cmp` (derived, pmcfg/mod.rs:133-139). -/
def cmp (cN : N → N → Ordering) (cT : T → T → Ordering) (cW : W → W → Ordering) (x y : PMCFGRule N T W) : Ordering :=
  (cN x.head y.head).then ((vecCmp cN x.tail y.tail).then ((vecCmp (vecCmp (VarT.cmp cT)) x.composition y.composition).then (cW x.weight y.weight)))

end PMCFGRule

/-! ### `TreeStack` -/

namespace Forest

/-- `==` of vectors of children (tree_stack.rs:279): subtrees have no parent. -/
def eq (e : A → A → Bool) : Forest A → Forest A → Bool
  | .nil, .nil => true
  | .vac f, .vac g => eq e f g
  | .occ v c f, .occ w d g => e v w && eq e c d && eq e f g
  | _, _ => false

/-- `cmp` of vectors of children (tree_stack.rs:301): `None` is less than `Some(_)`. -/
def cmp (o : A → A → Ordering) : Forest A → Forest A → Ordering
  | .nil, .nil => .eq
  | .nil, .vac _ => .lt
  | .nil, .occ _ _ _ => .lt
  | .vac _, .nil => .gt
  | .occ _ _ _, .nil => .gt
  | .vac f, .vac g => cmp o f g
  | .vac _, .occ _ _ _ => .lt
  | .occ _ _ _, .vac _ => .gt
  | .occ v c f, .occ w d g => ((o v w).then (cmp o c d)).then (cmp o f g)

/-- `partial_cmp` of vectors of children (tree_stack.rs:289). -/
def pcmp (p : A → A → Option Ordering) : Forest A → Forest A → Option Ordering
  | .nil, .nil => some .eq
  | .nil, .vac _ => some .lt
  | .nil, .occ _ _ _ => some .lt
  | .vac _, .nil => some .gt
  | .occ _ _ _, .nil => some .gt
  | .vac f, .vac g => pcmp p f g
  | .vac _, .occ _ _ _ => some .lt
  | .occ _ _ _, .vac _ => some .gt
  | .occ v c f, .occ w d g => pAnd (pOr (p v w) (pcmp p c d)) (pcmp p f g)

end Forest

/-- `cmp` of the parents, `Option<(usize, Rc<TreeStack<A>>)>` (tree_stack.rs:300): index, value, parents, children. -/
def framesCmp (o : A → A → Ordering) : List (Frame A) → List (Frame A) → Ordering
  | [], [] => .eq
  | [], _ :: _ => .lt
  | _ :: _, [] => .gt
  | f :: ps, g :: qs => (compare f.index g.index).then ((o f.value g.value).then ((framesCmp o ps qs).then (f.children.cmp o g.children)))

/-- `partial_cmp` of the parents (tree_stack.rs:288). -/
def framesPcmp (p : A → A → Option Ordering) : List (Frame A) → List (Frame A) → Option Ordering
  | [], [] => some .eq
  | [], _ :: _ => some .lt
  | _ :: _, [] => some .gt
  | f :: ps, g :: qs =>
    pAnd (some (compare f.index g.index)) (pOr (p f.value g.value) (pOr (framesPcmp p ps qs) (f.children.pcmp p g.children)))

/-- `==` of the parents (tree_stack.rs:274-278) without the comparison of addresses, see `RcParents.eq`. -/
def framesEq (e : A → A → Bool) : List (Frame A) → List (Frame A) → Bool
  | [], [] => true
  | f :: ps, g :: qs => f.index == g.index && (e f.value g.value && framesEq e ps qs && f.children.eq e g.children)
  | _, _ => false

namespace TreeStack

/-- `eq` (tree_stack.rs:271-280) without the comparison of addresses. -/
def eq (e : A → A → Bool) (s t : TreeStack A) : Bool := e s.value t.value && framesEq e s.parents t.parents && s.children.eq e t.children

/-- `cmp` (tree_stack.rs:298-306). -/
def cmp (o : A → A → Ordering) (s t : TreeStack A) : Ordering := (o s.value t.value).then ((framesCmp o s.parents t.parents).then (s.children.cmp o t.children))

/-- `partial_cmp` (tree_stack.rs:286-294). -/
def pcmp (p : A → A → Option Ordering) (s t : TreeStack A) : Option Ordering :=
  pOr (p s.value t.value) (pOr (framesPcmp p s.parents t.parents) (s.children.pcmp p t.children))

end TreeStack

/-- The field `parent` of a tree stack (tree_stack.rs:13) with the address to which its `Rc` points. -/
inductive RcParents (A : Type _)
  | none
  | some (index addr : Nat) (value : A) (above : RcParents A) (children : Forest A)

namespace RcParents

/-- The value without addresses. -/
def forget : RcParents A → List (Frame A)
  | .none => []
  | .some i _ v ps c => ⟨i, v, c⟩ :: ps.forget

/-- `match (&self.parent, &other.parent)` (tree_stack.rs:272, 274-278). -/
def eq (e : A → A → Bool) : RcParents A → RcParents A → Bool
  | .none, .none => true
  | .some i₁ r₁ v₁ p₁ c₁, .some i₂ r₂ v₂ p₂ c₂ => i₁ == i₂ && (r₁ == r₂ || (e v₁ v₂ && eq e p₁ p₂ && c₁.eq e c₂))
  | _, _ => false

end RcParents

/-! ### the rest -/

/-- `Reverse::partial_cmp` (reverse.rs:15-17). -/
def Reverse.pcmp (p : W → W → Option Ordering) (a b : Reverse W) : Option Ordering := p b.inner a.inner

/-- `Reverse::eq` (derived, reverse.rs:8). -/
def Reverse.eq (e : W → W → Bool) (a b : Reverse W) : Bool := e a.inner b.inner

/-- `WeightedItem<I, W>` (weighted.rs:20). -/
structure WeightedItem (X W : Type _) where
  item : X
  weight : W

namespace WeightedItem

/-- `eq` (weighted.rs:23-25). -/
def eq (e : W → W → Bool) (a b : WeightedItem X W) : Bool := e a.weight b.weight

/-- `partial_cmp` (weighted.rs:31-33). -/
def pcmp (p : W → W → Option Ordering) (a b : WeightedItem X W) : Option Ordering := p a.weight b.weight

/-- `cmp` (weighted.rs:37-39). -/
def cmp (c : W → W → Ordering) (a b : WeightedItem X W) : Ordering := c a.weight b.weight

/-- `RemoveWeight::next`, for all elements (weighted.rs:69-76). -/
def removeWeight (l : List (WeightedItem X W)) : List X := l.map WeightedItem.item

end WeightedItem

namespace Backtrace

/-- `hash` (backtrace.rs:32-39). -/
def feed : Backtrace W → List Nat
  | .nullary r _ => [r]
  | .unary r _ _ i => [r, i]
  | .binary r _ _ _ _ i₁ i₂ => [r, i₁, i₂]

/-- `partial_cmp` (backtrace.rs:42-44). -/
def pcmp (a b : Backtrace W) : Option Ordering := some (a.cmp b)

end Backtrace

/-- `GornTree::eq` (util/tree.rs:128-130): the pairs of the maps are compared in order. -/
def GornTree.eq (e : A → A → Bool) (x y : GornTree A) : Bool := vecEq (fun a b => a.1 == b.1 && e a.2 b.2) x y

/-- Every pair of a map is in another map (`HashMap::eq`). -/
def EquivalenceRelation.subMap [DecidableEq A] (e : B → B → Bool) (x y : List (A × B)) : Bool := x.all fun kv => match EquivalenceRelation.get y kv.1 with
  | some b => e kv.2 b
  | none => false

/-- `EquivalenceRelation::eq` (equivalence_classes.rs:48-50): maps are equal if they have as many keys and agree on those of the first. -/
def EquivalenceRelation.eq [DecidableEq A] (e : B → B → Bool) (x y : EquivalenceRelation A B) : Bool :=
  e x.default y.default && (x.map.length == y.map.length && subMap e x.map y.map)

end Rustomata
