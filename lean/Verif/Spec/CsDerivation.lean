import Verif.Model.CsAutomaton
import Verif.Model.Dyck
import Verif.Spec.Pmcfg

/-!
# Specification of the bracket words of the Chomsky-Schützenberger parser

The context-free approximation of an LCFRS derives each component of a nonterminal on its own, so that different components of one occurrence of a nonterminal may
use different rules. Such derivations are given by the parts of a component of a rule; the bracket word of a component is read off its parts.
-/

namespace Rustomata.Spec

/-- The parts of a component, from left to right: a terminal, or the `j`-th component of the `i`-th nonterminal of the right-hand side by the rule `rid` and with the
parts `inside`. -/
inductive Parts
  | nil
  | term (after : Parts)
  | part (i j rid : Nat) (inside after : Parts)
deriving DecidableEq

/-- The bracket word of the parts of a component of the rule `rid`. -/
def Parts.word (rid : Nat) : Parts → List (Bracket BracketContent)
  | nil => []
  | term after => .open_ .terminal :: .close .terminal :: after.word rid
  | part i j r inside after =>
    .open_ (.variable rid i j) :: .open_ (.component r j) :: inside.word r ++ .close (.component r j) :: .close (.variable rid i j) :: after.word rid

/-- The bracket word of a component. -/
def compWord (rid c : Nat) (P : Parts) : List (Bracket BracketContent) := .open_ (.component rid c) :: P.word rid ++ [.close (.component rid c)]

section
variable {N T W : Type _}

/-- `Fits factorize rules tail c P u w`: the parts `P` fit the symbols `c` of a rule with the right-hand side `tail`, they derive `u`, and their weight is `w`. The
weight of a component is given by `factorize`. -/
inductive Fits [Monoid W] (factorize : W → Nat → List W) (rules : List (Nat × PMCFGRule N T W)) :
    List N → List (VarT T) → Parts → List T → W → Prop
  | nil {tail} : Fits factorize rules tail [] .nil [] 1
  | term {tail c a P u w} : Fits factorize rules tail c P u w → Fits factorize rules tail (.t a :: c) (.term P) (a :: u) w
  | part {tail : List N} {c comp i j rid r f P₁ P₂ u₁ u₂ w₁ w₂} : (rid, r) ∈ rules → tail[i]? = some r.head → r.composition[j]? = some comp →
      (factorize r.weight r.composition.length)[j]? = some f → Fits factorize rules r.tail comp P₁ u₁ w₁ → Fits factorize rules tail c P₂ u₂ w₂ →
      Fits factorize rules tail (.var i j :: c) (.part i j rid P₁ P₂) (u₁ ++ u₂) (f * w₁ * w₂)

/-- `CompDerives factorize rules A c rid P u w`: the `c`-th component of `A` derives `u` by the rule `rid` and the parts `P`, with weight `w`. -/
def CompDerives [Monoid W] (factorize : W → Nat → List W) (rules : List (Nat × PMCFGRule N T W)) (A : N) (c rid : Nat) (P : Parts) (u : List T) (w : W) : Prop :=
  ∃ r comp f w', (rid, r) ∈ rules ∧ r.head = A ∧ r.composition[c]? = some comp ∧ (factorize r.weight r.composition.length)[c]? = some f ∧
    Fits factorize rules r.tail comp P u w' ∧ w = f * w'

/-- The terminals of a bracket word; the brackets of a terminal directly follow the opening bracket of the component that consists of this terminal. -/
def spelled (rules : List (Nat × PMCFGRule N T W)) : List (Bracket BracketContent) → List (Option T)
  | .open_ (.component rid c) :: .open_ .terminal :: v =>
    ((rules.find? fun p => p.1 == rid).bind fun p => (p.2.composition[c]?).bind fun comp => match comp with | [.t a] => some a | _ => none) :: spelled rules v
  | .open_ .terminal :: v => none :: spelled rules v
  | _ :: v => spelled rules v
  | [] => []

end

/-- The rules used at the positions of a derivation; `p` is the position of the component. -/
def Parts.visits (p : List Nat) : Parts → List (List Nat × Nat)
  | nil => []
  | term after => after.visits p
  | part i _ rid inside after => (p ++ [i], rid) :: inside.visits (p ++ [i]) ++ after.visits p

/-- The components at one position have the same rule. -/
def Consistent (rid : Nat) (P : Parts) : Prop :=
  ∀ p r r', (p, r) ∈ ([], rid) :: P.visits [] → (p, r') ∈ ([], rid) :: P.visits [] → r = r'

/-- `Encodes rules ds c P`: `P` are the parts of the symbols `c` of a rule whose right-hand side is derived by `ds`, given by the numbers of the rules. -/
inductive Encodes {N T W : Type _} (rules : List (PMCFGRule N T W)) : List (DTree Nat) → List (VarT T) → Parts → Prop
  | nil {ds} : Encodes rules ds [] .nil
  | term {ds c a P} : Encodes rules ds c P → Encodes rules ds (.t a :: c) (.term P)
  | part {ds : List (DTree Nat)} {c comp i j rid r es P₁ P₂} : ds[i]? = some (.node rid es) → rules[rid]? = some r → r.composition[j]? = some comp →
      Encodes rules es comp P₁ → Encodes rules ds c P₂ → Encodes rules ds (.var i j :: c) (.part i j rid P₁ P₂)

/-- The rules with their numbers. -/
def indexed {R : Type _} (rules : List R) : List (Nat × R) := rules.zipIdx.map fun x => (x.2, x.1)

/-- `factorize w n` is a factorisation of `w` into `n` factors. -/
def Factorizes {W : Type _} [Monoid W] (factorize : W → Nat → List W) : Prop := ∀ w n, (factorize w n).length = n ∧ (n ≠ 0 → (factorize w n).prod = w)

/-- `Numbers rules d d'`: the tree `d` gives the numbers of the rules of `d'`. -/
def Numbers {R : Type _} (rules : List R) (d : DTree Nat) (d' : DTree R) : Prop :=
  ∀ p, (d.at? p).map (fun rid => rules[rid]?) = (d'.at? p).map some

end Rustomata.Spec
