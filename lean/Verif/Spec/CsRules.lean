import Verif.Model.CsAutomaton
import Verif.Spec.CsParsing

/-!
# The weighted grammar of the Chomsky-Schützenberger parser

Two views: the grammar stored in the tables of an automaton (rules that a filter masks out are left out), and the binarised context-free approximation of a list
of rules of an LCFRS. Its nonterminals are the components of the nonterminals of the LCFRS and intermediate symbols; a component with more than two variables is
binarised from left to right and its weight is put on the innermost rule.
-/

namespace Rustomata.Spec

/-- The grammar in the bottom-up tables. -/
def buGrammar {T W : Type _} [DecidableEq T] (A : CsAutomaton T W) (filter : List Bool) : BinGrammar T W where
  nullary rid q a w := filter[rid]? = some true ∧ ∃ l, A.buInitials.get a = some l ∧ ⟨rid, w, q⟩ ∈ l
  unary rid q q₁ w := filter[rid]? = some true ∧ ∃ l, A.buUnaries[q₁]? = some l ∧ ⟨rid, w, q⟩ ∈ l
  binary rid q q₁ q₂ w := filter[rid]? = some true ∧ ∃ l, A.buBinaries[q₁]? = some l ∧ ⟨rid, q₂, w, q⟩ ∈ l

/-- Productions of the context-free approximation. -/
inductive CsProd (N T W : Type _)
  | nullary (lhs : CsState N) (a : T) (w : W)
  | unary (lhs s : CsState N) (w : W)
  | binary (lhs s₁ s₂ : CsState N) (w : W)

section
variable {N T W : Type _}

/-- All symbols of a production. -/
def CsProd.symbols : CsProd N T W → List (CsState N)
  | .nullary lhs _ _ => [lhs]
  | .unary lhs s _ => [lhs, s]
  | .binary lhs s₁ s₂ _ => [lhs, s₁, s₂]

/-- The weight of a production. -/
def CsProd.weight : CsProd N T W → W
  | .nullary _ _ w => w
  | .unary _ _ w => w
  | .binary _ _ _ w => w

/-- The grammar with the productions `ps` (the identifier of a production is its position) that are not masked out; the states are the positions of the symbols
in `st`. -/
def numGrammar (st : List (CsState N)) (ps : List (CsProd N T W × TdBrackets)) (filter : List Bool) : BinGrammar T W where
  nullary rid q a w := filter[rid]? = some true ∧ ∃ Q, (ps[rid]?).map Prod.fst = some (.nullary Q a w) ∧ st[q]? = some Q
  unary rid q q₁ w := filter[rid]? = some true ∧ ∃ Q S, (ps[rid]?).map Prod.fst = some (.unary Q S w) ∧ st[q]? = some Q ∧ st[q₁]? = some S
  binary rid q q₁ q₂ w := filter[rid]? = some true ∧ ∃ Q L R, (ps[rid]?).map Prod.fst = some (.binary Q L R w) ∧ st[q]? = some Q ∧ st[q₁]? = some L ∧
    st[q₂]? = some R

/-- Binarisation of `lhs → q₀ q₁ … qₖ`: symbols with their brackets, intermediate symbols `inner 0`, `inner 1`, …, without brackets. -/
def leftBranch [One W] (inner : Nat → CsState N) (lhs : CsState N) (outer : BracketContent) :
    Nat → CsState N × BracketContent → List (CsState N × BracketContent) → W → List (CsProd N T W × TdBrackets)
  | _, _, [], _ => []
  | _, q₀, [q₁], w => [(.binary lhs q₀.1 q₁.1 w, ⟨outer, q₀.2, q₁.2⟩)]
  | off, q₀, q₁ :: c, w => (.binary (inner off) q₀.1 q₁.1 w, ⟨.ignore, q₀.2, q₁.2⟩) :: leftBranch inner lhs outer (off + 1) (inner off, .ignore) c 1

/-- The symbol and bracket of a variable. -/
def varSymbol (rid : Nat) (tail : List N) : VarT T → Option (CsState N × BracketContent)
  | .t _ => none
  | .var i j => (tail[i]?).map fun n => (.non n j, .variable rid i j)

/-- The productions for one component of a rule; `none` if the component is not of a form that the construction supports. -/
def componentProds [One W] (rid cid : Nat) (head : N) (tail : List N) (c : List (VarT T)) (w : W) : Option (List (CsProd N T W × TdBrackets)) :=
  match c with
  | [] => none
  | [.t a] => some [(.nullary (.non head cid) a w, ⟨.component rid cid, .terminal, .ignore⟩)]
  | [.var i j] => (varSymbol rid tail (.var i j : VarT T)).map fun v => [(.unary (.non head cid) v.1 w, ⟨.component rid cid, v.2, .ignore⟩)]
  | x :: y :: c =>
    match varSymbol rid tail x, (y :: c).mapM (varSymbol rid tail) with
    | some v, some vs => some (leftBranch (.unique rid cid) (.non head cid) (.component rid cid) 0 v vs w)
    | _, _ => none

/-- The productions for a list of components. -/
def componentsProds [One W] (rid : Nat) (head : N) (tail : List N) : List (List (VarT T) × W) → Nat → Option (List (CsProd N T W × TdBrackets))
  | [], _ => some []
  | (c, w) :: cs, cid =>
    match componentProds rid cid head tail c w, componentsProds rid head tail cs (cid + 1) with
    | some ps, some ps' => some (ps ++ ps')
    | _, _ => none

/-- The productions for a list of rules with identifiers; the position of a production is its identifier. -/
def grammarProds [One W] (factorize : W → Nat → List W) : List (Nat × PMCFGRule N T W) → Option (List (CsProd N T W × TdBrackets))
  | [] => some []
  | (rid, r) :: rs =>
    match componentsProds rid r.head r.tail (r.composition.zip (factorize r.weight r.composition.length)) 0, grammarProds factorize rs with
    | some ps, some ps' => some (ps ++ ps')
    | _, _ => none

end

end Rustomata.Spec
