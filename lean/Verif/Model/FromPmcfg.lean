import Verif.Model.Pmcfg
import Verif.Model.Tsa

/-!
# Model of the construction of a tree stack automaton for a PMCFG

Source: `/repo/src/automata/tree_stack_automaton/from_pmcfg.rs`.

Simplifications: `PMCFGRule` implements `Eq` and `Hash` without the weight (pmcfg/mod.rs:198-212), so stack symbols are identified (by the
integeriser and by the instructions) up to the weight of the rule; here, stack symbols contain rules without weight. `down_info` is looked up
for rules that were inserted before, so its entry is computed from the rule.
-/

namespace Rustomata

/-- `PosState<X>` (from_pmcfg.rs:20-24). -/
inductive PosState (X : Type _)
  | designated
  | initial
  | position (x : X) (i j : Nat)
deriving DecidableEq

variable {N T W : Type _}

/-- A rule without its weight. -/
def PMCFGRule.key (r : PMCFGRule N T W) : PMCFGRule N T Unit := ⟨r.head, r.tail, r.composition, ()⟩

/-- The stack symbols of the automaton. -/
abbrev TsaSymbol (N T : Type _) := PosState (PMCFGRule N T Unit)

/-- The transitions of the automaton. -/
abbrev TsaTransition (N T W : Type _) := Transition (TsInstr (TsaSymbol N T)) T W

/-- The loop over one component that computes `down_info` (from_pmcfg.rs:79-92), with the buffer that is left from the previous component. -/
def downComponent (buffer : List T) : List (VarT T) → Nat → Nat × List T
  | [], i => (i, buffer)
  | .var _ _ :: c, i => downComponent [] c (i + 1)
  | .t a :: c, i => downComponent [a] c i

/-- The loop over the components (from_pmcfg.rs:75-93); the buffer is not cleared between components. -/
def downInfoFrom (buffer : List T) : Composition T → List (Nat × List T)
  | [] => []
  | c :: cs => let r := downComponent buffer c 0; r :: downInfoFrom r.2 cs

/-- `down_info[r]` (from_pmcfg.rs:75-95). -/
def downInfo (r : PMCFGRule N T W) : List (Nat × List T) := downInfoFrom [] r.composition

/-- The transitions for an initial rule (from_pmcfg.rs:98-122), `none` is a panic. -/
def tsaInitial [One W] (r : PMCFGRule N T W) : Option (List (TsaTransition N T W)) :=
  match (downInfo r)[0]? with
  | none => none
  | some (j, word) =>
    some [⟨[], r.weight, .push 0 .initial (.position r.key 0 0)⟩,
      ⟨word, 1, .down (.position r.key 0 j) .initial .designated⟩]

/-- The two transitions for a variable and a rule (from_pmcfg.rs:149-190), `none` is a panic. -/
def tsaVariable [One W] (r : PMCFGRule N T W) (j k : Nat) (buffer : List T) (i₁ j₁ : Nat) (previous : Option Nat) (ri : PMCFGRule N T W) :
    Option (List (TsaTransition N T W)) :=
  match (downInfo ri)[j₁]? with
  | none => none
  | some (n, word) =>
    let down : TsaTransition N T W :=
      ⟨word, 1, .down (.position ri.key j₁ n) (.position r.key j k) (.position r.key j (k + 1))⟩
    match previous with
    | none => some [⟨buffer, ri.weight, .push i₁ (.position r.key j k) (.position ri.key j₁ 0)⟩, down]
    | some j₀ =>
      match (downInfo ri)[j₀]? with
      | none => none
      | some (n₀, _) =>
        some [⟨buffer, 1, .up i₁ (.position r.key j k) (.position ri.key j₀ n₀) (.position ri.key j₁ 0)⟩, down]

/-- The loop over the tokens of a component (from_pmcfg.rs:144-203): the transitions and `previous_component`, `none` is a panic. -/
def tsaTokens [One W] (r : PMCFGRule N T W) (rss : List (List (PMCFGRule N T W))) (j : Nat) :
    List (VarT T) → Nat → List T → List (Option Nat) → Option (List (TsaTransition N T W) × List (Option Nat))
  | [], _, _, previous => some ([], previous)
  | .t a :: c, k, buffer, previous => tsaTokens r rss j c k (buffer ++ [a]) previous
  | .var i₁ j₁ :: c, k, buffer, previous =>
    match rss[i₁]?, previous[i₁]? with
    | some rs, some p =>
      match rs.mapM (tsaVariable r j k buffer i₁ j₁ p), tsaTokens r rss j c (k + 1) [] (previous.set i₁ (some j₁)) with
      | some tss, some (ts, previous') => some (tss.flatten ++ ts, previous')
      | _, _ => none
    | _, _ => none

/-- The loop over the components of a rule (from_pmcfg.rs:139-206), `none` is a panic. -/
def tsaComponents [One W] (r : PMCFGRule N T W) (rss : List (List (PMCFGRule N T W))) :
    Composition T → Nat → List (Option Nat) → Option (List (TsaTransition N T W))
  | [], _, _ => some []
  | c :: cs, j, previous =>
    match tsaTokens r rss j c 0 [] previous with
    | none => none
    | some (ts, previous') => (tsaComponents r rss cs (j + 1) previous').map (ts ++ ·)

/-- The entry of `rule_map` for a nonterminal (from_pmcfg.rs:59-64, 74), `none` is a panic. -/
def ruleMapGet [DecidableEq N] (rules : List (PMCFGRule N T W)) (n : N) : Option (List (PMCFGRule N T W)) :=
  if n ∈ rules.map PMCFGRule.head then some (rules.filter fun r => r.head = n) else none

/-- The transitions for an element of the agenda (from_pmcfg.rs:126-207), `none` is a panic. -/
def tsaRule [One W] [DecidableEq N] (rules : List (PMCFGRule N T W)) (r : PMCFGRule N T W) : Option (List (TsaTransition N T W)) :=
  match r.tail.mapM (ruleMapGet rules) with
  | none => none
  | some rss => tsaComponents r rss r.composition 0 (rss.map fun _ => none)

/-- The transitions of the automaton (from_pmcfg.rs:55-207), `none` is a panic. -/
def tsaTransitions [One W] [DecidableEq N] (g : PMCFG N T W) : Option (List (TsaTransition N T W)) :=
  match (g.rules.filter fun r => r.head ∈ g.initial).mapM tsaInitial, g.rules.mapM (tsaRule g.rules) with
  | some a, some b => some (a.flatten ++ b.flatten)
  | _, _ => none

/-- `From<PMCFG> for TreeStackAutomaton` (from_pmcfg.rs:48-210), `none` is a panic. -/
def TSA.ofPmcfg [One W] [DecidableEq N] [DecidableEq T] (g : PMCFG N T W) : Option (TSA (TsaSymbol N T) T W) :=
  (tsaTransitions g).map fun ts => TSA.new ts (TreeStack.new .initial)

/-- `to_abstract_syntax_tree` (from_pmcfg.rs:206-235), `none` is a panic. -/
def toAbstractSyntaxTree {X : Type _} (m : GornTree (PosState X)) : Option (GornTree X) :=
  m.foldlM (init := ([] : GornTree X)) fun acc p =>
    match p.1 with
    | [] => some acc
    | 0 :: rest =>
      match p.2 with
      | .position x _ _ => some (acc.insert rest x)
      | _ => none
    | _ :: _ => some acc

end Rustomata
