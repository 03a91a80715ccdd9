import Verif.Proofs.CsEncode

/-!
# Property C45: bracket words and derivations
-/

namespace Rustomata.Props
open Spec

/-- The full claim **C45**: for all LCFRS, `toderiv` returns the derivation that is encoded by a bracket word, and it returns `None` if two components at one position
disagree on the rule. -/
def C45_claim : Prop :=
  ∀ (N T W : Type) (rules : List (PMCFGRule N T W)) (init : N), IsLcfrs rules init →
    (∀ (d : DTree (PMCFGRule N T W)) u rid es r comp P, Derives rules init d [u] → Numbers rules (.node rid es) d → rules[rid]? = some r →
      r.composition[0]? = some comp → Encodes rules es comp P →
      ∃ m : GornTree _, toderiv rules (compWord rid 0 P) = some (some m) ∧ ∀ p, m.get p = d.at? p) ∧
    ∀ rid c P, ¬ Consistent rid P → toderiv rules (compWord rid c P) = some none

/-- **C45** is violated by nonterminals without components, which are used in no component: the derivation of `S → [x₀,₀] (A, B)`, `A → [7] ()`, `B → [] ()` is
returned without the rule of `B`. -/
theorem C45_no_components_violated : ¬ C45_claim := by
  intro h
  let rules : List (PMCFGRule Nat Nat Nat) := [⟨0, [1, 2], [[.var 0 0]], 1⟩, ⟨1, [], [[.t 7]], 1⟩, ⟨2, [], [], 1⟩]
  have hl : IsLcfrs rules 0 := by
    refine ⟨fun A => if A = 0 ∨ A = 1 then some 1 else if A = 2 then some 0 else none, fun A f => ?_, rfl, fun r hr => ?_⟩
    · match A with
      | 0 => simp [rules, eq_comm]
      | 1 => simp [rules, eq_comm]
      | 2 => simp [rules, eq_comm]
      | A + 3 => simp [rules]
    · simp only [rules, List.mem_cons, List.not_mem_nil, or_false] at hr
      rcases hr with rfl | rfl | rfl
      · refine ⟨by decide, fun i j => ?_⟩
        match i with
        | 0 => simp [varsOf]
        | 1 => simp [varsOf]
        | i + 2 => simp [varsOf]
      · exact ⟨by decide, fun i j => by simp [varsOf]⟩
      · exact ⟨by decide, fun i j => by simp [varsOf]⟩
  let r0 : PMCFGRule Nat Nat Nat := ⟨0, [1, 2], [[.var 0 0]], 1⟩
  let r1 : PMCFGRule Nat Nat Nat := ⟨1, [], [[.t 7]], 1⟩
  let r2 : PMCFGRule Nat Nat Nat := ⟨2, [], [], 1⟩
  have hd : Derives rules 0 (.node r0 [.node r1 [], .node r2 []]) [[7]] :=
    .node (r := r0) (args := [[[7]], []]) (by simp [rules, r0]) (.cons (.node (r := r1) (args := []) (by simp [rules, r1]) .nil rfl)
      (.cons (.node (r := r2) (args := []) (by simp [rules, r2]) .nil rfl) .nil)) rfl
  obtain ⟨m, h1, h2⟩ := (h Nat Nat Nat rules 0 hl).1 _ [7] 0 [.node 1 [], .node 2 []] r0 [.var 0 0] (.part 0 0 1 (.term .nil) .nil) hd
    (numbers_node.2 ⟨rfl, rfl, fun i e d h1 h2 => by
      match i with
      | 0 => cases h1; cases h2; exact numbers_node.2 ⟨rfl, rfl, fun i e d h1 h2 => by cases h1⟩
      | 1 => cases h1; cases h2; exact numbers_node.2 ⟨rfl, rfl, fun i e d h1 h2 => by cases h1⟩
      | i + 2 => cases h1⟩) rfl rfl
    (.part (r := r1) (comp := [.t 7]) rfl rfl rfl (.term .nil) .nil)
  have h3 := h2 [1]
  have h4 : toderiv rules (compWord 0 0 (.part 0 0 1 (.term .nil) .nil)) = some (some [([], r0), ([0], r1)]) := rfl
  rw [h4, Option.some.injEq, Option.some.injEq] at h1
  subst h1
  simp [GornTree.get, DTree.at?] at h3

/-- **C45** `toderiv` returns `None` iff two components at one position have different rules, for all bracket words of components. -/
theorem C45_none {R : Type _} {rules : List R} {rid c : Nat} {P : Parts} : toderiv rules (compWord rid c P) = some none ↔ ¬ Consistent rid P := toderiv_none

section
variable {N T W : Type _} [CommMonoid W] {factorize : W → Nat → List W} {rules : List (PMCFGRule N T W)} {init : N}

/-- **C45** for grammars in which each rule has a component. Each derivation of a word from the initial nonterminal, with given numbers of rules, has exactly one
encoding by parts, the encoding is a derivation of the word in the context-free approximation, and `toderiv` returns the derivation for its bracket word. -/
theorem C45_derivation_partial (hl : IsLcfrs rules init) (hne : ∀ r ∈ rules, r.composition ≠ []) (hfac : Factorizes factorize)
    {d : DTree (PMCFGRule N T W)} {u : List T} (hd : Derives rules init d [u]) {rid : Nat} {es : List (DTree Nat)} (hn : Numbers rules (.node rid es) d) :
    ∃ r comp P m w, rules[rid]? = some r ∧ r.composition[0]? = some comp ∧ Encodes rules es comp P ∧ (∀ P', Encodes rules es comp P' → P' = P) ∧
      CompDerives factorize (indexed rules) init 0 rid P u w ∧
      toderiv rules (compWord rid 0 P) = some (some m) ∧ m.Sorted ∧ ∀ p, m.get p = d.at? p := by
  obtain ⟨r, h1, h2, ds, args, rfl, _, h3⟩ := derives_inv hd
  have hr := (numbers_node.1 hn).1
  have hl1 : r.composition.length = 1 := by rw [← compose_length h3]; rfl
  have hc := List.getElem?_eq_getElem (show 0 < r.composition.length by omega)
  obtain ⟨P, u', w, k1, k2, k3⟩ := encodes_exists hfac hd rid es r ds rfl hn 0 _ hc
  simp only [List.getElem?_cons_zero, Option.some.injEq] at k1
  subst k1
  obtain ⟨m, m1, m2, m3⟩ := toderiv_encodes hl hne hd hn hr hc k2
  have hf := hfac r.weight r.composition.length
  exact ⟨r, _, P, m, _, hr, hc, k2, fun P' h => encodes_unique k2 h,
    ⟨r, _, _, w, mem_indexed.2 hr, h2, hc, List.getElem?_eq_getElem (by omega), k3, rfl⟩, m1, m2, m3⟩

/-- **C45** for grammars in which each rule has a component and each nonterminal of a right-hand side has a rule. `toderiv` does not panic for the bracket words of
derivations of the context-free approximation. It returns `None` iff two components at one position
have different rules. Otherwise, it returns a derivation of the word, the bracket word is the one of this derivation, and the weights are the same. -/
theorem C45_word_partial (hl : IsLcfrs rules init) (hne : ∀ r ∈ rules, r.composition ≠ []) (hcl : ∀ r ∈ rules, ∀ A ∈ r.tail, ∃ r' ∈ rules, r'.head = A)
    (hfac : Factorizes factorize) {rid : Nat} {P : Parts} {u : List T} {w : W} (h : CompDerives factorize (indexed rules) init 0 rid P u w) :
    (toderiv rules (compWord rid 0 P) = some none ∧ ¬ Consistent rid P) ∨
    (Consistent rid P ∧ ∃ m d es r comp, toderiv rules (compWord rid 0 P) = some (some m) ∧ m.Sorted ∧ (∀ p, m.get p = d.at? p) ∧ Derives rules init d [u] ∧ d.weight = w ∧
      Numbers rules (.node rid es) d ∧ rules[rid]? = some r ∧ r.composition[0]? = some comp ∧ Encodes rules es comp P) := by
  by_cases hc : Consistent rid P
  · refine .inr ⟨hc, ?_⟩
    obtain ⟨r, comp, f, w', h1, h2, h3, h4, h5, rfl⟩ := h
    rw [mem_indexed] at h1
    have hrm := List.mem_of_getElem? h1
    have hl1 : r.composition.length = 1 := by
      obtain ⟨fan, g1, g2, _⟩ := hl
      have := (g1 r.head r.composition.length).2 ⟨r, hrm, rfl, rfl⟩
      rw [h2, g2, Option.some.injEq] at this
      exact this.symm
    obtain ⟨es, ds, g1, g2, g3, g4⟩ := group_derives hl hne hcl hfac (Parts.depth P + 1) rid r (fun _ => P) (fun _ => u) (fun _ => w') h1
      (fun j comp' hj => by
        have : j = 0 := by
          have := (List.getElem?_eq_some_iff.1 hj).1
          omega
        subst this
        rw [h3, Option.some.injEq] at hj
        subst hj
        exact ⟨by omega, h5⟩)
      (fun j j' p x x' _ _ h h' => hc p x x' (List.mem_cons_of_mem _ h) (List.mem_cons_of_mem _ h'))
    rw [hl1] at g3 g4
    have hd : Derives rules init (.node r ds) [u] := h2 ▸ g3
    obtain ⟨m, m1, m2, m3⟩ := toderiv_encodes hl hne hd g1 h1 h3 (g2 0 _ h3)
    refine ⟨m, _, es, r, comp, m1, m2, m3, hd, ?_, g1, h1, h3, g2 0 _ h3⟩
    have hf : _ ∧ _ := ⟨(hfac r.weight 1).1, (hfac r.weight 1).2 (by omega)⟩
    rw [hl1] at h4
    obtain ⟨f', hf1⟩ := List.length_eq_one_iff.1 hf.1
    rw [hf1] at h4
    simp only [List.getElem?_cons_zero, Option.some.injEq] at h4
    subst h4
    have e := hf.2
    rw [hf1] at e
    simp only [List.prod_cons, List.prod_nil, mul_one] at e
    simp [DTree.weight, g4, e]
  · exact .inl ⟨toderiv_none.2 hc, hc⟩

end

namespace C45Example

/-- `S → [x₀,₀ x₁,₀ x₀,₁] (A, B)`, `A → [x₀,₀, x₁,₀] (X, X)`, `A → [x₁,₀, x₀,₀] (X, X)`, `B → [8] ()`, `X → [7] ()`. -/
def rules : List (PMCFGRule Nat Nat Nat) :=
  [⟨0, [1, 2], [[.var 0 0, .var 1 0, .var 0 1]], 1⟩, ⟨1, [3, 3], [[.var 0 0], [.var 1 0]], 1⟩, ⟨1, [3, 3], [[.var 1 0], [.var 0 0]], 1⟩,
    ⟨2, [], [[.t 8]], 1⟩, ⟨3, [], [[.t 7]], 1⟩]

def fanout : Nat → Option Nat
  | 0 => some 1
  | 1 => some 2
  | 2 => some 1
  | 3 => some 1
  | _ => none

theorem lcfrs : IsLcfrs rules 0 := by
  refine ⟨fanout, ?_, rfl, ?_⟩
  · intro A f
    match A with
    | 0 => simp [fanout, rules, eq_comm]
    | 1 => simp [fanout, rules, eq_comm]
    | 2 => simp [fanout, rules, eq_comm]
    | 3 => simp [fanout, rules, eq_comm]
    | A + 4 => simp [fanout, rules]
  · intro r hr
    simp only [rules, List.mem_cons, List.not_mem_nil, or_false] at hr
    rcases hr with rfl | rfl | rfl | rfl | rfl
    · refine ⟨by decide, fun i j => ?_⟩
      match i with
      | 0 => simp [varsOf, fanout]; omega
      | 1 => simp [varsOf, fanout]
      | i + 2 => simp [varsOf]
    · refine ⟨by decide, fun i j => ?_⟩
      match i with
      | 0 => simp [varsOf, fanout]
      | 1 => simp [varsOf, fanout]
      | i + 2 => simp [varsOf]
    · refine ⟨by decide, fun i j => ?_⟩
      match i with
      | 0 => simp [varsOf, fanout]
      | 1 => simp [varsOf, fanout]
      | i + 2 => simp [varsOf]
    · exact ⟨by decide, fun i j => by simp [varsOf]⟩
    · exact ⟨by decide, fun i j => by simp [varsOf]⟩

/-- The weight as the first factor. -/
def factorize (w n : Nat) : List Nat := (w :: List.replicate (n - 1) 1).take n

theorem factorizes : Factorizes factorize := by
  intro w n
  cases n with
  | zero => simp [factorize]
  | succ n => simp [factorize]

/-- Both components of `A` by the rule 1. -/
def good : Parts := .part 0 0 1 (.part 0 0 4 (.term .nil) .nil) (.part 1 0 3 (.term .nil) (.part 0 1 1 (.part 1 0 4 (.term .nil) .nil) .nil))

/-- The components of `A` by different rules. -/
def bad : Parts := .part 0 0 1 (.part 0 0 4 (.term .nil) .nil) (.part 1 0 3 (.term .nil) (.part 0 1 2 (.part 0 0 4 (.term .nil) .nil) .nil))

end C45Example

open C45Example in
/-- The hypotheses of the theorems hold for a grammar with discontinuous constituents. -/
example : IsLcfrs rules 0 ∧ (∀ r ∈ rules, r.composition ≠ []) ∧ (∀ r ∈ rules, ∀ A ∈ r.tail, ∃ r' ∈ rules, r'.head = A) ∧ Factorizes factorize :=
  ⟨lcfrs, by decide, by decide, factorizes⟩

open C45Example in
/-- Both encodings derive the word in the context-free approximation. -/
example : CompDerives factorize (indexed rules) 0 0 0 good [7, 8, 7] 1 ∧ CompDerives factorize (indexed rules) 0 0 0 bad [7, 8, 7] 1 := by
  have hx : ∀ tail : List Nat, Fits factorize (indexed rules) tail [.t 7] (.term .nil) [7] 1 := fun _ => .term .nil
  have h7 : ∀ tail : List Nat, ∀ i, tail[i]? = some 3 → Fits factorize (indexed rules) tail [.var i 0] (.part i 0 4 (.term .nil) .nil) [7] 1 := fun tail i hi =>
    .part (r := ⟨3, [], [[.t 7]], 1⟩) (f := 1) (u₂ := []) (w₁ := 1) (w₂ := 1) (mem_indexed.2 rfl) hi rfl rfl (.term .nil) .nil
  constructor
  · refine ⟨_, _, 1, 1, mem_indexed.2 rfl, rfl, rfl, rfl, ?_, rfl⟩
    exact .part (r := ⟨1, [3, 3], [[.var 0 0], [.var 1 0]], 1⟩) (f := 1) (u₁ := [7]) (w₁ := 1) (w₂ := 1) (mem_indexed.2 rfl) rfl rfl rfl (h7 _ 0 rfl)
      (.part (r := ⟨2, [], [[.t 8]], 1⟩) (f := 1) (u₁ := [8]) (w₁ := 1) (w₂ := 1) (mem_indexed.2 rfl) rfl rfl rfl (.term .nil)
        (.part (r := ⟨1, [3, 3], [[.var 0 0], [.var 1 0]], 1⟩) (f := 1) (u₁ := [7]) (u₂ := []) (w₁ := 1) (w₂ := 1) (mem_indexed.2 rfl) rfl rfl rfl (h7 _ 1 rfl) .nil))
  · refine ⟨_, _, 1, 1, mem_indexed.2 rfl, rfl, rfl, rfl, ?_, rfl⟩
    exact .part (r := ⟨1, [3, 3], [[.var 0 0], [.var 1 0]], 1⟩) (f := 1) (u₁ := [7]) (w₁ := 1) (w₂ := 1) (mem_indexed.2 rfl) rfl rfl rfl (h7 _ 0 rfl)
      (.part (r := ⟨2, [], [[.t 8]], 1⟩) (f := 1) (u₁ := [8]) (w₁ := 1) (w₂ := 1) (mem_indexed.2 rfl) rfl rfl rfl (.term .nil)
        (.part (r := ⟨1, [3, 3], [[.var 1 0], [.var 0 0]], 1⟩) (f := 1) (u₁ := [7]) (u₂ := []) (w₁ := 1) (w₂ := 1) (mem_indexed.2 rfl) rfl rfl rfl (h7 _ 0 rfl) .nil))

open C45Example in
/-- `toderiv` returns the derivation for the first word and `None` for the second one. -/
example : (toderiv rules (compWord 0 0 good)).map (Option.map (List.map Prod.fst)) = some (some [[], [0], [0, 0], [0, 1], [1]]) ∧
    (toderiv rules (compWord 0 0 bad)).map Option.isNone = some true := by
  decide +kernel

end Rustomata.Props
