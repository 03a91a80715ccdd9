import Verif.Proofs.CsCowDeriv
import Verif.Props.CsToderiv

/-!
# Property C93: cow derivations and `toderiv`
-/

namespace Rustomata.Props
open Spec CowNode

/-- The full claim **C93**: for the bracket words of derivations of the context-free approximation of an LCFRS, `to_mcfg_deriv` of the cow derivation returns the same as
`toderiv`. -/
def C93_claim : Prop :=
  ∀ (N T : Type) (factorize : Nat → Nat → List Nat) (rules : List (PMCFGRule N T Nat)) (init : N), IsLcfrs rules init → Factorizes factorize →
    (∀ r ∈ rules, ∀ A ∈ r.tail, ∃ r' ∈ rules, r'.head = A) →
    ∀ rid P u w, CompDerives factorize (indexed rules) init 0 rid P u w →
      ∃ t, CowNode.new (compWord rid 0 P) = some t ∧ ∃ fuel₀, ∀ fuel, fuel₀ ≤ fuel → toDeriv rules fuel t = toderiv rules (compWord rid 0 P)

/-- **C93** is violated by nonterminals without components to the left of others: for `S → [x₁,₀] (B, A)`, `A → [7] ()`, `B → [] ()`, there is no tree for `B` and
`to_mcfg_deriv` panics at `trees[0]` of the empty vector, whereas `toderiv` returns. -/
theorem C93_no_components_violated : ¬ C93_claim := by
  intro h
  let rules : List (PMCFGRule Nat Nat Nat) := [⟨0, [2, 1], [[.var 1 0]], 1⟩, ⟨1, [], [[.t 7]], 1⟩, ⟨2, [], [], 1⟩]
  have hl : IsLcfrs rules 0 := by
    refine ⟨fun A => if A = 0 ∨ A = 1 then some 1 else if A = 2 then some 0 else none, fun A f => ?_, rfl, fun r hr => ?_⟩
    · match A with
      | 0 => simp [rules, eq_comm]
      | 1 => simp [rules, eq_comm]
      | 2 => simp [rules, eq_comm]
      | A + 3 => simp [rules]
    · simp only [rules, List.mem_cons, List.not_mem_nil, or_false] at hr
      rcases hr with rfl | rfl | rfl
      · refine ⟨by decide, fun i j => ?_⟩
        match i with
        | 0 => simp [varsOf]
        | 1 => simp [varsOf]
        | i + 2 => simp [varsOf]
      · exact ⟨by decide, fun i j => by simp [varsOf]⟩
      · exact ⟨by decide, fun i j => by simp [varsOf]⟩
  have hd : CompDerives C45Example.factorize (indexed rules) 0 0 0 (.part 1 0 1 (.term .nil) .nil) [7] 1 :=
    ⟨_, _, 1, 1, mem_indexed.2 rfl, rfl, rfl, rfl,
      .part (r := ⟨1, [], [[.t 7]], 1⟩) (f := 1) (u₁ := [7]) (u₂ := []) (w₁ := 1) (w₂ := 1) (mem_indexed.2 rfl) rfl rfl rfl (.term .nil) .nil, rfl⟩
  obtain ⟨t, h1, fuel₀, h2⟩ := h Nat Nat C45Example.factorize rules 0 hl C45Example.factorizes (by decide) 0 (.part 1 0 1 (.term .nil) .nil) [7] 1 hd
  cases h1
  have h3 := h2 (fuel₀ + 2) (by omega)
  have h4 : toDeriv rules (fuel₀ + 2) (.node 0 [((1, 0), .node 1 [])]) = none := rfl
  have h5 : (toderiv rules (compWord 0 0 (.part 1 0 1 (.term .nil) .nil))).isSome = true := rfl
  have h6 : toDeriv rules (fuel₀ + 2) (.node 0 [((1, 0), .node 1 [])]) = toderiv rules (compWord 0 0 (.part 1 0 1 (.term .nil) .nil)) := h3
  rw [← h6, h4] at h5
  cases h5

/-- **C93** `is_consistent` terminates for all cow derivations and returns `true` iff all nodes at one position have the same rule. -/
theorem C93_consistent (t : CowNode) {fuel : Nat} (hf : sizeOf t < fuel) : ∃ b, isConsistent fuel t = some b ∧ (b = true ↔ CowConsistent [t]) :=
  isConsistentVec_spec fuel (sizeOf t) [t] (cowHeight_single t) hf

section
variable {R : Type _} {rules : List R}

/-- **C93** `to_mcfg_deriv` returns the derivation with the rules of the nodes, if all nodes at one position have the same rule, if all rules exist, and if there
are no gaps. -/
theorem C93_deriv {t : CowNode} (h1 : CowConsistent [t]) (h2 : CowDense [t]) (h3 : CowBelow rules.length [t]) {fuel : Nat} (hf : sizeOf t < fuel) :
    ∃ m : GornTree R, toDeriv rules fuel t = some (some m) ∧ m.Sorted ∧ ∀ p, m.get p = cowRule rules [t] p := by
  obtain ⟨⟨b, m⟩, g1, g2⟩ := cowsToDeriv_spec (rules := rules) fuel (sizeOf t) [t] (cowHeight_single t) hf (by simp) (fun p _ => ⟨h3 p, h2 p⟩) [] []
  cases b with
  | false => exact absurd h1 (cowsToDeriv_false fuel [t] [] [] _ g1 rfl)
  | true =>
    obtain ⟨g3, g4, _⟩ := g2 rfl
    exact ⟨m, by simp [toDeriv, g1], g3 (by simp [GornTree.Sorted]), fun p => by simpa [GornTree.get] using g4 p⟩

/-- **C93** If `to_mcfg_deriv` returns a derivation, then all nodes at one position have the same rule, all rules exist, and there are no gaps. Hence, it panics for
consistent cow derivations with gaps or with unknown rules. -/
theorem C93_returns {t : CowNode} {fuel : Nat} {m : GornTree R} (h : toDeriv rules fuel t = some (some m)) :
    CowConsistent [t] ∧ CowDense [t] ∧ CowBelow rules.length [t] := by
  unfold toDeriv at h
  obtain ⟨⟨b, m'⟩, h1, h2⟩ := Option.map_eq_some_iff.1 h
  cases b with
  | false => simp at h2
  | true => exact (cowsToDeriv_true fuel [t] [] [] _ h1 rfl).2

/-- **C93** If `to_mcfg_deriv` returns `None`, then two nodes at one position have different rules. -/
theorem C93_none {t : CowNode} {fuel : Nat} (h : toDeriv rules fuel t = some none) : ¬ CowConsistent [t] := by
  unfold toDeriv at h
  obtain ⟨⟨b, m'⟩, h1, h2⟩ := Option.map_eq_some_iff.1 h
  cases b with
  | false => exact cowsToDeriv_false fuel [t] [] [] _ h1 rfl
  | true => simp at h2

/-- **C93** `to_mcfg_deriv` panics for consistent cow derivations with gaps or with unknown rules. -/
theorem C93_panic {t : CowNode} (h : CowConsistent [t]) (hg : ¬ (CowDense [t] ∧ CowBelow rules.length [t])) (fuel : Nat) : toDeriv rules fuel t = none := by
  cases hd : toDeriv rules fuel t with
  | none => rfl
  | some x =>
    cases x with
    | none => exact absurd h (C93_none hd)
    | some m => exact absurd (C93_returns hd).2 hg

/-- **C93** Conversely, if two nodes at one position have different rules, then `to_mcfg_deriv` returns `None`, provided that above the first disagreement, there are
no gaps and no unknown rules. -/
theorem C93_inconsistent {t : CowNode} (h : ¬ CowConsistent [t])
    (hs : ∀ p, (∀ q, q <+: p → CowAgree [t] q) →
      (∀ t' ∈ cowNodes [t] p, t'.content < rules.length) ∧ ∀ i i', i' < i → cowNodes [t] (p ++ [i]) ≠ [] → cowNodes [t] (p ++ [i']) ≠ [])
    {fuel : Nat} (hf : sizeOf t < fuel) : toDeriv rules fuel t = some none := by
  obtain ⟨⟨b, m⟩, g1, _⟩ := cowsToDeriv_spec (rules := rules) fuel (sizeOf t) [t] (cowHeight_single t) hf (by simp) hs [] []
  cases b with
  | false => simp [toDeriv, g1]
  | true => exact absurd (cowsToDeriv_true fuel [t] [] [] _ g1 rfl).2.1 h

/-- **C93** For all bracket words of components: the cow derivation exists, and it is consistent iff `toderiv` does not return `None`. -/
theorem C93_word (rules : List R) (rid c : Nat) (P : Parts) : ∃ t, CowNode.new (compWord rid c P) = some t ∧ ∀ fuel, sizeOf t < fuel →
    (isConsistent fuel t = some true ∧ toderiv rules (compWord rid c P) ≠ some none) ∨ (isConsistent fuel t = some false ∧ toderiv rules (compWord rid c P) = some none) := by
  refine ⟨_, CowNode.new_compWord _ _ _, fun fuel hf => ?_⟩
  obtain ⟨b, h1, h2⟩ := C93_consistent _ hf
  rw [cowConsistent_word] at h2
  cases b with
  | true =>
    refine .inl ⟨h1, ?_⟩
    rw [Ne, toderiv_none]
    exact fun h => h (h2.1 rfl)
  | false =>
    refine .inr ⟨h1, ?_⟩
    rw [toderiv_none]
    exact fun h => by simp [h] at h2

end

/-- **C93** for grammars in which each rule has a component and each nonterminal of a right-hand side has a rule: for the bracket words of derivations of the
context-free approximation, `to_mcfg_deriv` of the cow derivation returns the same as `toderiv`. -/
theorem C93_same_partial {N T W : Type _} [Monoid W] {factorize : W → Nat → List W} {rules : List (PMCFGRule N T W)} {init : N} (hl : IsLcfrs rules init)
    (hne : ∀ r ∈ rules, r.composition ≠ []) (hcl : ∀ r ∈ rules, ∀ A ∈ r.tail, ∃ r' ∈ rules, r'.head = A)
    {rid : Nat} {P : Parts} {u : List T} {w : W} (h : CompDerives factorize (indexed rules) init 0 rid P u w) :
    ∃ t, CowNode.new (compWord rid 0 P) = some t ∧ ∀ fuel, sizeOf t < fuel → toDeriv rules fuel t = toderiv rules (compWord rid 0 P) := by
  refine ⟨_, CowNode.new_compWord _ _ _, fun fuel hf => ?_⟩
  have hs := cowSafe_word hl hne hcl h
  by_cases hc : Consistent rid P
  · have hc' := cowConsistent_word.2 hc
    have hb : CowBelow rules.length [cowOf rid P] := fun p => (hs p fun q _ => hc' q).1
    obtain ⟨m, m1, m2, m3⟩ := C93_deriv (rules := rules) hc' (fun p => (hs p fun q _ => hc' q).2) hb hf
    obtain ⟨m', n1, n2, n3⟩ := toderiv_some (rules := rules) (c := 0) hc fun x hx => by
      obtain ⟨t, t1, t2⟩ := (cowNodes_visits x.1 rid P).2 hx
      rw [← t2]
      exact hb _ t t1
    rw [m1, n1]
    refine congrArg (fun x => some (some x)) (gorn_ext m2 n2 fun p => Option.ext fun r => ?_)
    rw [n3, m3]
    unfold cowRule
    constructor
    · intro hr
      obtain ⟨t, t1, t2⟩ := Option.bind_eq_some_iff.1 hr
      exact ⟨_, (cowNodes_visits p rid P).1 ⟨t, List.mem_of_mem_head? t1, rfl⟩, t2⟩
    · rintro ⟨rid', h1, h2⟩
      obtain ⟨t, t1, t2⟩ := (cowNodes_visits p rid P).2 h1
      obtain ⟨t', ht'⟩ := Option.isSome_iff_exists.1 (List.isSome_head?.2 (List.ne_nil_of_mem t1))
      rw [ht']
      have := hc' p t' (List.mem_of_mem_head? ht') t t1
      simp [this, t2, h2]
  · rw [toderiv_none.2 hc, C93_inconsistent (fun h => hc (cowConsistent_word.1 h)) hs hf]

open C45Example in
/-- The derivation for the first word and `None` for the second one. -/
example : (((CowNode.new (compWord 0 0 good)).bind (toDeriv rules 9)).map (Option.map (List.map Prod.fst))) = some (some [[], [0], [0, 0], [0, 1], [1]]) ∧
    (CowNode.new (compWord 0 0 good)).bind (isConsistent 9) = some true ∧
    ((CowNode.new (compWord 0 0 bad)).bind (toDeriv rules 9)).map Option.isNone = some true ∧ (CowNode.new (compWord 0 0 bad)).bind (isConsistent 9) = some false := by
  decide +kernel

/-- A cow derivation with two nodes at one position satisfies the hypotheses of `C93_deriv`. -/
example : CowConsistent [.node 0 [((0, 0), .node 1 []), ((0, 1), .node 1 [])]] ∧ CowDense [.node 0 [((0, 0), .node 1 []), ((0, 1), .node 1 [])]] ∧
    CowBelow 2 [.node 0 [((0, 0), .node 1 []), ((0, 1), .node 1 [])]] := by
  have h : ∃ m : GornTree Nat, toDeriv [10, 11] 5 (.node 0 [((0, 0), .node 1 []), ((0, 1), .node 1 [])]) = some (some m) := ⟨[([], 10), ([0], 11)], by decide +kernel⟩
  obtain ⟨m, h⟩ := h
  exact C93_returns h

/-- The nodes at a position with different rules. -/
example : ¬ CowConsistent [.node 0 [((0, 0), .node 1 []), ((0, 1), .node 0 [])]] :=
  C93_none (rules := [10, 11]) (fuel := 5) (by decide +kernel)

end Rustomata.Props
