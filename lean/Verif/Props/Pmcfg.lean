import Verif.Proofs.Lcfrs

/-!
# Properties of PMCFG, MCFG and LCFRS

Only property theorems and the examples that show their hypotheses to be satisfiable.
-/

namespace Rustomata.Props
open Rustomata Rustomata.Spec
variable {N T W : Type _}

/-! ### C26 -/

/-- **C26** `Mcfg::from_pmcfg` succeeds iff there is exactly one initial nonterminal and no rule uses a variable twice;
then the rules and the initial nonterminal are those of the given grammar. -/
theorem C26_mcfg_from_pmcfg (g : PMCFG N T W) (m : Mcfg N T W) :
    Mcfg.ofPmcfg g = some m ↔
      (∀ r ∈ g.rules, (varsOf r.composition).Nodup) ∧ g.initial = [m.initial] ∧ m.rules = g.rules := by
  have h : (g.rules.all fun r => checkLinear (Composition.vars r.composition) []) = true ↔
      ∀ r ∈ g.rules, (varsOf r.composition).Nodup := by
    simp [List.all_eq_true, checkLinear_iff, vars_eq]
  obtain ⟨mr, mi⟩ := m
  unfold Mcfg.ofPmcfg
  split
  · rename_i h'
    rw [h] at h'
    split <;> rename_i heq
    · simp [heq, h']; tauto
    · simp only [false_iff, reduceCtorEq]
      rintro ⟨_, he, _⟩; exact absurd he (heq _)
  · rename_i h'
    rw [h] at h'
    simp [h']

/-- The result is `None` otherwise. -/
theorem C26_mcfg_from_pmcfg_none (g : PMCFG N T W) :
    Mcfg.ofPmcfg g = none ↔ (∃ r ∈ g.rules, ¬ (varsOf r.composition).Nodup) ∨ g.initial.length ≠ 1 := by
  constructor
  · intro h
    by_contra hne
    simp only [not_or, not_exists, not_and, not_not] at hne
    obtain ⟨s, hs⟩ := List.length_eq_one_iff.1 hne.2
    have := (C26_mcfg_from_pmcfg g ⟨g.rules, s⟩).2 ⟨hne.1, hs, rfl⟩
    rw [h] at this; cases this
  · intro h
    cases hm : Mcfg.ofPmcfg g with
    | none => rfl
    | some m =>
      obtain ⟨h1, h2, _⟩ := (C26_mcfg_from_pmcfg g m).1 hm
      rcases h with ⟨r, hr, h⟩ | h
      · exact absurd (h1 r hr) h
      · simp [h2] at h

/-- Both cases occur. -/
example : (∃ m, Mcfg.ofPmcfg (⟨[0], [⟨0, [1], [[.var 0 0, .t 7, .var 0 1]], ()⟩]⟩ : PMCFG Nat Nat Unit) = some m) ∧
    Mcfg.ofPmcfg (⟨[0], [⟨0, [1], [[.var 0 0], [.var 0 0]], ()⟩]⟩ : PMCFG Nat Nat Unit) = none :=
  ⟨⟨_, rfl⟩, rfl⟩

/-! ### C35 -/

section C35
variable [DecidableEq N]

/-- The full claim **C35**: `Lcfrs::new` returns the grammar if the rules form an LCFRS, and `None` otherwise. -/
def C35_claim : Prop :=
  ∀ (N T W : Type) (_ : DecidableEq N) (rules : List (PMCFGRule N T W)) (init : N),
    (IsLcfrs rules init → Lcfrs.new rules init = some (some ⟨rules, init⟩)) ∧
    (¬ IsLcfrs rules init → Lcfrs.new rules init = some none)

/-- **C35 is violated**: a rule whose last nonterminal has fanout 0 is rejected. -/
theorem C35_lcfrs_new_violated : ¬ C35_claim := by
  intro h
  have := (h Nat Nat Unit inferInstance [⟨0, [1], [[.t 7]], ()⟩, ⟨1, [], [], ()⟩] 0).1
    ⟨fun A => if A = 0 then some 1 else if A = 1 then some 0 else none, by
      intro A f
      by_cases h0 : A = 0
      · subst h0; simp
      · by_cases h1 : A = 1
        · subst h1; simp
        · simp [h0, h1, Ne.symm h0, Ne.symm h1], by simp, by
      intro r hr
      simp only [List.mem_cons, List.not_mem_nil, or_false] at hr
      rcases hr with rfl | rfl
      · refine ⟨by simp [varsOf], fun i j => ?_⟩
        simp only [varsOf]
        constructor
        · simp
        · rintro ⟨A, f, h1, h2, h3⟩
          rcases i with _ | i <;> simp at h1
          subst h1
          simp at h2
          omega
      · exact ⟨by simp [varsOf], fun i j => by simp [varsOf]⟩⟩
  revert this
  simp [Lcfrs.new, readFanouts, readFanoutsLoop, AMap.get, AMap.set, allPanicking, checkFanouts, checkComposition,
    Composition.vars, componentVars]

/-- **C35 is violated**: if a nonterminal of a right-hand side has no rule, then `Lcfrs::new` panics (although it is
documented to return `None` for inconsistent rules). -/
theorem C35_lcfrs_new_panic_violated :
    Lcfrs.new [(⟨0, [1], [[.var 0 0]], ()⟩ : PMCFGRule Nat Nat Unit)] 0 = none ∧
    ¬ IsLcfrs [(⟨0, [1], [[.var 0 0]], ()⟩ : PMCFGRule Nat Nat Unit)] 0 := by
  refine ⟨rfl, ?_⟩
  rintro ⟨f, h1, h2, h3⟩
  have h4 := (h3 _ (List.mem_singleton.2 rfl)).2 0 0
  simp only [varsOf] at h4
  obtain ⟨A, n, hA, hn, _⟩ := h4.1 (by simp)
  simp at hA
  subst hA
  obtain ⟨r, hr, hr', _⟩ := (h1 _ _).1 hn
  simp at hr
  subst hr
  simp at hr'

/-- **C35, partial**: if each nonterminal of a right-hand side has a rule, then `Lcfrs::new` does not panic, and it
succeeds exactly for the LCFRS where no right-hand side ends with a nonterminal of fanout 0. -/
theorem C35_lcfrs_new_partial (rules : List (PMCFGRule N T W)) (init : N)
    (hrules : ∀ r ∈ rules, ∀ A ∈ r.tail, ∃ r' ∈ rules, r'.head = A) :
    Lcfrs.new rules init ≠ none ∧
    ∀ g, Lcfrs.new rules init = some (some g) ↔ g = ⟨rules, init⟩ ∧ IsLcfrs rules init ∧
      ∀ r ∈ rules, ∀ A, r.tail.getLast? = some A → ∀ r' ∈ rules, r'.head = A → r'.composition ≠ [] := by
  have hdef : ∀ fanouts, readFanouts rules = some fanouts → ∀ r ∈ rules, ∃ fs, r.tail.mapM (fun nt => fanouts.get nt) = some fs := by
    intro fanouts hf r hr
    cases h : r.tail.mapM (fun nt => fanouts.get nt) with
    | some fs => exact ⟨fs, rfl⟩
    | none =>
      obtain ⟨A, hA, hn⟩ := mapM_none_iff.1 h
      obtain ⟨r', hr', he⟩ := hrules r hr A hA
      have := (readFanouts_some hf A _).2 ⟨r', hr', he, rfl⟩
      rw [hn] at this; cases this
  constructor
  · unfold Lcfrs.new
    cases hf : readFanouts rules with
    | none => simp
    | some fanouts =>
      simp only
      split
      · simp
      · cases ha : allPanicking (checkFanouts fanouts) rules with
        | some b => cases b <;> simp
        | none =>
          obtain ⟨l₁, r, l₂, he, hn, _⟩ := allPanicking_none.1 ha
          obtain ⟨fs, hfs⟩ := hdef fanouts hf r (by simp [he])
          simp [checkFanouts, hfs] at hn
  · intro g
    unfold Lcfrs.new
    cases hf : readFanouts rules with
    | none =>
      obtain ⟨r, hr, r', hr', he, hne⟩ := readFanouts_eq_none.1 hf
      refine ⟨by simp, ?_⟩
      rintro ⟨_, ⟨F, hF, _⟩, _⟩
      have h1 := (hF r.head _).2 ⟨r, hr, rfl, rfl⟩
      have h2 := (hF r.head _).2 ⟨r', hr', he.symm, rfl⟩
      rw [h1] at h2
      exact absurd (by simpa using h2) hne
    | some fanouts =>
      have hfan := readFanouts_some hf
      simp only
      split
      · rename_i h1
        refine ⟨by simp, ?_⟩
        rintro ⟨_, ⟨F, hF, hi, _⟩, _⟩
        exact absurd ((hfan init 1).2 ((hF init 1).1 hi)) h1
      · rename_i h1
        simp only [ne_eq, not_not] at h1
        have key : allPanicking (checkFanouts fanouts) rules = some true ↔ IsLcfrs rules init ∧
            ∀ r ∈ rules, ∀ A, r.tail.getLast? = some A → ∀ r' ∈ rules, r'.head = A → r'.composition ≠ [] := by
          rw [allPanicking_true]
          have hcheck : ∀ r ∈ rules, checkFanouts fanouts r = some true ↔ (varsOf r.composition).Nodup ∧
              (∀ i j, (i, j) ∈ varsOf r.composition ↔ ∃ A f, r.tail[i]? = some A ∧ fanouts.get A = some f ∧ j < f) ∧
              ∀ A, r.tail.getLast? = some A → fanouts.get A ≠ some 0 := by
            intro r hr
            obtain ⟨fs, hfs⟩ := hdef fanouts hf r hr
            have hg := mapM_getElem? hfs
            simp only [checkFanouts, hfs, Option.map_some, Option.some_inj]
            rw [checkComposition_iff]
            have hlast : fs.getLast? = r.tail.getLast?.bind fun nt => fanouts.get nt := by
              rw [List.getLast?_eq_getElem?, hg, List.getLast?_eq_getElem?, mapM_length hfs]
            have hlast' : fs.getLast? ≠ some 0 ↔ ∀ A, r.tail.getLast? = some A → fanouts.get A ≠ some 0 := by
              rw [hlast]; cases r.tail.getLast? <;> simp
            rw [hlast']
            have hij : ∀ i j : Nat, (∃ f, fs[i]? = some f ∧ j < f) ↔ ∃ A f, r.tail[i]? = some A ∧ fanouts.get A = some f ∧ j < f := by
              intro i j
              simp only [hg, Option.bind_eq_some_iff]
              constructor
              · rintro ⟨f, ⟨A, h1, h2⟩, h3⟩; exact ⟨A, f, h1, h2, h3⟩
              · rintro ⟨A, f, h1, h2, h3⟩; exact ⟨f, ⟨A, h1, h2⟩, h3⟩
            simp only [hij]
          have hzero : ∀ A, fanouts.get A ≠ some 0 ↔ ∀ r' ∈ rules, r'.head = A → r'.composition ≠ [] := by
            intro A
            rw [ne_eq, hfan]
            constructor
            · intro h r' hr' he hc; exact h ⟨r', hr', he, by simp [hc]⟩
            · rintro h ⟨r', hr', he, hc⟩; exact h r' hr' he (List.length_eq_zero_iff.1 hc)
          constructor
          · intro h
            refine ⟨⟨fanouts.get, hfan, h1, fun r hr => ?_⟩, fun r hr A hA => ?_⟩
            · have := (hcheck r hr).1 (h r hr)
              exact ⟨this.1, this.2.1⟩
            · exact (hzero A).1 (((hcheck r hr).1 (h r hr)).2.2 A hA)
          · rintro ⟨⟨F, hF, hi, h2⟩, h3⟩ r hr
            have hFf : F = fanouts.get := by
              funext A
              cases hA : fanouts.get A with
              | some f => rw [hfan, ← hF] at hA; exact hA
              | none =>
                cases hA' : F A with
                | none => rfl
                | some f => rw [hF, ← hfan, hA] at hA'; cases hA'
            subst hFf
            exact (hcheck r hr).2 ⟨(h2 r hr).1, (h2 r hr).2, fun A hA => (hzero A).2 (h3 r hr A hA)⟩
        rw [← key]
        cases allPanicking (checkFanouts fanouts) rules with
        | none => simp
        | some b => cases b <;> simp [eq_comm]

/-- **C35, partial**: the claim without exception, if each nonterminal of a right-hand side has a rule and no rule has
fanout 0. -/
theorem C35_lcfrs_new_nonzero_partial (rules : List (PMCFGRule N T W)) (init : N)
    (hrules : ∀ r ∈ rules, ∀ A ∈ r.tail, ∃ r' ∈ rules, r'.head = A) (hpos : ∀ r ∈ rules, r.composition ≠ []) :
    (IsLcfrs rules init → Lcfrs.new rules init = some (some ⟨rules, init⟩)) ∧
    (¬ IsLcfrs rules init → Lcfrs.new rules init = some none) := by
  obtain ⟨h1, h2⟩ := C35_lcfrs_new_partial rules init hrules
  refine ⟨fun h => (h2 _).2 ⟨rfl, h, fun r _ A _ r' hr' _ => hpos r' hr'⟩, fun h => ?_⟩
  cases hn : Lcfrs.new rules init with
  | none => exact absurd hn h1
  | some o =>
    cases o with
    | none => rfl
    | some g => exact absurd ((h2 g).1 hn).2.1 h

/-- Rules as in the hypotheses: `S → [x₀,₀ a x₀,₁] (A)`, `A → [b, c] ()`. -/
example :
    let rules : List (PMCFGRule Nat Nat Unit) := [⟨0, [1], [[.var 0 0, .t 7, .var 0 1]], ()⟩, ⟨1, [], [[.t 8], [.t 9]], ()⟩]
    (∀ r ∈ rules, ∀ A ∈ r.tail, ∃ r' ∈ rules, r'.head = A) ∧ (∀ r ∈ rules, r.composition ≠ []) ∧
    Lcfrs.new rules 0 = some (some ⟨rules, 0⟩) := by
  refine ⟨by decide, by decide, rfl⟩

end C35

/-! ### C37 -/

/-- **C37** `evaluate` returns exactly the tuple of words of the tree's term, as a composition without variables. -/
theorem C37_evaluate (m : GornTree (Composition T)) (c : Composition T) :
    evaluate m = some c ↔ ∃ v, c = v.map (·.map VarT.t) ∧ Eval m.get [] v := evaluate_iff m c

/-- **C37** `evaluate` panics exactly if the tree has no node at an address that is used, or a node
has fewer components than its parent uses. -/
theorem C37_evaluate_panics (m : GornTree (Composition T)) :
    evaluate m = none ↔ (∃ a, UsedAddr m.get a ∧ m.get a = none) ∨
      ∃ a c i j c', UsedAddr m.get a ∧ m.get a = some c ∧ (i, j) ∈ varsOf c ∧ m.get (a ++ [i]) = some c' ∧ c'.length ≤ j := by
  constructor
  · intro h
    unfold evaluate at h
    rw [evaluatePos_eq, Option.map_eq_none_iff] at h
    rcases evalN_none _ UsedAddr.root h with h | h | ⟨a, _, h2, h3⟩
    · exact Or.inl h
    · exact Or.inr h
    · rw [GornTree.get_depth (by simp at h3; omega)] at h2; cases h2
  · intro h
    cases hm : evaluate m with
    | none => rfl
    | some c =>
      obtain ⟨v, _, hv⟩ := (evaluate_iff m c).1 hm
      have := eval_not_missing hv
      rcases h with h | h
      · exact absurd h this.1
      · exact absurd h this.2

/-- **C37** Children that are not used do not matter. -/
theorem C37_evaluate_unused (m m' : GornTree (Composition T)) (h : ∀ a, UsedAddr m.get a → m.get a = m'.get a) :
    evaluate m = evaluate m' := by
  have aux : ∀ {a v}, Eval m.get a v → UsedAddr m.get a → Eval m'.get a v := by
    intro a v hv
    induction hv with
    | node hc _ hv ih =>
      intro hu
      exact .node (by rw [← h _ hu]; exact hc) (fun i j hij => ih i j hij (.child hu hc hij)) hv
  have used : ∀ {a}, UsedAddr m.get a → UsedAddr m'.get a := by
    intro a hu
    induction hu with
    | root => exact .root
    | child hu hc hij ih => exact .child ih (by rw [← h _ hu]; exact hc) hij
  cases hm : evaluate m with
  | some c =>
    obtain ⟨v, rfl, hv⟩ := (evaluate_iff m c).1 hm
    exact ((evaluate_iff m' _).2 ⟨v, rfl, aux hv .root⟩).symm
  | none =>
    refine ((C37_evaluate_panics m').2 ?_).symm
    rcases (C37_evaluate_panics m).1 hm with ⟨a, ha, hn⟩ | ⟨a, c, i, j, c', ha, h1, h2, h3, h4⟩
    · exact Or.inl ⟨a, used ha, by rw [← h a ha]; exact hn⟩
    · exact Or.inr ⟨a, c, i, j, c', used ha, by rw [← h a ha]; exact h1, h2, by rw [← h _ (.child ha h1 h2)]; exact h3, h4⟩

/-- **C37** For the Gorn tree of a derivation, `evaluate(&to_term(…).0)` is the tuple that is derived. -/
theorem C37_evaluate_derivation {rules : List (PMCFGRule N T W)} {A : N} {d : DTree (PMCFGRule N T W)} {v : List (List T)}
    (hd : Derives rules A d v) (m : GornTree (PMCFGRule N T W)) (hs : m.Sorted) (hm : ∀ a, m.get a = d.at? a) :
    evaluate (toTerm m).1 = some (v.map (·.map VarT.t)) := by
  refine (evaluate_iff _ _).2 ⟨v, rfl, derives_eval hd [] fun p => ?_⟩
  rw [(toTerm_get hs _).1, hm]; rfl

/-- A derivation and its tree; the third child of the root is not used. -/
example : evaluate (toTerm [([], (⟨0, [1, 1], [[.var 0 0, .t 5, .var 0 0]], ()⟩ : PMCFGRule Nat Nat Unit)), ([0], ⟨1, [], [[.t 6], []], ()⟩),
    ([1], ⟨1, [], [[.t 9], []], ()⟩)]).1 = some [[.t 6, .t 5, .t 6]] := by decide
example : evaluate [([], [[.var 0 0, .var 0 1]]), ([0], [[.t 6]])] = none := by decide

end Rustomata.Props
