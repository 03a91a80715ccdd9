import Verif.Spec.LcfrsNew
import Verif.Props.Pmcfg

/-!
# C35: the results of `Lcfrs::new` for arbitrary rules
-/

namespace Rustomata.Props
open Spec

variable {N T W : Type _} [DecidableEq N]

theorem checkFanouts_none {rules : List (PMCFGRule N T W)} {fanouts : AMap N Nat} (hf : readFanouts rules = some fanouts) (r : PMCFGRule N T W) :
    checkFanouts fanouts r = none ↔ ∃ A ∈ r.tail, ∀ r' ∈ rules, r'.head ≠ A := by
  rw [checkFanouts, Option.map_eq_none_iff, mapM_none_iff]
  refine exists_congr fun A => and_congr Iff.rfl ?_
  constructor
  · intro h r' hr' e
    have := (readFanouts_some hf A _).mpr ⟨r', hr', e, rfl⟩
    rw [h] at this
    cases this
  · intro h
    cases hA : fanouts.get A with
    | none => rfl
    | some f =>
      obtain ⟨r', hr', e, -⟩ := (readFanouts_some hf A f).mp hA
      exact absurd e (h r' hr')

theorem checkFanouts_true {rules : List (PMCFGRule N T W)} {fanouts : AMap N Nat} (hf : readFanouts rules = some fanouts) (r : PMCFGRule N T W) :
    checkFanouts fanouts r = some true ↔ AcceptedRule rules r := by
  have hfan := readFanouts_some hf
  by_cases hall : ∀ A ∈ r.tail, ∃ r' ∈ rules, r'.head = A
  · have hfs : ∃ fs, r.tail.mapM (fun nt => fanouts.get nt) = some fs := by
      cases h : r.tail.mapM (fun nt => fanouts.get nt) with
      | some fs => exact ⟨fs, rfl⟩
      | none =>
        obtain ⟨A, hA, hn⟩ := mapM_none_iff.1 h
        obtain ⟨r', hr', he⟩ := hall A hA
        have := (hfan A _).2 ⟨r', hr', he, rfl⟩
        rw [hn] at this; cases this
    obtain ⟨fs, hfs⟩ := hfs
    have hg := mapM_getElem? hfs
    simp only [checkFanouts, hfs, Option.map_some, Option.some_inj]
    rw [checkComposition_iff, AcceptedRule]
    have hlast : fs.getLast? = r.tail.getLast?.bind fun nt => fanouts.get nt := by
      rw [List.getLast?_eq_getElem?, hg, List.getLast?_eq_getElem?, mapM_length hfs]
    have hzero : ∀ A, fanouts.get A ≠ some 0 ↔ ∀ r' ∈ rules, r'.head = A → r'.composition ≠ [] := by
      intro A
      rw [ne_eq, hfan]
      constructor
      · intro h r' hr' he hc; exact h ⟨r', hr', he, by simp [hc]⟩
      · rintro h ⟨r', hr', he, hc⟩; exact h r' hr' he (List.length_eq_zero_iff.1 hc)
    have hlast' : fs.getLast? ≠ some 0 ↔ ∀ A, r.tail.getLast? = some A → ∀ r' ∈ rules, r'.head = A → r'.composition ≠ [] := by
      simp only [← hzero]
      rw [hlast]; cases r.tail.getLast? <;> simp
    have hij : ∀ i j : Nat, (∃ f, fs[i]? = some f ∧ j < f) ↔ ∃ A, r.tail[i]? = some A ∧ ∃ r' ∈ rules, r'.head = A ∧ j < r'.composition.length := by
      intro i j
      simp only [hg, Option.bind_eq_some_iff, hfan]
      constructor
      · rintro ⟨f, ⟨A, h1, r', h2, h3, rfl⟩, h4⟩; exact ⟨A, h1, r', h2, h3, h4⟩
      · rintro ⟨A, h1, r', h2, h3, h4⟩; exact ⟨_, ⟨A, h1, r', h2, h3, rfl⟩, h4⟩
    simp only [hij, hlast']
    exact ⟨fun h => ⟨hall, h⟩, fun h => h.2⟩
  · refine ⟨fun h => ?_, fun h => absurd h.1 hall⟩
    have hn : ∃ A ∈ r.tail, ∀ r' ∈ rules, r'.head ≠ A := by
      simp only [not_forall, not_exists, not_and] at hall
      obtain ⟨A, hA, hn⟩ := hall
      exact ⟨A, hA, hn⟩
    rw [(checkFanouts_none hf r).mpr hn] at h
    cases h

theorem oneFanout_iff {rules : List (PMCFGRule N T W)} : OneFanout rules ↔ readFanouts rules ≠ none := by
  rw [ne_eq, readFanouts_eq_none, OneFanout]
  simp only [not_exists, not_and, not_not]

/-- **C35, for arbitrary rules**: `Lcfrs::new` returns the grammar iff the fanouts are consistent, the initial nonterminal has fanout 1 and each rule is accepted. -/
theorem C35_accepts (rules : List (PMCFGRule N T W)) (init : N) (g : Lcfrs N T W) :
    Lcfrs.new rules init = some (some g) ↔ g = ⟨rules, init⟩ ∧ OneFanout rules ∧ StartsWithOne rules init ∧ ∀ r ∈ rules, AcceptedRule rules r := by
  rw [oneFanout_iff]
  unfold Lcfrs.new
  cases hf : readFanouts rules with
  | none => simp
  | some fanouts =>
    have hi : StartsWithOne rules init ↔ fanouts.get init = some 1 := (readFanouts_some hf init 1).symm
    simp only
    split
    · rename_i h
      refine ⟨by simp, fun h' => absurd (hi.mp h'.2.2.1) h⟩
    · rename_i h
      have ht := allPanicking_true (p := checkFanouts fanouts) (l := rules)
      simp only [checkFanouts_true hf] at ht
      rw [← ht]
      simp only [ne_eq, not_not] at h
      cases allPanicking (checkFanouts fanouts) rules with
      | none => simp
      | some b => cases b <;> simp [eq_comm, hi, h]

/-- **C35, for arbitrary rules**: `Lcfrs::new` panics iff the fanouts are consistent, the initial nonterminal has fanout 1, and the first rule that is not accepted has a nonterminal without
rules in its right-hand side. -/
theorem C35_panics (rules : List (PMCFGRule N T W)) (init : N) :
    Lcfrs.new rules init = none ↔ OneFanout rules ∧ StartsWithOne rules init ∧
      ∃ l₁ r l₂, rules = l₁ ++ r :: l₂ ∧ (∃ A ∈ r.tail, ∀ r' ∈ rules, r'.head ≠ A) ∧ ∀ r' ∈ l₁, AcceptedRule rules r' := by
  rw [oneFanout_iff]
  unfold Lcfrs.new
  cases hf : readFanouts rules with
  | none => simp
  | some fanouts =>
    have hi : StartsWithOne rules init ↔ fanouts.get init = some 1 := (readFanouts_some hf init 1).symm
    simp only
    split
    · rename_i h
      refine ⟨by simp, fun h' => absurd (hi.mp h'.2.1) h⟩
    · rename_i h
      have ht := allPanicking_none (p := checkFanouts fanouts) (l := rules)
      simp only [checkFanouts_true hf, checkFanouts_none hf] at ht
      rw [← ht]
      simp only [ne_eq, not_not] at h
      cases allPanicking (checkFanouts fanouts) rules with
      | none => simp [hi, h]
      | some b => cases b <;> simp

/-- Accepted rules form an LCFRS. -/
theorem C35_accepts_lcfrs (rules : List (PMCFGRule N T W)) (init : N) (h : Lcfrs.new rules init = some (some ⟨rules, init⟩)) : IsLcfrs rules init := by
  obtain ⟨-, h1, h2, h3⟩ := (C35_accepts rules init _).mp h
  exact (((C35_lcfrs_new_partial rules init fun r hr => (h3 r hr).1).2 _).mp h).2.1

/-- A rule with an unused nonterminal without rules: the rules form an LCFRS, but `Lcfrs::new` panics. -/
example : Lcfrs.new [(⟨0, [1], [[.t 7]], ()⟩ : PMCFGRule Nat Nat Unit)] 0 = none := rfl

/-- The first rule is not accepted, so that the second one is not reached. -/
example : Lcfrs.new [(⟨0, [], [[.var 0 0]], ()⟩ : PMCFGRule Nat Nat Unit), ⟨0, [1], [[.t 7]], ()⟩] 0 = some none := rfl

/-- Rules that are accepted. -/
example : ∀ r ∈ [(⟨0, [1], [[.var 0 0]], ()⟩ : PMCFGRule Nat Nat Unit), ⟨1, [], [[.t 7]], ()⟩], AcceptedRule [⟨0, [1], [[.var 0 0]], ()⟩, ⟨1, [], [[.t 7]], ()⟩] r :=
  ((C35_accepts _ 0 _).mp rfl).2.2.2

end Rustomata.Props
