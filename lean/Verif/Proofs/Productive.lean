import Verif.Spec.Productive
import Verif.Proofs.CsExtract
import Verif.Props.CsCycles

/-!
# Cycles of grammars whose weights are relative frequencies
-/

namespace Rustomata
open Spec Props

section
variable {N T W : Type _} {factorize : W → Nat → List W} {rules : List (PMCFGRule N T W)}

theorem variablePath_trans [Semigroup W] {A B D : N} {c j k : Nat} {v w : W} (h : VariablePath factorize rules A c B j v) (h' : VariablePath factorize rules B j D k w) :
    VariablePath factorize rules A c D k (v * w) := by
  induction h with
  | one h1 h2 h3 h4 => exact .cons h1 h2 h3 h4 h'
  | cons h1 h2 h3 h4 _ ih =>
    rw [mul_assoc]
    exact .cons h1 h2 h3 h4 (ih h')

end

variable {N T : Type _}

/-- A factor is one only for the weight one. -/
theorem logFactorize_one {w : NNReal} {n c : Nat} (h : (logFactorize w n)[c]? = some 1) : w = 1 := by
  have h := List.mem_of_getElem? h
  rw [logFactorize, List.mem_replicate] at h
  obtain ⟨hn, h⟩ := h
  have h1 := (C67_factorize w n).2 (by omega)
  rw [logFactorize, ← h, List.prod_replicate, one_pow] at h1
  exact h1.symm

/-- If the weight of a rule is one, then there is no other rule and no entry of the lexicon for its left-hand side. -/
theorem described_only [DecidableEq N] {l : List (DiscoDeriv N × List (List Bool) × NNReal)} {lex : List (T × N × NNReal)} (hl : ∀ x ∈ l, x.2.2 ≠ 0)
    (hlex : ∀ x ∈ lex, x.2.2 ≠ 0) {x : DiscoDeriv N × List (List Bool) × NNReal} (hx : x ∈ l) (h1 : x.2.2 / totalCount l lex x.1.lhs = 1) :
    (∀ y ∈ l, y.1.lhs = x.1.lhs → y = x) ∧ ∀ y ∈ lex, y.2.1 ≠ x.1.lhs := by
  have h0 : totalCount l lex x.1.lhs ≠ 0 := by
    intro h
    rw [h, div_zero] at h1
    exact zero_ne_one h1
  rw [div_eq_one_iff_eq h0] at h1
  have hfst : x.2.2 ≤ ((l.filter (·.1.lhs = x.1.lhs)).map (·.2.2)).sum :=
    List.single_le_sum (fun _ _ => zero_le) _ (List.mem_map.2 ⟨x, List.mem_filter.2 ⟨hx, by simp⟩, rfl⟩)
  constructor
  · intro y hy he
    by_contra hne
    have hsub : List.Subperm [x, y] (l.filter (·.1.lhs = x.1.lhs)) := by
      refine List.subperm_of_subset (by simp [Ne.symm hne]) fun z hz => ?_
      simp only [List.mem_cons, List.not_mem_nil, or_false] at hz
      rcases hz with rfl | rfl
      · exact List.mem_filter.2 ⟨hx, by simp⟩
      · exact List.mem_filter.2 ⟨hy, by simpa using he⟩
    obtain ⟨z, hz1, hz2⟩ := hsub
    have h2 : x.2.2 + y.2.2 ≤ ((l.filter (·.1.lhs = x.1.lhs)).map (·.2.2)).sum := by
      have e := (hz1.map (·.2.2)).sum_eq
      simp only [List.map_cons, List.map_nil, List.sum_cons, List.sum_nil, add_zero] at e
      rw [← e]
      exact (hz2.map _).sum_le_sum fun _ _ => zero_le
    have h3 : x.2.2 + y.2.2 ≤ x.2.2 := by
      conv_rhs => rw [h1]
      exact le_trans h2 (le_add_of_nonneg_right zero_le)
    exact hl y hy (by simpa using h3)
  · intro y hy he
    have h2 : y.2.2 ≤ ((lex.filter (·.2.1 = x.1.lhs)).map (·.2.2)).sum :=
      List.single_le_sum (fun _ _ => zero_le) _ (List.mem_map.2 ⟨y, List.mem_filter.2 ⟨hy, by simpa using he⟩, rfl⟩)
    have h3 : x.2.2 + y.2.2 ≤ x.2.2 := by
      conv_rhs => rw [h1]
      exact add_le_add hfst h2
    exact hlex y hy (by simpa using h3)

/-- In a grammar whose weights are relative frequencies, productive nonterminals have no cycles of the weight one. -/
theorem described_cycles [DecidableEq N] {l : List (DiscoDeriv N × List (List Bool) × NNReal)} {lex : List (T × N × NNReal)} {root : N} {g : Lcfrs N T NNReal}
    (h : DescribedBy l lex root g) (hl : ∀ x ∈ l, x.2.2 ≠ 0) (hlex : ∀ x ∈ lex, x.2.2 ≠ 0) {A : N} (hA : Productive l (fun A => ∃ x ∈ lex, x.2.1 = A) A) :
    ∀ c, ¬ VariablePath logFactorize g.rules A c A c 1 := by
  have hp := described_probabilities h hl hlex
  obtain ⟨_, R₁, R₂, hr, h1, h2⟩ := h
  have hle : ∀ r ∈ g.rules, ∀ (c : Nat) f, (logFactorize r.weight r.composition.length)[c]? = some f → f ≤ 1 := fun r hr c f hf =>
    ((C67_factors _ _ f (List.mem_of_getElem? hf)).1 (hp r hr).2).2
  have hrule : ∀ r ∈ g.rules, ∀ (c i : Nat) B, r.tail[i]? = some B → (logFactorize r.weight r.composition.length)[c]? = some 1 →
      ∃ x ∈ l, r.head = x.1.lhs ∧ B ∈ discoRhs x.1 ∧ (∀ y ∈ l, y.1.lhs = r.head → y = x) ∧ ∀ y ∈ lex, y.2.1 ≠ r.head := by
    intro r hr' c i B hB hf
    have hw := logFactorize_one hf
    rw [hr] at hr'
    rcases List.mem_append.1 hr' with hr' | hr'
    · obtain ⟨x, hx, e1, e2, _, e4⟩ := forall₂_mem_right h1 hr'
      obtain ⟨o1, o2⟩ := described_only hl hlex hx (e4 ▸ hw)
      exact ⟨x, hx, e1, e2 ▸ List.mem_of_getElem? hB, e1 ▸ o1, e1 ▸ o2⟩
    · obtain ⟨x, _, _, e2, _⟩ := forall₂_mem_right h2 hr'
      rw [e2] at hB
      cases hB
  -- the first step of a path of the weight one
  have hstep : ∀ {A D : N} {c k : Nat} {v : NNReal}, VariablePath logFactorize g.rules A c D k v → v = 1 →
      ∃ x ∈ l, x.1.lhs = A ∧ (∀ y ∈ l, y.1.lhs = A → y = x) ∧ (∀ y ∈ lex, y.2.1 ≠ A) ∧
        ∃ B ∈ discoRhs x.1, ∃ j, VariablePath logFactorize g.rules A c B j 1 ∧ ((B = D ∧ j = k) ∨ VariablePath logFactorize g.rules B j D k 1) := by
    intro A D c k v hpath hv
    cases hpath with
    | @one r _ i _ _ _ q1 q2 q3 q4 =>
      subst hv
      obtain ⟨x, hx, e1, e2, e3, e4⟩ := hrule _ q1 c i D q3 q4
      exact ⟨x, hx, e1.symm, e3, e4, D, e2, k, .one q1 q2 q3 q4, .inl ⟨rfl, rfl⟩⟩
    | @cons r _ i j _ B _ f v q1 q2 q3 q4 q5 =>
      have hf : f = 1 := by
        refine le_antisymm (hle _ q1 _ _ q4) ?_
        rw [← hv]
        exact mul_le_of_le_one_right zero_le (variablePath_le_one hp q5)
      subst hf
      rw [one_mul] at hv
      subst hv
      obtain ⟨x, hx, e1, e2, e3, e4⟩ := hrule _ q1 c i B q3 q4
      exact ⟨x, hx, e1.symm, e3, e4, B, e2, j, .one q1 q2 q3 q4, .inr q5⟩
  induction hA with
  | tag hA =>
    intro c hpath
    obtain ⟨_, _, _, _, e, _⟩ := hstep hpath rfl
    obtain ⟨y, hy, rfl⟩ := hA
    exact e y hy rfl
  | rule hx _ ih =>
    intro c hpath
    obtain ⟨x', hx', e1, e2, _, B, hB, j, p1, p2⟩ := hstep hpath rfl
    obtain rfl := e2 _ hx rfl
    rcases p2 with ⟨rfl, rfl⟩ | p2
    · exact ih _ hB _ p1
    · have := variablePath_trans p2 p1
      rw [mul_one] at this
      exact ih B hB j this

end Rustomata
