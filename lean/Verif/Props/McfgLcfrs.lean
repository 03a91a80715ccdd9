import Verif.Proofs.McfgLcfrs

/-!
# Properties of the conversion of MCFG to LCFRS

Only property theorems and the examples that show their hypotheses to be satisfiable.
-/

namespace Rustomata.Props
open Rustomata Rustomata.Spec
variable {N T W : Type _}

/-- The full claim **C36**: for a well-formed linear grammar for which the conversion neither panics nor runs on,
the result generates the same words with the same derivation weights and is non-deleting. -/
def C36_claim : Prop :=
  ∀ (N T W : Type) (_ : DecidableEq N) (_ : Monoid W) (g : Mcfg N T W) (n : Nat) (L : Lcfrs (N × List Nat) T W),
    WellFormed g.rules → (∀ r ∈ g.rules, (varsOf r.composition).Nodup) →
    Lcfrs.ofMcfgEnded g n → Lcfrs.ofMcfg g n = some L →
    (∀ w u, PGenerates [L.init] L.rules w u ↔ PGenerates [g.initial] g.rules w u) ∧ NonDeleting L.rules

/-- The grammar `S → [x₀,₀ x₁,₀ x₂,₀] (A, A, B)`, `A → [5] ()`, `B → [6] ()`. -/
def c36Grammar : Mcfg Nat Nat Nat :=
  ⟨[⟨0, [1, 1, 2], [[.var 0 0, .var 1 0, .var 2 0]], 1⟩, ⟨1, [], [[.t 5]], 1⟩, ⟨2, [], [[.t 6]], 1⟩], 0⟩

/-- **C36 is violated**: the second `A` in a right-hand side ends the search for nonterminals,
so that the rule for `B` is lost and `5 5 6` is not generated any more. -/
theorem C36_mcfg_lcfrs_violated : ¬ C36_claim := by
  intro h
  have hwf : WellFormed c36Grammar.rules := by
    intro r hr i j hij
    simp only [c36Grammar, List.mem_cons, List.not_mem_nil, or_false] at hr
    rcases hr with rfl | rfl | rfl
    · simp [varsOf] at hij
      rcases hij with ⟨rfl, rfl⟩ | ⟨rfl, rfl⟩ | ⟨rfl, rfl⟩ <;> refine ⟨_, rfl, ?_⟩ <;>
        simp [c36Grammar]
    · simp [varsOf] at hij
    · simp [varsOf] at hij
  have hlin : ∀ r ∈ c36Grammar.rules, (varsOf r.composition).Nodup := by decide
  obtain ⟨hlang, -⟩ := h Nat Nat Nat inferInstance inferInstance c36Grammar 5
    ⟨[⟨(0, []), [(1, []), (1, []), (2, [])], [[.var 0 0, .var 1 0, .var 2 0]], 1⟩, ⟨(1, []), [], [[.t 5]], 1⟩], (0, [])⟩
    hwf hlin (by intro F hF; cases hF; decide) rfl
  have h1 : PGenerates [c36Grammar.initial] c36Grammar.rules [5, 5, 6] 1 := by
    refine ⟨0, by simp [c36Grammar], .node ⟨0, [1, 1, 2], [[.var 0 0, .var 1 0, .var 2 0]], 1⟩
      [.node ⟨1, [], [[.t 5]], 1⟩ [], .node ⟨1, [], [[.t 5]], 1⟩ [], .node ⟨2, [], [[.t 6]], 1⟩ []], ?_, rfl⟩
    refine .node (r := ⟨0, [1, 1, 2], [[.var 0 0, .var 1 0, .var 2 0]], 1⟩) (args := [[[5]], [[5]], [[6]]]) (by decide) ?_ rfl
    have hA : Derives c36Grammar.rules 1 (.node ⟨1, [], [[.t 5]], 1⟩ []) [[5]] :=
      .node (r := ⟨1, [], [[.t 5]], 1⟩) (args := []) (by decide) .nil rfl
    have hB : Derives c36Grammar.rules 2 (.node ⟨2, [], [[.t 6]], 1⟩ []) [[6]] :=
      .node (r := ⟨2, [], [[.t 6]], 1⟩) (args := []) (by decide) .nil rfl
    exact .cons hA (.cons hA (.cons hB .nil))
  obtain ⟨S, hS, d, hd, _⟩ := (hlang [5, 5, 6] 1).2 h1
  simp at hS
  subst hS
  obtain ⟨r, hr, hA, ds, args, -, hch, -⟩ := derives_inv hd
  simp only [List.mem_cons, List.not_mem_nil, or_false] at hr
  rcases hr with rfl | rfl
  · cases hch with
    | cons _ h =>
      cases h with
      | cons _ h =>
        cases h with
        | cons h _ =>
          obtain ⟨r, hr, hB, -⟩ := derives_inv h
          simp only [List.mem_cons, List.not_mem_nil, or_false] at hr
          rcases hr with rfl | rfl <;> simp at hB
  · simp at hA

/-- **C36 needs well-formed grammars**: `S → [x₀,₀] (A)`, `A → [5, x₀,₀] ()`, where the second component of `A` has no value,
generates nothing; the result of the conversion generates `5`. -/
theorem C36_malformed_violated :
    let g : Mcfg Nat Nat Nat := ⟨[⟨0, [1], [[.var 0 0]], 1⟩, ⟨1, [], [[.t 5], [.var 0 0]], 1⟩], 0⟩
    ∃ L, Lcfrs.ofMcfgEnded g 3 ∧ Lcfrs.ofMcfg g 3 = some L ∧ PGenerates [L.init] L.rules [5] 1 ∧
      ¬ PGenerates [g.initial] g.rules [5] 1 := by
  refine ⟨⟨[⟨(0, []), [(1, [1])], [[.var 0 0]], 1⟩, ⟨(1, [1]), [], [[.t 5]], 1⟩], (0, [])⟩,
    by intro F hF; cases hF; decide, rfl, ?_, ?_⟩
  · refine ⟨(0, []), by simp, .node ⟨(0, []), [(1, [1])], [[.var 0 0]], 1⟩ [.node ⟨(1, [1]), [], [[.t 5]], 1⟩ []], ?_, rfl⟩
    exact .node (r := ⟨(0, []), [(1, [1])], [[.var 0 0]], 1⟩) (args := [[[5]]]) (by decide)
      (.cons (.node (r := ⟨(1, [1]), [], [[.t 5]], 1⟩) (args := []) (by decide) .nil rfl) .nil) rfl
  · rintro ⟨S, hS, d, hd, _⟩
    simp at hS
    subst hS
    obtain ⟨r, hr, hA, ds, args, -, hch, -⟩ := derives_inv hd
    simp only [List.mem_cons, List.not_mem_nil, or_false] at hr
    rcases hr with rfl | rfl
    · cases hch with
      | cons h _ =>
        obtain ⟨r, hr, hB, ds, args, -, hch, hc⟩ := derives_inv h
        simp only [List.mem_cons, List.not_mem_nil, or_false] at hr
        rcases hr with rfl | rfl
        · simp at hB
        · cases hch
          simp [compose, substAll, subst] at hc
    · simp at hA

variable [DecidableEq N]

/-- **C36, soundness**: whatever the search visited, each word of the result is a word of the original grammar, with a
derivation of the same weight. -/
theorem C36_sound [Monoid W] (g : Mcfg N T W) (n : Nat) (L : Lcfrs (N × List Nat) T W) (hL : Lcfrs.ofMcfg g n = some L)
    (hwf : WellFormed g.rules) (w : List T) (u : W) (h : PGenerates [L.init] L.rules w u) : PGenerates [g.initial] g.rules w u := by
  obtain ⟨F, hF, hi, hr, -⟩ := mem_ofMcfg hL
  obtain ⟨S, hS, d, hd, rfl⟩ := h
  rw [List.mem_singleton.1 hS, hi] at hd
  obtain ⟨d', v, hd', hv, hw⟩ := mcfg_sound hF hwf (fun r' hr' => by
    obtain ⟨x, _, r, hr, _, h⟩ := hr r' hr'; exact ⟨r, hr, x.2, h⟩) hd
  simp only [remFrom_empty] at hv
  exact ⟨g.initial, by simp, d', hv ▸ hd', hw⟩

/-- **C36, partial**: the language is preserved if the search did not stop at a duplicate, i.e. if its agenda is empty. -/
theorem C36_language_partial [Monoid W] (g : Mcfg N T W) (n : Nat) (L : Lcfrs (N × List Nat) T W) (hL : Lcfrs.ofMcfg g n = some L)
    (hwf : WellFormed g.rules) (hend : ∀ F, readFanouts g.rules = some F → (mcfgSearch g F n).2.agenda = []) (w : List T) (u : W) :
    PGenerates [L.init] L.rules w u ↔ PGenerates [g.initial] g.rules w u := by
  refine ⟨C36_sound g n L hL hwf w u, ?_⟩
  rintro ⟨S, hS, d, hd, rfl⟩
  rw [List.mem_singleton.1 hS] at hd
  obtain ⟨F, hF, hi, -, hr⟩ := mem_ofMcfg hL
  obtain ⟨h1, h2⟩ := mcfgSearch_closed g F n (hend F hF)
  obtain ⟨d', hd', hw⟩ := mcfg_complete hF h2 hr hd [] h1
  rw [remFrom_empty, ← hi] at hd'
  exact ⟨L.init, by simp, d', hd', hw⟩

/-- **C36, second half**: the result is non-deleting, whatever the search visited. -/
theorem C36_nondeleting (g : Mcfg N T W) (n : Nat) (L : Lcfrs (N × List Nat) T W) (hL : Lcfrs.ofMcfg g n = some L) : NonDeleting L.rules := by
  obtain ⟨F, hF, -, hr, -⟩ := mem_ofMcfg hL
  exact mcfg_nonDeleting hF fun r' hr' => by obtain ⟨x, _, r, hr, _, h⟩ := hr r' hr'; exact ⟨r, hr, x.2, h⟩

/-- The result of the conversion is linear if the original grammar is. -/
theorem C36_linear (g : Mcfg N T W) (n : Nat) (L : Lcfrs (N × List Nat) T W) (hL : Lcfrs.ofMcfg g n = some L)
    (hlin : ∀ r ∈ g.rules, (varsOf r.composition).Nodup) : ∀ r ∈ L.rules, (varsOf r.composition).Nodup := by
  obtain ⟨F, hF, -, hr, -⟩ := mem_ofMcfg hL
  intro r' hr'
  obtain ⟨x, _, r, hr, _, h⟩ := hr r' hr'
  exact toLcfrsRule_nodup h (hlin r hr)

/-- **C36, partial**: if the search did not stop at a duplicate, the result is an LCFRS in the sense of C35, though the
conversion does not call `Lcfrs::new`. -/
theorem C36_is_lcfrs_partial (g : Mcfg N T W) (n : Nat) (L : Lcfrs (N × List Nat) T W) (hL : Lcfrs.ofMcfg g n = some L)
    (hwf : WellFormed g.rules) (hlin : ∀ r ∈ g.rules, (varsOf r.composition).Nodup)
    (hinit : ∃ r ∈ g.rules, r.head = g.initial ∧ r.composition.length = 1)
    (hend : ∀ F, readFanouts g.rules = some F → (mcfgSearch g F n).2.agenda = []) : IsLcfrs L.rules L.init := by
  obtain ⟨F, hF, hi, hr, hr'⟩ := mem_ofMcfg hL
  obtain ⟨h1, h2⟩ := mcfgSearch_closed g F n (hend F hF)
  rw [hi]
  exact mcfg_isLcfrs hF hwf hlin hinit h1 h2 hr hr'

/-- **C36**: the conversion ends for every grammar. -/
theorem C36_terminates (g : Mcfg N T W) : ∃ n, Lcfrs.ofMcfgEnded g n := mcfgSearch_ends g

/-- **C36**: the conversion does not panic if the grammar is well-formed, each nonterminal has one fanout and each
nonterminal of a right-hand side has a rule. -/
theorem C36_no_panic (g : Mcfg N T W) (n : Nat) (hwf : WellFormed g.rules)
    (hfan : ∀ r ∈ g.rules, ∀ r' ∈ g.rules, r.head = r'.head → r.composition.length = r'.composition.length)
    (hdef : ∀ r ∈ g.rules, ∀ A ∈ r.tail, ∃ r' ∈ g.rules, r'.head = A) : ∃ L, Lcfrs.ofMcfg g n = some L := by
  unfold Lcfrs.ofMcfg
  cases hF : readFanouts g.rules with
  | none =>
    obtain ⟨r, hr, r', hr', h1, h2⟩ := readFanouts_eq_none.1 hF
    exact absurd (hfan r hr r' hr' h1) h2
  | some F =>
    simp only
    cases hm : (mcfgSearch g F n).1.mapM (lcfrsRulesFor g F) with
    | some rs => exact ⟨_, rfl⟩
    | none =>
      obtain ⟨x, _, hn⟩ := mapM_none_iff.1 hm
      obtain ⟨r, hr, hn⟩ := mapM_none_iff.1 hn
      have hr := (List.mem_filter.1 hr).1
      obtain ⟨r', hr'⟩ := toLcfrsRule_isSome hF (hdef r hr) (fun i j hij => by
        obtain ⟨A, hA, _⟩ := hwf r hr i j hij
        exact (List.getElem?_eq_some_iff.1 hA).1) x.2
      rw [hr'] at hn
      cases hn

/-- A deleting grammar that meets the hypotheses: `S → [x₀,₁] (A)`, `A → [x₀,₀ 5, x₀,₁ 6] (A)`, `A → [7, 8] ()`. -/
example :
    let g : Mcfg Nat Nat Nat := ⟨[⟨0, [1], [[.var 0 1]], 1⟩, ⟨1, [1], [[.var 0 0, .t 5], [.var 0 1, .t 6]], 2⟩, ⟨1, [], [[.t 7], [.t 8]], 3⟩], 0⟩
    WellFormed g.rules ∧ (∀ r ∈ g.rules, (varsOf r.composition).Nodup) ∧
      (∀ F, readFanouts g.rules = some F → (mcfgSearch g F 5).2.agenda = []) ∧
      Lcfrs.ofMcfg g 5 = some ⟨[⟨(0, []), [(1, [0])], [[.var 0 0]], 1⟩, ⟨(1, [0]), [(1, [0])], [[.var 0 0, .t 6]], 2⟩,
        ⟨(1, [0]), [], [[.t 8]], 3⟩], (0, [])⟩ := by
  refine ⟨?_, by decide, by intro F hF; cases hF; decide, rfl⟩
  intro r hr i j hij
  simp only [List.mem_cons, List.not_mem_nil, or_false] at hr
  rcases hr with rfl | rfl | rfl
  · simp [varsOf] at hij
    obtain ⟨rfl, rfl⟩ := hij
    exact ⟨1, rfl, by simp⟩
  · simp [varsOf] at hij
    rcases hij with ⟨rfl, rfl⟩ | ⟨rfl, rfl⟩ <;> exact ⟨1, rfl, by simp⟩
  · simp [varsOf] at hij

end Rustomata.Props
