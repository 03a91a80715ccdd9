import Verif.Proofs.CsUseful

/-!
# Property C40: the rule filter of the Chomsky-Schützenberger parser
-/

namespace Rustomata.Props
open Spec

section
variable {N T W : Type _} [DecidableEq N] [DecidableEq T] {order : Nat → List Nat → List Nat} {rules : List (PMCFGRule N T W)} {init : N} {b : RuleMaskBuilder T}

/-- **C40** The filter is constructed without a panic if no component is empty and the initial nonterminal has a rule. -/
theorem C40_new_total (order : Nat → List Nat → List Nat) (h : ∀ r ∈ rules, ∀ c ∈ r.composition, c ≠ []) (hi : ∃ r ∈ rules, r.head = init) :
    ∃ b, RuleMaskBuilder.new order rules init = some b := maskNew_total order h hi

/-- **C40** The mask is computed without a panic for all words. For words over which the initial nonterminal is productive, the productions of a rule (those of the
binarised grammar, by position) are kept iff all nonterminals of the right-hand side derive tuples over the terminals of the word and the head is reachable by such
rules. -/
theorem C40_mask [One W] (ho : HashOrder order) (hg : ParserGrammar rules init) (hb : RuleMaskBuilder.new order rules init = some b) (word : List T)
    (hp : DerivesOver rules word init) : ∃ mask, b.build word = some mask ∧
      ∀ (factorize : W → Nat → List W), (∀ w n, (factorize w n).length = n) → ∀ rs : List (Nat × PMCFGRule N T W), rs.map Prod.snd = rules →
        (∀ ps, grammarProds factorize rs = some ps → mask.length = ps.length) ∧
        ∀ pre r post ps₁ ps₂, rs = pre ++ r :: post → grammarProds factorize pre = some ps₁ → grammarProds factorize [r] = some ps₂ →
          ∀ k, ps₁.length ≤ k → k < ps₁.length + ps₂.length →
            (mask[k]? = some true ↔ UsefulReach rules word init r.2.head ∧ ∀ B ∈ r.2.tail, DerivesOver rules word B) := by
  obtain ⟨V, h1, h2⟩ := RuleMaskBuilder.new_rep ho hb
  obtain ⟨mask, h3, h4, h5⟩ := RuleMaskBuilder.build_spec h1 h2 word
  refine ⟨mask, h3, fun factorize hf rs hrs => ⟨fun ps hps => ?_, ?_⟩⟩
  · rw [grammarProds_length hf rs hps, h4, ← hrs]
    unfold idOffset
    rw [List.take_length, List.map_map]
    rfl
  · rintro pre r post ps₁ ps₂ rfl hp1 hp2 k hk1 hk2
    have e1 := grammarProds_length hf _ hp1
    have e2 := grammarProds_length hf _ hp2
    simp only [List.map_cons, List.map_nil, List.sum_cons, List.sum_nil, Nat.add_zero] at e2
    have hr : rules[pre.length]? = some r.2 := by
      rw [← hrs]
      simp
    have ho1 : idOffset rules pre.length = ps₁.length := by
      rw [e1, ← hrs]
      unfold idOffset
      rw [List.map_append, List.take_append_of_le_length (by simp), List.take_of_length_le (by simp), List.map_map]
      rfl
    rw [h5, ← kept_iff hg word hp (List.mem_of_getElem? hr)]
    constructor
    · rintro ⟨k', r', g1, g2, g3⟩
      rw [List.mem_range'_1] at g2
      have : k' = pre.length := by
        have i1 := RuleMaskBuilder.idOffset_add_le hr
        have i2 := RuleMaskBuilder.idOffset_add_le g1
        rcases Nat.lt_trichotomy k' pre.length with hlt | rfl | hlt
        · have := idOffset_mono_succ g1 hlt
          omega
        · rfl
        · have := idOffset_mono_succ hr hlt
          omega
      subst this
      rw [hr, Option.some.injEq] at g1
      subst g1
      exact g3
    · intro g
      exact ⟨pre.length, r.2, hr, by rw [List.mem_range'_1]; omega, g⟩

/-- **C40** If the initial nonterminal is not productive, then nothing is kept. -/
theorem C40_unproductive (ho : HashOrder order) (hg : ParserGrammar rules init) (hb : RuleMaskBuilder.new order rules init = some b) (word : List T)
    (hp : ¬ DerivesOver rules word init) : ∃ mask, b.build word = some mask ∧ ∀ k : Nat, mask[k]? ≠ some true := by
  obtain ⟨V, h1, h2⟩ := RuleMaskBuilder.new_rep ho hb
  obtain ⟨mask, h3, h4, h5⟩ := RuleMaskBuilder.build_spec h1 h2 word
  refine ⟨mask, h3, fun k hk => ?_⟩
  obtain ⟨_, r, _, _, h⟩ := (h5 k).1 hk
  exact not_kept hg word hp r h

omit [DecidableEq N] [DecidableEq T] in
/-- **C40** No rule of a derivation of the word is filtered out. -/
theorem C40_derivation_kept (hg : ParserGrammar rules init) {word : List T} {d : DTree (PMCFGRule N T W)} (hd : Derives rules init d [word]) :
    DerivesOver rules word init ∧ ∀ p r, d.at? p = some r → UsefulReach rules word init r.head ∧ ∀ B ∈ r.tail, DerivesOver rules word B := by
  refine ⟨⟨d, _, hd, by simp⟩, fun p r hp => ?_⟩
  exact (derives_useful hg.lcfrs hd .init (by simp) p r hp).2

end

/-- **C40** for all words, also those for which the grammar has no derivation. -/
def C40_claim : Prop :=
  ∀ (order : Nat → List Nat → List Nat) (rules : List (PMCFGRule Nat Nat Nat)) (init : Nat) (b : RuleMaskBuilder Nat) (word : List Nat) (mask : List Bool),
    HashOrder order → ParserGrammar rules init → RuleMaskBuilder.new order rules init = some b → b.build word = some mask →
    ∀ (factorize : Nat → Nat → List Nat), (∀ w n, (factorize w n).length = n) → ∀ rs : List (Nat × PMCFGRule Nat Nat Nat), rs.map Prod.snd = rules →
      ∀ pre r post ps₁ ps₂, rs = pre ++ r :: post → grammarProds factorize pre = some ps₁ → grammarProds factorize [r] = some ps₂ →
        ∀ k, ps₁.length ≤ k → k < ps₁.length + ps₂.length →
          (mask[k]? = some true ↔ UsefulReach rules word init r.2.head ∧ ∀ B ∈ r.2.tail, DerivesOver rules word B)

namespace C40Witness

/-- `S → a`. -/
def rules : List (PMCFGRule Nat Nat Nat) := [⟨0, [], [[.t 7]], 1⟩]

theorem parserGrammar : ParserGrammar rules 0 where
  lcfrs := ⟨fun A => if A = 0 then some 1 else none, by
    constructor
    · intro A f
      by_cases hA : A = 0
      · subst hA
        simp [rules]
      · simp only [hA, if_false, rules, List.mem_singleton, exists_eq_left]
        simp
        omega
    · simp [rules, varsOf]⟩
  normal := by simp [NormalForm, rules]
  closed := by simp [rules]

end C40Witness

open C40Witness in
/-- **C40** is violated in the literal form: if the word has no derivation, then the rules of the initial nonterminal are discarded even if their right-hand sides
are productive. For the rule `S → a` and the word `b`, the right-hand side is empty and `S` is reachable. -/
theorem C40_unproductive_violated : ¬ C40_claim := by
  intro h
  have := (h (fun _ l => l.dedup) rules 0 ⟨0, [(7, [0])], [[]], [[([0], [])]], 1, 1⟩ [8] [false]
    (fun k l => ⟨l.nodup_dedup, by simp⟩) parserGrammar rfl rfl (fun w n => List.replicate n w) (by simp) [(0, ⟨0, [], [[.t 7]], 1⟩)] rfl
    [] _ [] [] _ rfl rfl rfl 0 (by simp) (by simp)).2 ⟨.init, by simp⟩
  simp at this

namespace C40Example

/-- The grammar of the test in rulemask.rs (with variables as the right-hand sides demand). -/
def rules : List (PMCFGRule Nat Nat Nat) :=
  [⟨0, [0, 11, 12], [[.var 1 0, .var 0 0], [.var 0 1, .var 2 0]], 1⟩, ⟨0, [1], [[.var 0 0], [.var 0 1]], 1⟩, ⟨0, [10, 10], [[.var 0 0], [.var 1 0]], 1⟩,
   ⟨1, [13, 13], [[.var 0 0], [.var 1 0]], 1⟩, ⟨2, [13, 13], [[.var 0 0], [.var 1 0]], 1⟩,
   ⟨10, [], [[.t 0]], 1⟩, ⟨11, [], [[.t 1]], 1⟩, ⟨12, [], [[.t 2]], 1⟩, ⟨13, [], [[.t 3]], 1⟩]

def mask (word : List Nat) : Option (List Bool) := (RuleMaskBuilder.new (fun _ l => l.dedup) rules 0).bind fun b => b.build word

example : mask [0, 1, 2] = some [true, true, false, false, true, true, false, false, false, false, true, true, true, false] := by decide
example : mask [1, 2] = some (List.replicate 14 false) := by decide
example : mask [1, 2, 3] = some [true, true, true, true, false, false, true, true, false, false, false, true, true, true] := by decide

end C40Example

end Rustomata.Props
