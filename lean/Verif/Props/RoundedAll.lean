import Verif.Props.RoundedParser
import Verif.Props.CsAny

/-!
# Property C103: the parser loses no derivation with rounded weights

`LogDomain<f64>` rounds, so that the multiplication is not associative. By **C102**, a derivation may be returned twice. Here it is shown that none is lost, and that
the parser still ends.
-/

namespace Rustomata.Props
open Rustomata Spec

/-- The weights of the tool satisfy the laws of rounded weights, however they are rounded. -/
noncomputable instance logWeightRounded {r : Rounding} : RoundedWeight (LogWeight r) where
  mul_comm := mul_comm
  one_mul a := by
    show LogWeight.mul (LogWeight.ofLog 0 r.zero) a = a
    match a with
    | none => rfl
    | some x =>
      show LogWeight.ofLog (r.round (0 + x.1)) _ = WithBot.some x
      unfold LogWeight.ofLog
      congr 1
      exact Subtype.ext (by simp only [zero_add]; exact x.2)
  mul_one a := by
    show LogWeight.mul a (LogWeight.ofLog 0 r.zero) = a
    match a with
    | none => rfl
    | some x =>
      show LogWeight.ofLog (r.round (x.1 + 0)) _ = WithBot.some x
      unfold LogWeight.ofLog
      congr 1
      exact Subtype.ext (by simp only [add_zero]; exact x.2)
  zero_mul a := by cases a <;> rfl
  mul_zero a := by cases a <;> rfl
  isBot_zero a := (bot_le : (⊥ : WithBot {x : ℝ // r.round x = x}) ≤ a)
  mul_le_mul_left' a b h c := by
    show LogWeight.mul c a ≤ LogWeight.mul c b
    match c, a, b, h with
    | none, _, _, _ => exact (bot_le : (⊥ : WithBot {x : ℝ // r.round x = x}) ≤ _)
    | some z, none, _, _ => exact (bot_le : (⊥ : WithBot {x : ℝ // r.round x = x}) ≤ _)
    | some z, some x, none, h => exact absurd h (WithBot.not_coe_le_bot _)
    | some z, some x, some y, h =>
      have h : x ≤ y := WithBot.coe_le_coe.1 h
      refine WithBot.coe_le_coe.2 (Subtype.mk_le_mk.2 (r.mono ?_))
      have : x.1 ≤ y.1 := h
      linarith

/-- Products of rounded weights do not become zero. -/
instance logWeightNoZeroDivisors {r : Rounding} : NoZeroDivisors (LogWeight r) where
  eq_zero_or_eq_zero_of_mul_eq_zero {a b} h := by
    match a, b with
    | none, _ => exact .inl rfl
    | _, none => exact .inr rfl
    | some x, some y => cases h

/-- Rounded logarithms satisfy the laws of rounded weights. -/
abbrev RoundedLogs.weight {W : Type} [hz : Zero W] [ho : One W] [hm : Mul W] [hl : LinearOrder W] (h : RoundedLogs W) : RoundedWeight W :=
  { hz, ho, hm, hl with
    mul_comm := fun a b => by obtain ⟨r, ε, e, _, h1, h2, h3, h4⟩ := h; exact h1.injective (by rw [h4, h4, mul_comm])
    one_mul := fun a => by obtain ⟨r, ε, e, _, h1, h2, h3, h4⟩ := h; exact h1.injective (by rw [h4, h3, one_mul])
    mul_one := fun a => by obtain ⟨r, ε, e, _, h1, h2, h3, h4⟩ := h; exact h1.injective (by rw [h4, h3, mul_one])
    zero_mul := fun a => by
      obtain ⟨r, ε, e, _, h1, h2, h3, h4⟩ := h
      have h2 : e 0 = 0 := h2
      exact h1.injective (by rw [h4, h2, zero_mul])
    mul_zero := fun a => by
      obtain ⟨r, ε, e, _, h1, h2, h3, h4⟩ := h
      have h2 : e 0 = 0 := h2
      exact h1.injective (by rw [h4, h2, mul_zero])
    isBot_zero := fun a => by
      obtain ⟨r, ε, e, _, h1, h2, h3, h4⟩ := h
      have h2 : e 0 = 0 := h2
      exact h1.le_iff_le.1 (by rw [h2]; exact zero_le)
    mul_le_mul_left' := fun a b h' c => by
      obtain ⟨r, ε, e, _, h1, h2, h3, h4⟩ := h
      exact h1.le_iff_le.1 (by rw [h4, h4]; exact RoundedWeight.mul_le_mul_left' _ _ (h1.le_iff_le.2 h') _) }

/-- Products of rounded logarithms do not become zero. -/
theorem RoundedLogs.noZeroDivisors {W : Type} [Zero W] [One W] [Mul W] [LinearOrder W] (h : RoundedLogs W) : NoZeroDivisors W := by
  obtain ⟨r, ε, e, _, h1, h2, h3, h4⟩ := h
  have h2 : e 0 = 0 := h2
  refine ⟨fun {a b} h => ?_⟩
  have := congrArg e h
  rw [h4, h2] at this
  rcases mul_eq_zero.1 this with h | h
  · exact .inl (h1.injective (h.trans h2.symm))
  · exact .inr (h1.injective (h.trans h2.symm))

section
variable {N T W : Type _} [DecidableEq N] [DecidableEq T] [RoundedWeight W] {factorize : W → Nat → List W}
  {order : Nat → List Nat → List Nat} {g : Lcfrs N T W} {width : Nat} {R : CsRep N T W}

/-- **C103** For weights with rounded multiplication and the grammars of **C54**: the parser without pruning ends, and its results are exactly the derivations of the
sentence (perhaps some of them repeatedly, **C102**). -/
theorem C103_parses [NoZeroDivisors W] (hR : CsRep.new factorize order g width = some R) (ho : HashOrder order) (hlen : ∀ w n, (factorize w n).length = n)
    (hg : ParserGrammar g.rules g.init) (hw : FactorsLeOne factorize (indexed g.rules)) (h0 : FactorsNeZero factorize g.rules)
    (hcyc : NoVariableCycle g.rules) (hpre : Preterminals g.rules) (hs : R.generator.states ≤ 65535) {word : List T} (hn0 : 0 < word.length)
    (hn : word.length ≤ 255) :
    ∃ out m₀ fuel₀, (∀ m ≥ m₀, ∀ fuel ≥ fuel₀, R.parses .default word fuel m = some out) ∧
      (∀ t ∈ out, ∃ d, t.Sorted ∧ (∀ p, t.get p = d.at? p) ∧ Derives g.rules g.init d [word]) ∧
      ∀ d, Derives g.rules g.init d [word] → ∃ t ∈ out, t.Sorted ∧ ∀ p, t.get p = d.at? p := by
  obtain ⟨out, ⟨ds, h1, h2⟩, m₀, fuel₀, h3⟩ := C83_parses hR ho hlen hg hw h0 hcyc hs hn0 hn (o := .default) rfl rfl
  have hout : ∀ m ≥ m₀, ∀ fuel ≥ fuel₀, R.parses .default word fuel m = some out := fun m hm fuel hf => (h3 m fuel hf).2 rfl hm
  refine ⟨out, m₀, fuel₀, hout, (C101_sentence_partial hR ho hlen hg hpre hn).1 out (hout _ le_rfl _ le_rfl), fun d hder => ?_⟩
  obtain ⟨e, he⟩ := exists_numbers hder
  obtain ⟨i, hi⟩ := List.getElem?_of_mem (h2 e d ⟨he, hder⟩)
  obtain ⟨hlt, hi⟩ := List.getElem?_eq_some_iff.1 hi
  have hlt' : i < out.length := by rw [← h1.2.length_eq]; exact hlt
  have h5 := (List.forall₂_iff_get.1 h1.2).2 i hlt hlt'
  simp only [List.get_eq_getElem, hi] at h5
  exact ⟨out[i], List.getElem_mem _, h5⟩

end

/-- **C103** for the weights of the tool, however they are rounded. -/
theorem C103_logarithms {N T : Type _} [DecidableEq N] [DecidableEq T] {r : Rounding} {factorize : LogWeight r → Nat → List (LogWeight r)}
    {order : Nat → List Nat → List Nat} {g : Lcfrs N T (LogWeight r)} {width : Nat} {R : CsRep N T (LogWeight r)}
    (hR : CsRep.new factorize order g width = some R) (ho : HashOrder order) (hlen : ∀ w n, (factorize w n).length = n) (hg : ParserGrammar g.rules g.init)
    (hw : FactorsLeOne factorize (indexed g.rules)) (h0 : FactorsNeZero factorize g.rules)
    (hcyc : NoVariableCycle g.rules) (hpre : Preterminals g.rules) (hs : R.generator.states ≤ 65535) {word : List T} (hn0 : 0 < word.length)
    (hn : word.length ≤ 255) :
    ∃ out m₀ fuel₀, (∀ m ≥ m₀, ∀ fuel ≥ fuel₀, R.parses .default word fuel m = some out) ∧
      (∀ t ∈ out, ∃ d, t.Sorted ∧ (∀ p, t.get p = d.at? p) ∧ Derives g.rules g.init d [word]) ∧
      ∀ d, Derives g.rules g.init d [word] → ∃ t ∈ out, t.Sorted ∧ ∀ p, t.get p = d.at? p :=
  C103_parses hR ho hlen hg hw h0 hcyc hpre hs hn0 hn

/-- **C103** for all rounded logarithms. -/
theorem C103_rounded {N T : Type _} {W : Type} [DecidableEq N] [DecidableEq T] [Zero W] [One W] [Mul W] [LinearOrder W] (h : RoundedLogs W)
    {factorize : W → Nat → List W} {order : Nat → List Nat → List Nat} {g : Lcfrs N T W} {width : Nat} {R : CsRep N T W}
    (hR : CsRep.new factorize order g width = some R) (ho : HashOrder order) (hlen : ∀ w n, (factorize w n).length = n) (hg : ParserGrammar g.rules g.init)
    (hw : ∀ r ∈ g.rules, ∀ w ∈ factorize r.weight r.composition.length, w ≤ 1 ∧ w ≠ 0)
    (hcyc : NoVariableCycle g.rules) (hpre : Preterminals g.rules) (hs : R.generator.states ≤ 65535) {word : List T} (hn0 : 0 < word.length)
    (hn : word.length ≤ 255) :
    ∃ out m₀ fuel₀, (∀ m ≥ m₀, ∀ fuel ≥ fuel₀, R.parses .default word fuel m = some out) ∧
      (∀ t ∈ out, ∃ d, t.Sorted ∧ (∀ p, t.get p = d.at? p) ∧ Derives g.rules g.init d [word]) ∧
      ∀ d, Derives g.rules g.init d [word] → ∃ t ∈ out, t.Sorted ∧ ∀ p, t.get p = d.at? p :=
  @C103_parses N T W _ _ h.weight factorize order g width R h.noZeroDivisors hR ho hlen hg (fun r hr w h => (hw _ (List.mem_of_getElem? (mem_indexed.1 hr)) w h).1)
    (fun r hr w h => (hw r hr w h).2) hcyc hpre hs word hn0 hn

open C102Example in
/-- The grammar of **C102**, for which a derivation is returned twice, satisfies the conditions: all its derivations are returned. -/
example : ∃ R out, CsRep.new factorize (fun _ l => l.dedup) g 5 = some R ∧ (∃ m fuel, R.parses .default [7, 8, 9] fuel m = some out) ∧
    ∀ d, Derives g.rules g.init d [[7, 8, 9]] → ∃ t ∈ out, t.Sorted ∧ ∀ p, t.get p = d.at? p := by
  have e : ((CsRep.new factorize (fun _ l => l.dedup) g 5).map fun R => decide (R.generator.states ≤ 65535)) = some true := by decide +kernel
  rw [Option.map_eq_some_iff] at e
  obtain ⟨R, hR, e⟩ := e
  obtain ⟨out, m₀, fuel₀, h1, -, h2⟩ := C103_rounded roundedLogs hR C54Witness.hashOrder factorize_length grammar (by decide +kernel) noVariableCycle
    preterminals (of_decide_eq_true e) (word := [7, 8, 9]) (by decide) (by decide)
  exact ⟨R, out, hR, ⟨m₀, fuel₀, h1 _ le_rfl _ le_rfl⟩, h2⟩

end Rustomata.Props
