import Verif.Props.AnyWeights

/-!
# C102: results of the Chomsky-Schützenberger parser that are returned twice
-/

namespace Rustomata.Props
open Rustomata Spec

/-- The weights are logarithms that are rounded: they are embedded into the rounded logarithms of **C89**. -/
def RoundedLogs (W : Type) [Zero W] [One W] [Mul W] [LinearOrder W] : Prop :=
  ∃ (r : Rounding) (ε : ℝ) (e : W → LogWeight r), r.Within ε ∧ StrictMono e ∧ e 0 = LogWeight.ofZero ∧ e 1 = 1 ∧ ∀ a b, e (a * b) = e a * e b

/-- The full claim **C102**: for all grammars without equal rules and with the conditions of **C54**, and for weights that are rounded logarithms, the parser without
pruning returns no derivation twice. -/
def C102_claim : Prop :=
  ∀ (N T W : Type) [DecidableEq N] [DecidableEq T] [Zero W] [One W] [Mul W] [LinearOrder W] (factorize : W → Nat → List W)
    (order : Nat → List Nat → List Nat) (g : Lcfrs N T W) (width : Nat) (R : CsRep N T W) (word : List T),
    RoundedLogs W → CsRep.new factorize order g width = some R → HashOrder order → (∀ w n, (factorize w n).length = n) → (∀ w, factorize w 1 = [w]) →
    ParserGrammar g.rules g.init → g.rules.Nodup → (∀ r ∈ g.rules, r.weight ≤ 1 ∧ r.weight ≠ 0) → NoVariableCycle g.rules → Preterminals g.rules →
    0 < word.length → word.length ≤ 255 → ∀ m fuel out, R.parses .default word fuel m = some out → out.Nodup

namespace C102Example

/-- Costs above 4 are rounded to even numbers. -/
def roundCost (c : Nat) : Nat := if c ≤ 4 then c else 2 * (c / 2)

theorem roundCost_idem (c : Nat) : roundCost (roundCost c) = roundCost c := by unfold roundCost; split_ifs <;> omega

/-- Weights with rounded costs, where `none` stands for the weight zero. -/
structure Rough where
  cost : Option Nat
  rep : ∀ c ∈ cost, roundCost c = c
  deriving DecidableEq

namespace Rough

def key (a : Rough) : WithBot ℕᵒᵈ := a.cost.map OrderDual.toDual

theorem key_injective : Function.Injective key := by
  intro a b h
  cases a
  cases b
  simp only [key] at h
  have := Option.map_injective (OrderDual.toDual.injective : Function.Injective (OrderDual.toDual : Nat → ℕᵒᵈ)) h
  subst this
  rfl

instance : LinearOrder Rough := LinearOrder.lift' key key_injective
instance : Zero Rough := ⟨⟨none, by simp⟩⟩
instance : One Rough := ⟨⟨some 0, fun c hc => by cases hc; rfl⟩⟩
instance : Mul Rough := ⟨fun a b => ⟨a.cost.bind fun x => b.cost.map fun y => roundCost (x + y), by
  intro c hc
  simp only [Option.mem_def, Option.bind_eq_some_iff, Option.map_eq_some_iff] at hc
  obtain ⟨x, _, y, _, rfl⟩ := hc
  exact roundCost_idem _⟩⟩

end Rough

/-- The weight with a cost. -/
def weight (c : Nat) (h : roundCost c = c := by decide) : Rough := ⟨some c, by simpa using h⟩

theorem round_cost (c : Nat) : C89Example.few.round (-(c : ℝ)) = -((roundCost c : Nat) : ℝ) := by
  unfold roundCost
  split_ifs with h
  · have := C89Example.few_int (k := -(c : ℤ)) (by omega)
    push_cast at this
    exact this
  · show C89Example.round _ = _
    have h5 : (5 : ℝ) ≤ c := by exact_mod_cast (by omega : 5 ≤ c)
    rw [C89Example.round_low (by linarith)]
    obtain ⟨q, hq⟩ : ∃ q, c / 2 = q := ⟨_, rfl⟩
    have h1 : (2 * q : ℝ) ≤ c := by exact_mod_cast (by omega : 2 * q ≤ c)
    have h2 : (c : ℝ) < 2 * q + 2 := by exact_mod_cast (by omega : c < 2 * q + 2)
    have : ⌈-(c : ℝ) / 2⌉ = -(q : ℤ) := by
      rw [Int.ceil_eq_iff]
      push_cast
      constructor <;> linarith
    rw [this, hq]
    push_cast
    ring

/-- The logarithm of a weight. -/
noncomputable def embed (a : Rough) : LogWeight C89Example.few :=
  match h : a.cost with
  | none => LogWeight.ofZero
  | some c => LogWeight.ofLog (-(c : ℝ)) (by rw [round_cost, a.rep c h])

theorem embed_none {h} : embed ⟨none, h⟩ = LogWeight.ofZero := rfl

theorem embed_some {c h} : embed ⟨some c, h⟩ = LogWeight.ofLog (-(c : ℝ)) (by rw [round_cost, h c rfl]) := rfl

theorem ofLog_lt {r : Rounding} {x y : ℝ} {hx : r.round x = x} {hy : r.round y = y} (h : x < y) : LogWeight.ofLog x hx < LogWeight.ofLog y hy :=
  WithBot.coe_lt_coe.2 (Subtype.mk_lt_mk.2 h)

theorem embed_laws : StrictMono embed ∧ embed 1 = 1 ∧ ∀ a b, embed (a * b) = embed a * embed b := by
  refine ⟨?_, ?_, ?_⟩
  · intro a b h
    have h : a.key < b.key := h
    obtain ⟨a, ha⟩ := a
    obtain ⟨b, hb⟩ := b
    match a, b with
    | none, none => exact absurd h (lt_irrefl _)
    | some x, none => exact absurd h (by simp only [Rough.key]; exact not_lt_bot)
    | none, some y => exact WithBot.bot_lt_coe _
    | some x, some y =>
      have h : y < x := OrderDual.toDual_lt_toDual.1 (WithBot.coe_lt_coe.1 h)
      rw [embed_some, embed_some]
      refine ofLog_lt ?_
      have : (y : ℝ) < x := by exact_mod_cast h
      linarith
  · show embed ⟨some 0, _⟩ = LogWeight.ofLog 0 _
    rw [embed_some]
    congr 1
    simp
  · intro a b
    obtain ⟨a, ha⟩ := a
    obtain ⟨b, hb⟩ := b
    match a, b with
    | none, none => rfl
    | some x, none => rfl
    | none, some y => rfl
    | some x, some y =>
      show embed ⟨some (roundCost (x + y)), _⟩ = LogWeight.ofLog (C89Example.few.round (-(x : ℝ) + -(y : ℝ))) _
      rw [embed_some]
      congr 1
      rw [← round_cost]
      push_cast
      congr 1
      ring

theorem roundedLogs : RoundedLogs Rough :=
  ⟨C89Example.few, _, embed, C89Example.few_within, embed_laws.1, rfl, embed_laws.2.1, embed_laws.2.2⟩

/-- The first factor is the weight, the others are one. -/
def factorize (w : Rough) : Nat → List Rough
  | 0 => []
  | n + 1 => w :: List.replicate n 1

theorem factorize_length (w : Rough) (n : Nat) : (factorize w n).length = n := by cases n <;> simp [factorize]

/-- `S → L R`, `L → D`, `L → E`, `D → 7`, `E → 7`, `R → F C`, `F → 8`, `C → G`, `C → H`, `G → 9`, `H → 9`. -/
def g : Lcfrs Nat Nat Rough :=
  ⟨[⟨0, [1, 2], [[.var 0 0, .var 1 0]], 1⟩, ⟨1, [3], [[.var 0 0]], 1⟩, ⟨1, [4], [[.var 0 0]], 1⟩, ⟨3, [], [[.t 7]], 1⟩, ⟨4, [], [[.t 7]], 1⟩,
    ⟨2, [5, 6], [[.var 0 0, .var 1 0]], weight 3⟩, ⟨5, [], [[.t 8]], weight 2⟩, ⟨6, [7], [[.var 0 0]], weight 1⟩, ⟨6, [8], [[.var 0 0]], weight 1⟩,
    ⟨7, [], [[.t 9]], 1⟩, ⟨8, [], [[.t 9]], 1⟩], 0⟩

def fanout : Nat → Option Nat
  | 0 => some 1
  | 1 => some 1
  | 2 => some 1
  | 3 => some 1
  | 4 => some 1
  | 5 => some 1
  | 6 => some 1
  | 7 => some 1
  | 8 => some 1
  | _ => none

theorem grammar : ParserGrammar g.rules g.init where
  lcfrs := by
    refine ⟨fanout, ?_, rfl, ?_⟩
    · intro A f
      match A with
      | 0 => simp [fanout, g, eq_comm]
      | 1 => simp [fanout, g, eq_comm]
      | 2 => simp [fanout, g, eq_comm]
      | 3 => simp [fanout, g, eq_comm]
      | 4 => simp [fanout, g, eq_comm]
      | 5 => simp [fanout, g, eq_comm]
      | 6 => simp [fanout, g, eq_comm]
      | 7 => simp [fanout, g, eq_comm]
      | 8 => simp [fanout, g, eq_comm]
      | A + 9 => simp [fanout, g]
    · intro r hr
      simp only [g, List.mem_cons, List.not_mem_nil, or_false] at hr
      rcases hr with rfl | rfl | rfl | rfl | rfl | rfl | rfl | rfl | rfl | rfl | rfl
      all_goals
        refine ⟨by decide, fun i j => ?_⟩
        match i with
        | 0 => simp [varsOf, fanout]
        | 1 => simp [varsOf, fanout]
        | i + 2 => simp [varsOf]
  normal := by
    intro r hr
    simp only [g, List.mem_cons, List.not_mem_nil, or_false] at hr
    rcases hr with rfl | rfl | rfl | rfl | rfl | rfl | rfl | rfl | rfl | rfl | rfl <;> simp
  closed := by unfold g; decide

theorem preterminals : Preterminals g.rules := by
  simp [Preterminals, g]

theorem noVariableCycle : NoVariableCycle g.rules := by
  refine ⟨fun A _ => if A = 1 ∨ A = 6 then 1 else 0, fun r hr c i j B h1 h2 => ?_⟩
  simp only [g, List.mem_cons, List.not_mem_nil, or_false] at hr
  rcases hr with rfl | rfl | rfl | rfl | rfl | rfl | rfl | rfl | rfl | rfl | rfl
  all_goals
    match c with
    | 0 => simp at h1 <;> (obtain ⟨rfl, rfl⟩ := h1; simp at h2; subst h2; simp)
    | c + 1 => simp at h1

theorem nodup : g.rules.Nodup := by decide +kernel

theorem weights : ∀ r ∈ g.rules, r.weight ≤ 1 ∧ r.weight ≠ 0 := by decide +kernel

end C102Example

open C102Example in
/-- **C102** is violated: the weight of a first candidate is computed in another order than those of its successors, so it may be lower. A derivation that is not the
best one is then removed from the candidates before the candidate from which it is reached for a second time. -/
theorem C102_violated : ¬ C102_claim := by
  intro h
  have e : ((CsRep.new factorize (fun _ l => l.dedup) g 5).bind fun R => (R.parses .default [7, 8, 9] 30 10).map fun out => decide out.Nodup) = some false := by
    decide +kernel
  rw [Option.bind_eq_some_iff] at e
  obtain ⟨R, hR, e⟩ := e
  rw [Option.map_eq_some_iff] at e
  obtain ⟨out, hout, e⟩ := e
  rw [decide_eq_false_iff_not] at e
  exact e (h Nat Nat Rough factorize _ g 5 R [7, 8, 9] roundedLogs hR C54Witness.hashOrder factorize_length (fun _ => rfl) grammar nodup weights noVariableCycle
    preterminals (by simp) (by simp) _ _ _ hout)

section
variable {N T W : Type _} [DecidableEq N] [DecidableEq T]

/-- The numbers of the rules of a derivation are determined if there are no equal rules. -/
theorem numbers_unique {R : Type _} {rules : List R} (hnd : rules.Nodup) {e e' : DTree Nat} {d : DTree R} (h : Numbers rules e d) (h' : Numbers rules e' d) : e = e' := by
  refine at?_ext e e' fun p => ?_
  have h1 := h p
  have h2 := h' p
  rw [← h2] at h1
  match h3 : e.at? p, h4 : e'.at? p with
  | none, none => rfl
  | some a, none => rw [h3, h4] at h1; cases h1
  | none, some b => rw [h3, h4] at h1; cases h1
  | some a, some b =>
    rw [h3, h4] at h1
    simp only [Option.map_some, Option.some.injEq] at h1
    have h5 := h p
    rw [h3] at h5
    match h6 : d.at? p with
    | none => rw [h6] at h5; cases h5
    | some r =>
      rw [h6, Option.map_some, Option.map_some, Option.some.injEq] at h5
      have h7 := h1 ▸ h5
      rw [(List.getElem?_inj (List.getElem?_eq_some_iff.1 h5).1 hnd).1 (h5.trans h7.symm)]

/-- **C102** for weights that are not rounded: the parser returns no derivation twice. -/
theorem C102_exact_partial [LinearOrderedCommMonoidWithZero W] [NoZeroDivisors W] {factorize : W → Nat → List W} {order : Nat → List Nat → List Nat}
    {g : Lcfrs N T W} {width : Nat} {R : CsRep N T W} {word : List T}
    (hR : CsRep.new factorize order g width = some R) (ho : HashOrder order) (hfac : Factorizes factorize) (hg : ParserGrammar g.rules g.init) (hnd : g.rules.Nodup)
    (hw : FactorsLeOne factorize (indexed g.rules)) (h0 : FactorsNeZero factorize g.rules) (hcyc : NoVariableCycle g.rules) (hpre : Preterminals g.rules)
    (hs : R.generator.states ≤ 65535) (hn0 : 0 < word.length) (hn : word.length ≤ 255) {m fuel : Nat} {out : List (GornTree (PMCFGRule N T W))}
    (hout : R.parses .default word fuel m = some out) : out.Nodup := by
  obtain ⟨all, ⟨ds, ⟨h1, _, h2, h3⟩, _⟩, m₀, fuel₀, h4⟩ := C54_parses_partial hR ho hfac hg hw h0 hpre hcyc hs hn0 hn (o := .default) rfl rfl
  obtain ⟨k, hk⟩ := (h4 m fuel₀ le_rfl).1
  have := C54_deterministic hout hk
  subst this
  refine List.Nodup.sublist (List.take_sublist ..) ?_
  rw [List.nodup_iff_injective_get]
  intro i i' hi
  have hlen := h3.length_eq
  have a1 := (List.forall₂_iff_get.1 h3).2 i.1 (by omega) i.2
  have a2 := (List.forall₂_iff_get.1 h3).2 i'.1 (by omega) i'.2
  simp only [List.get_eq_getElem] at a1 a2 hi
  have hd : (ds[i.1]'(by omega)).2 = (ds[i'.1]'(by omega)).2 := at?_ext _ _ fun p => by rw [← a1.2 p, ← a2.2 p, hi]
  have n1 : Numbers g.rules (ds[i.1]'(by omega)).1 (ds[i.1]'(by omega)).2 := (h2 _ _ (List.getElem_mem (by omega : i.1 < ds.length))).1
  have n2 : Numbers g.rules (ds[i'.1]'(by omega)).1 (ds[i'.1]'(by omega)).2 := (h2 _ _ (List.getElem_mem (by omega : i'.1 < ds.length))).1
  rw [hd] at n1
  have he := numbers_unique hnd n1 n2
  have := List.nodup_iff_injective_get.1 h1 (a₁ := ⟨i.1, by simp; omega⟩) (a₂ := ⟨i'.1, by simp; omega⟩) (by simpa using he)
  exact Fin.ext (Fin.mk.inj_iff.1 this)

end

open C54Example in
/-- The hypotheses of the theorem hold for a grammar without equal rules for which two derivations are returned. -/
example : ∃ R out, CsRep.new C45Example.factorize (fun _ l => l.dedup) g 5 = some R ∧ R.parses .default [7, 8, 7] 30 10 = some out ∧ out.length = 2 ∧ out.Nodup := by
  have h : ((CsRep.new C45Example.factorize (fun _ l => l.dedup) g 5).bind fun R => (R.parses .default [7, 8, 7] 30 10).map fun out =>
      (out.length, decide (R.generator.states ≤ 65535))) = some (2, true) := by decide +kernel
  rw [Option.bind_eq_some_iff] at h
  obtain ⟨R, hR, h⟩ := h
  rw [Option.map_eq_some_iff] at h
  obtain ⟨out, hout, h⟩ := h
  rw [Prod.mk.injEq, decide_eq_true_eq] at h
  exact ⟨R, out, hR, hout, h.1, C102_exact_partial hR C54Witness.hashOrder C45Example.factorizes grammar (by decide) (by unfold FactorsLeOne; decide)
    (by unfold FactorsNeZero; decide) noVariableCycle preterminals h.2 (by simp) (by simp) hout⟩

end Rustomata.Props
