import Verif.Proofs.CsNear
import Verif.Props.RoundedAll
import Verif.Props.CsCommandStream

/-!
# Property C104: the order of the parses with rounded weights

With rounded weights, the candidates of an item are not compared by their exact weights, and rounding in the items below may have changed their order. How far the
results of the parser can be from the order of the exact weights is bounded here: if a derivation is returned before another one, then its cost (the negative
logarithm of its exact weight) exceeds the cost of the other by at most a factor that is given by the relative error of a product, by the number of words and by the
number of states.
-/

namespace Rustomata.Spec

/-- The cost of a weight: its negative logarithm. -/
noncomputable def LogWeight.cost {r : Rounding} : LogWeight r → NNReal
  | none => 0
  | some x => Real.toNNReal (-x.1)

/-- The weights are embedded into the logarithms that are rounded by `r`, with a relative error of at most `ε` in each product. -/
structure LogsBy {W : Type} [Zero W] [One W] [Mul W] [LinearOrder W] (r : Rounding) (ε : ℝ) (e : W → LogWeight r) : Prop where
  within : r.Within ε
  strict : StrictMono e
  zero : e 0 = LogWeight.ofZero
  one : e 1 = 1
  mul : ∀ a b, e (a * b) = e a * e b

/-- The factor by which a product of weights is changed by rounding. -/
noncomputable def roundFactor (ε : ℝ) : NNReal := Real.toNNReal (1 / (1 - ε))

end Rustomata.Spec

namespace Rustomata.Props
open Rustomata Spec

theorem cost_ofLog {r : Rounding} {x : ℝ} {h : r.round x = x} : (LogWeight.ofLog x h).cost = Real.toNNReal (-x) := rfl

theorem one_le_roundFactor {r : Rounding} {ε : ℝ} (hε : r.Within ε) : 1 ≤ roundFactor ε := by
  rw [roundFactor, ← NNReal.coe_le_coe, Real.coe_toNNReal _ (by have := hε.lt_one; positivity), NNReal.coe_one]
  have := hε.lt_one
  have := hε.nonneg
  rw [le_div_iff₀ (by linarith)]
  linarith

/-- Costs of rounded logarithms: products and sums of costs differ by at most a factor. -/
theorem nearLog {W : Type} [Zero W] [One W] [Mul W] [LinearOrder W] {r : Rounding} {ε : ℝ} {e : W → LogWeight r} (h : LogsBy r ε e) (h' : RoundedLogs W) :
    @NearLog W h'.weight (fun w => (e w).cost) (roundFactor ε) := by
  have hne : ∀ a : W, a ≠ 0 → ∃ x hx, e a = LogWeight.ofLog x hx := by
    intro a ha
    rcases LogWeight.cases_log (e a) with h1 | h1
    · exact absurd (h.strict.injective (h1.trans h.zero.symm)) ha
    · exact h1
  have hε := h.within
  have e0 := hε.nonneg
  have e1 := hε.lt_one
  have hκ : (roundFactor ε : ℝ) = 1 / (1 - ε) := Real.coe_toNNReal _ (by have := e1; positivity)
  letI := h'.weight
  refine ⟨one_le_roundFactor hε, ?_, ?_, ?_, ?_⟩
  · intro a b hab ha
    obtain ⟨x, hx, ex⟩ := hne a ha
    rcases LogWeight.cases_log (e b) with h1 | ⟨y, hy, ey⟩
    · show (e b).cost ≤ _
      rw [h1]
      exact zero_le
    · have := h.strict.monotone hab
      rw [ex, ey, LogWeight.ofLog_le] at this
      show (e b).cost ≤ (e a).cost
      rw [ex, ey, cost_ofLog, cost_ofLog]
      exact Real.toNNReal_mono (by linarith)
  · intro a b ha hb hab
    obtain ⟨x, hx, ex⟩ := hne a ha
    obtain ⟨y, hy, ey⟩ := hne b hb
    have := h.mul a b
    rw [show a * b = 0 from hab, h.zero, ex, ey, LogWeight.ofLog_mul] at this
    cases this
  · intro a b ha hb ha1 hb1
    obtain ⟨x, hx, ex⟩ := hne a ha
    obtain ⟨y, hy, ey⟩ := hne b hb
    have hx0 : x ≤ 0 := by
      have := h.strict.monotone ha1
      rw [h.one, ex, LogWeight.ofLog_le_one] at this
      exact this
    have hy0 : y ≤ 0 := by
      have := h.strict.monotone hb1
      rw [h.one, ey, LogWeight.ofLog_le_one] at this
      exact this
    obtain ⟨h1, h2⟩ := hε.sum x y hx hy hx0 hy0
    have h3 : r.round (x + y) ≤ 0 := h2.trans (mul_nonpos_of_nonneg_of_nonpos (by linarith) (by linarith))
    show (e (a * b)).cost ≤ roundFactor ε * ((e a).cost + (e b).cost)
    rw [show e (a * b) = e a * e b from h.mul a b, ex, ey, LogWeight.ofLog_mul, cost_ofLog, cost_ofLog, cost_ofLog, ← NNReal.coe_le_coe, NNReal.coe_mul, NNReal.coe_add, hκ,
      Real.coe_toNNReal _ (by linarith), Real.coe_toNNReal _ (by linarith), Real.coe_toNNReal _ (by linarith)]
    have : 1 + ε ≤ 1 / (1 - ε) := by
      rw [le_div_iff₀ (by linarith)]
      nlinarith
    nlinarith
  · intro a b ha hb ha1 hb1
    obtain ⟨x, hx, ex⟩ := hne a ha
    obtain ⟨y, hy, ey⟩ := hne b hb
    have hx0 : x ≤ 0 := by
      have := h.strict.monotone ha1
      rw [h.one, ex, LogWeight.ofLog_le_one] at this
      exact this
    have hy0 : y ≤ 0 := by
      have := h.strict.monotone hb1
      rw [h.one, ey, LogWeight.ofLog_le_one] at this
      exact this
    obtain ⟨h1, h2⟩ := hε.sum x y hx hy hx0 hy0
    have h3 : r.round (x + y) ≤ 0 := h2.trans (mul_nonpos_of_nonneg_of_nonpos (by linarith) (by linarith))
    show (e a).cost + (e b).cost ≤ roundFactor ε * (e (a * b)).cost
    rw [show e (a * b) = e a * e b from h.mul a b, ex, ey, LogWeight.ofLog_mul, cost_ofLog, cost_ofLog, cost_ofLog, ← NNReal.coe_le_coe, NNReal.coe_mul, NNReal.coe_add, hκ,
      Real.coe_toNNReal _ (by linarith), Real.coe_toNNReal _ (by linarith), Real.coe_toNNReal _ (by linarith)]
    rw [div_mul_eq_mul_div, one_mul, le_div_iff₀ (by linarith)]
    nlinarith

section
variable {N T W : Type _} {rules : List (PMCFGRule N T W)}

mutual
/-- The cost of a derivation with other costs of the rules. -/
theorem cost_le {c c' : PMCFGRule N T W → NNReal} {γ : NNReal} (hγ : ∀ r ∈ rules, c r ≤ γ * c' r) {A : N} {d : DTree (PMCFGRule N T W)} {v : List (List T)}
    (h : Derives rules A d v) : d.cost c ≤ γ * d.cost c' := by
  cases h with
  | node hr hs _ =>
    rw [DTree.cost, DTree.cost, mul_add]
    exact add_le_add (hγ _ hr) (costs_le hγ hs)
theorem costs_le {c c' : PMCFGRule N T W → NNReal} {γ : NNReal} (hγ : ∀ r ∈ rules, c r ≤ γ * c' r) {As : List N} {ds : List (DTree (PMCFGRule N T W))}
    {vs : List (List (List T))} (h : DerivesAll rules As ds vs) : costs c ds ≤ γ * costs c' ds := by
  cases h with
  | nil => simp [costs]
  | cons h hs =>
    rw [costs, costs, mul_add]
    exact add_le_add (cost_le hγ h) (costs_le hγ hs)
end

end

/-- **C104** without errors: with rounded logarithms, for the grammars of **C54** and factors whose costs sum up to the cost of the weight, the parser returns the
derivations in ascending order of their costs. -/
def C104_exact_claim : Prop :=
  ∀ (N T W : Type) [DecidableEq N] [DecidableEq T] [Zero W] [One W] [Mul W] [LinearOrder W] (r : Rounding) (ε : ℝ) (e : W → LogWeight r)
    (factorize : W → Nat → List W) (order : Nat → List Nat → List Nat) (g : Lcfrs N T W) (width : Nat) (R : CsRep N T W) (word : List T),
    LogsBy r ε e → CsRep.new factorize order g width = some R → HashOrder order → (∀ w n, (factorize w n).length = n) →
    (∀ r ∈ g.rules, ∀ w ∈ factorize r.weight r.composition.length, w ≤ 1 ∧ w ≠ 0) → ParserGrammar g.rules g.init →
    (∀ r ∈ g.rules, ((factorize r.weight r.composition.length).map fun w => (e w).cost).sum = (e r.weight).cost) →
    NoVariableCycle g.rules → Preterminals g.rules → R.generator.states ≤ 65535 →
    0 < word.length → word.length ≤ 255 → ∀ m fuel out, R.parses .default word fuel m = some out →
    ∀ (i j : Nat) t t' d d', i < j → out[i]? = some t → out[j]? = some t' → TreeOf d t → TreeOf d' t' →
      d.cost (fun r => (e r.weight).cost) ≤ d'.cost fun r => (e r.weight).cost

/-- **C104** Also for pruned parses: if a derivation is returned before another one, then its cost exceeds the cost of the other at most by
the factor `(1 / (1 - ε)) ^ (4 * ((words + 1) * (states + 1)) ^ 2)`, and by the factor `γ` twice if the costs of the factors of a weight only sum up to its cost up to
the factor `γ`. -/
theorem C104_order {N T W : Type} [DecidableEq N] [DecidableEq T] [Zero W] [One W] [Mul W] [LinearOrder W] {r : Rounding} {ε : ℝ} {e : W → LogWeight r}
    {factorize : W → Nat → List W} {order : Nat → List Nat → List Nat} {g : Lcfrs N T W} {width : Nat} {R : CsRep N T W} {word : List T}
    (he : LogsBy r ε e) (hR : CsRep.new factorize order g width = some R) (ho : HashOrder order) (hlen : ∀ w n, (factorize w n).length = n)
    (hw : ∀ r ∈ g.rules, ∀ w ∈ factorize r.weight r.composition.length, w ≤ 1 ∧ w ≠ 0) (hg : ParserGrammar g.rules g.init) {γ : NNReal}
    (hγ : ∀ r ∈ g.rules, ((factorize r.weight r.composition.length).map fun w => (e w).cost).sum ≤ γ * (e r.weight).cost ∧
      (e r.weight).cost ≤ γ * ((factorize r.weight r.composition.length).map fun w => (e w).cost).sum)
    (hcyc : NoVariableCycle g.rules) (hpre : Preterminals g.rules) {o : CsOptions W} (hb0 : 0 < o.beam.getD R.generator.states)
    (hs : o.beam.getD R.generator.states ≤ 65535) (hn0 : 0 < word.length) (hn : word.length ≤ 255) {m fuel : Nat} {out : List (GornTree (PMCFGRule N T W))}
    (hout : R.parses o word fuel m = some out) {i j : Nat} {t t' : GornTree (PMCFGRule N T W)} {d d' : DTree (PMCFGRule N T W)} (hij : i < j)
    (hi : out[i]? = some t) (hj : out[j]? = some t') (hd : TreeOf d t) (hd' : TreeOf d' t') :
    d.cost (fun r => (e r.weight).cost) ≤
      γ ^ 2 * roundFactor ε ^ (4 * ((word.length + 1) * (R.generator.states + 1)) ^ 2) * d'.cost fun r => (e r.weight).cost := by
  have hW : RoundedLogs W := ⟨r, ε, e, he.within, he.strict, he.zero, he.one, he.mul⟩
  have hone : (e 1).cost = 0 := by
    rw [he.one]
    show Real.toNNReal (-0) = 0
    simp
  obtain ⟨ds, all, h1, h2, _, m₀, fuel₀, h3⟩ := @parses_near N T W _ _ hW.weight factorize (fun w => (e w).cost) (roundFactor ε) order g R width (nearLog he hW)
    hone hR ho hlen hg (fun r hr w h => (hw _ (List.mem_of_getElem? (mem_indexed.1 hr)) w h).1) (fun r hr w h => (hw r hr w h).2) hcyc hpre word hn0 hn o hb0 hs
  obtain ⟨k, hk⟩ := (h3 m fuel₀ le_rfl).1
  have := C54_deterministic hout hk
  subst this
  have hget : ∀ {i : Nat} {t : GornTree (PMCFGRule N T W)} {d : DTree (PMCFGRule N T W)}, (all.take k)[i]? = some t → TreeOf d t → ∃ e, ds[i]? = some (e, d) := by
    intro i t d hi hd
    obtain ⟨hlt, hi'⟩ := List.getElem?_eq_some_iff.1 hi
    rw [List.length_take] at hlt
    rw [List.getElem_take] at hi'
    have hl := h1.2.length_eq
    have := (List.forall₂_iff_get.1 h1.2).2 i (by omega) (by omega)
    simp only [List.get_eq_getElem, hi'] at this
    refine ⟨(ds[i]'(by omega)).1, ?_⟩
    rw [List.getElem?_eq_getElem (by omega), Option.some.injEq]
    exact Prod.ext rfl (at?_ext _ _ fun p => by rw [← this.2 p, hd.2 p])
  obtain ⟨x, hx⟩ := hget hi hd
  obtain ⟨x', hx'⟩ := hget hj hd'
  obtain ⟨hlx, hx1⟩ := List.getElem?_eq_some_iff.1 hx
  obtain ⟨hlx', hx1'⟩ := List.getElem?_eq_some_iff.1 hx'
  obtain ⟨_, u, hu, _⟩ := h1.1 x d (List.mem_of_getElem? hx)
  obtain ⟨_, u', hu', _⟩ := h1.1 x' d' (List.mem_of_getElem? hx')
  have hord := List.pairwise_iff_getElem.1 h2 i j (by simpa using hlx) (by simpa using hlx') hij
  simp only [List.getElem_map, hx1, hx1'] at hord
  calc d.cost (fun r => (e r.weight).cost) ≤ γ * d.cost (factorCost (fun w => (e w).cost) factorize) := cost_le (fun r hr => (hγ r hr).2) hu
    _ ≤ γ * (roundFactor ε ^ (4 * ((word.length + 1) * (R.generator.states + 1)) ^ 2) * d'.cost (factorCost (fun w => (e w).cost) factorize)) :=
      mul_le_mul_right hord _
    _ ≤ γ * (roundFactor ε ^ (4 * ((word.length + 1) * (R.generator.states + 1)) ^ 2) * (γ * d'.cost fun r => (e r.weight).cost)) :=
      mul_le_mul_right (mul_le_mul_right (cost_le (fun r hr => (hγ r hr).1) hu') _) _
    _ = _ := by ring

/-- **C104** If nothing is rounded, then the derivations are in ascending order of their costs. -/
theorem C104_exact {N T W : Type} [DecidableEq N] [DecidableEq T] [Zero W] [One W] [Mul W] [LinearOrder W] {r : Rounding} {e : W → LogWeight r}
    {factorize : W → Nat → List W} {order : Nat → List Nat → List Nat} {g : Lcfrs N T W} {width : Nat} {R : CsRep N T W} {word : List T}
    (he : LogsBy r 0 e) (hR : CsRep.new factorize order g width = some R) (ho : HashOrder order) (hlen : ∀ w n, (factorize w n).length = n)
    (hw : ∀ r ∈ g.rules, ∀ w ∈ factorize r.weight r.composition.length, w ≤ 1 ∧ w ≠ 0) (hg : ParserGrammar g.rules g.init)
    (hf : ∀ r ∈ g.rules, ((factorize r.weight r.composition.length).map fun w => (e w).cost).sum = (e r.weight).cost)
    (hcyc : NoVariableCycle g.rules) (hpre : Preterminals g.rules) {o : CsOptions W} (hb0 : 0 < o.beam.getD R.generator.states)
    (hs : o.beam.getD R.generator.states ≤ 65535) (hn0 : 0 < word.length) (hn : word.length ≤ 255) {m fuel : Nat} {out : List (GornTree (PMCFGRule N T W))}
    (hout : R.parses o word fuel m = some out) {i j : Nat} {t t' : GornTree (PMCFGRule N T W)} {d d' : DTree (PMCFGRule N T W)} (hij : i < j)
    (hi : out[i]? = some t) (hj : out[j]? = some t') (hd : TreeOf d t) (hd' : TreeOf d' t') :
    d.cost (fun r => (e r.weight).cost) ≤ d'.cost fun r => (e r.weight).cost := by
  have := C104_order he hR ho hlen hw hg (γ := 1) (fun r hr => by rw [hf r hr, one_mul]; exact ⟨le_rfl, le_rfl⟩) hcyc hpre hb0 hs hn0 hn hout hij hi hj hd hd'
  simpa [roundFactor] using this

namespace C104Example
open C102Example

/-- `S → A`, `A → B`, `B → C`, `C → 7`, `S → D`, `D → 7`. -/
def g : Lcfrs Nat Nat Rough :=
  ⟨[⟨0, [1], [[.var 0 0]], weight 1⟩, ⟨1, [2], [[.var 0 0]], weight 1⟩, ⟨2, [3], [[.var 0 0]], weight 1⟩, ⟨3, [], [[.t 7]], weight 4⟩,
    ⟨0, [4], [[.var 0 0]], weight 2⟩, ⟨4, [], [[.t 7]], weight 4⟩], 0⟩

def fanout : Nat → Option Nat
  | 0 => some 1
  | 1 => some 1
  | 2 => some 1
  | 3 => some 1
  | 4 => some 1
  | _ => none

theorem grammar : ParserGrammar g.rules g.init where
  lcfrs := by
    refine ⟨fanout, ?_, rfl, ?_⟩
    · intro A f
      match A with
      | 0 => simp [fanout, g, eq_comm]
      | 1 => simp [fanout, g, eq_comm]
      | 2 => simp [fanout, g, eq_comm]
      | 3 => simp [fanout, g, eq_comm]
      | 4 => simp [fanout, g, eq_comm]
      | A + 5 => simp [fanout, g]
    · intro r hr
      simp only [g, List.mem_cons, List.not_mem_nil, or_false] at hr
      rcases hr with rfl | rfl | rfl | rfl | rfl | rfl
      all_goals
        refine ⟨by decide, fun i j => ?_⟩
        match i with
        | 0 => simp [varsOf, fanout]
        | i + 1 => simp [varsOf]
  normal := by
    intro r hr
    simp only [g, List.mem_cons, List.not_mem_nil, or_false] at hr
    rcases hr with rfl | rfl | rfl | rfl | rfl | rfl <;> simp
  closed := by unfold g; decide

theorem preterminals : Preterminals g.rules := by
  simp [Preterminals, g]

theorem noVariableCycle : NoVariableCycle g.rules := by
  refine ⟨fun A _ => if A = 0 then 3 else if A = 1 then 2 else if A = 2 then 1 else 0, fun r hr c i j B h1 h2 => ?_⟩
  simp only [g, List.mem_cons, List.not_mem_nil, or_false] at hr
  rcases hr with rfl | rfl | rfl | rfl | rfl | rfl
  all_goals
    match c with
    | 0 => simp at h1 <;> (obtain ⟨rfl, rfl⟩ := h1; simp at h2; subst h2; simp)
    | c + 1 => simp at h1

theorem logsBy : LogsBy C89Example.few (1 / 5) C102Example.embed :=
  ⟨C89Example.few_within, embed_laws.1, rfl, embed_laws.2.1, embed_laws.2.2⟩

theorem embed_cost {c : Nat} {h : roundCost c = c} : (C102Example.embed (weight c h)).cost = c := by
  show Real.toNNReal (- -(c : ℝ)) = c
  rw [neg_neg, Real.toNNReal_coe_nat]

theorem factors : ∀ r ∈ g.rules, ((factorize r.weight r.composition.length).map fun w => (C102Example.embed w).cost).sum = (C102Example.embed r.weight).cost := by
  intro r hr
  have : r.composition.length = 1 := by
    revert r
    decide
  rw [this]
  simp [factorize]

/-- The derivation with the cost 7, which is computed as 4. -/
def long : DTree (PMCFGRule Nat Nat Rough) :=
  .node ⟨0, [1], [[.var 0 0]], weight 1⟩ [.node ⟨1, [2], [[.var 0 0]], weight 1⟩ [.node ⟨2, [3], [[.var 0 0]], weight 1⟩ [.node ⟨3, [], [[.t 7]], weight 4⟩ []]]]

/-- The derivation with the cost 6. -/
def short : DTree (PMCFGRule Nat Nat Rough) := .node ⟨0, [4], [[.var 0 0]], weight 2⟩ [.node ⟨4, [], [[.t 7]], weight 4⟩ []]

def longTree : GornTree (PMCFGRule Nat Nat Rough) :=
  [([], ⟨0, [1], [[.var 0 0]], weight 1⟩), ([0], ⟨1, [2], [[.var 0 0]], weight 1⟩), ([0, 0], ⟨2, [3], [[.var 0 0]], weight 1⟩),
    ([0, 0, 0], ⟨3, [], [[.t 7]], weight 4⟩)]

def shortTree : GornTree (PMCFGRule Nat Nat Rough) := [([], ⟨0, [4], [[.var 0 0]], weight 2⟩), ([0], ⟨4, [], [[.t 7]], weight 4⟩)]

theorem long_tree : TreeOf long longTree := by
  refine ⟨by unfold GornTree.Sorted; decide, fun p => ?_⟩
  match p with
  | [] => rfl
  | (i + 1) :: p => simp [longTree, long, GornTree.get, DTree.at?]
  | [0] => rfl
  | 0 :: (i + 1) :: p => simp [longTree, long, GornTree.get, DTree.at?]
  | [0, 0] => rfl
  | 0 :: 0 :: (i + 1) :: p => simp [longTree, long, GornTree.get, DTree.at?]
  | [0, 0, 0] => rfl
  | 0 :: 0 :: 0 :: i :: p => simp [longTree, long, GornTree.get, DTree.at?]

theorem short_tree : TreeOf short shortTree := by
  refine ⟨by unfold GornTree.Sorted; decide, fun p => ?_⟩
  match p with
  | [] => rfl
  | (i + 1) :: p => simp [shortTree, short, GornTree.get, DTree.at?]
  | [0] => rfl
  | 0 :: i :: p => simp [shortTree, short, GornTree.get, DTree.at?]

theorem long_cost : (long.cost fun r => (C102Example.embed r.weight).cost) = 7 := by
  simp only [long, DTree.cost, costs, embed_cost]
  norm_num

theorem short_cost : (short.cost fun r => (C102Example.embed r.weight).cost) = 6 := by
  simp only [short, DTree.cost, costs, embed_cost]
  norm_num

theorem parses : ∃ R, CsRep.new factorize (fun _ l => l.dedup) g 5 = some R ∧ R.generator.states ≤ 65535 ∧
    R.parses .default [7] 30 10 = some [longTree, shortTree] := by
  have e : ((CsRep.new factorize (fun _ l => l.dedup) g 5).map fun R => decide (R.generator.states ≤ 65535 ∧
    R.parses .default [7] 30 10 = some [longTree, shortTree])) = some true := by decide +kernel
  rw [Option.map_eq_some_iff] at e
  obtain ⟨R, hR, e⟩ := e
  exact ⟨R, hR, of_decide_eq_true e⟩

end C104Example

open C104Example in
/-- **C104** The bound is not one: rounding may swap derivations. -/
theorem C104_exact_violated : ¬ C104_exact_claim := by
  intro h
  obtain ⟨R, hR, hs, hp⟩ := parses
  have := h Nat Nat C102Example.Rough C89Example.few (1 / 5) C102Example.embed C102Example.factorize _ g 5 R [7] logsBy hR C54Witness.hashOrder
    C102Example.factorize_length (by decide +kernel) grammar factors noVariableCycle preterminals hs (by simp) (by simp) _ _ _ hp 0 1 _ _ long short
    (by omega) rfl rfl long_tree short_tree
  rw [long_cost, short_cost] at this
  norm_num at this

open C104Example in
/-- The conditions hold for this grammar. -/
example : ∃ R, CsRep.new C102Example.factorize (fun _ l => l.dedup) g 5 = some R ∧ (long.cost fun r => (C102Example.embed r.weight).cost) ≤
    1 ^ 2 * roundFactor (1 / 5) ^ (4 * ((1 + 1) * (R.generator.states + 1)) ^ 2) * short.cost fun r => (C102Example.embed r.weight).cost := by
  obtain ⟨R, hR, hs, hp⟩ := parses
  have h0 : 0 < R.generator.states := by
    have e : ((CsRep.new C102Example.factorize (fun _ l => l.dedup) g 5).map fun R => decide (0 < R.generator.states)) = some true := by decide +kernel
    rw [hR, Option.map_some, Option.some.injEq] at e
    exact of_decide_eq_true e
  exact ⟨R, hR, C104_order logsBy hR C54Witness.hashOrder C102Example.factorize_length (by decide +kernel) grammar (γ := 1)
    (fun r hr => by rw [factors r hr, one_mul]; exact ⟨le_rfl, le_rfl⟩) noVariableCycle preterminals (o := .default) h0 hs (word := [7]) (by simp) (by simp) hp
    (i := 0) (j := 1) (by omega) rfl rfl long_tree short_tree⟩

end Rustomata.Props
