import Verif.Proofs.CsMainAny
import Verif.Props.CsFallback
import Verif.Props.Rounding

/-!
# Property C101: soundness of the parser for weights without laws

`LogDomain<f64>` rounds: the multiplication of weights is not associative. The theorems on single results of the Chomsky-Schützenberger parser do not need laws for
the weights, except that the multiplication is commutative where the weights in the chart are concerned.
-/

namespace Rustomata.Props
open Spec

section
variable {N T W : Type _} [DecidableEq N] [DecidableEq T] [Zero W] [One W] [Mul W] [LinearOrder W] {factorize : W → Nat → List W}
  {order : Nat → List Nat → List Nat} {g : Lcfrs N T W} {width : Nat} {R : CsRep N T W}

omit [Zero W] [Mul W] [LinearOrder W] in
/-- `toderiv` for such a derivation. -/
theorem toderiv_anyWeights {rules : List (PMCFGRule N T W)} {init : N} (hg : ParserGrammar rules init) {rid : Nat} {P : Parts} {u : List T} {w : W}
    (h : @CompDerives N T W (constMonoid W).toMonoid firstFactor (indexed rules) init 0 rid P u w) {t : GornTree (PMCFGRule N T W)}
    (ht : toderiv rules (compWord rid 0 P) = some (some t)) : ∃ d, t.Sorted ∧ (∀ p, t.get p = d.at? p) ∧ Derives rules init d [u] := by
  letI := constMonoid W
  rcases C45_word_partial hg.lcfrs (fun r hr => (hg.normal r hr).1) hg.closed firstFactor_factorizes h with ⟨e1, _⟩ | ⟨_, m, d, es, r, comp, e1, e2, e3, e4, _⟩
  · rw [e1] at ht
    cases ht
  · rw [e1, Option.some.injEq, Option.some.injEq] at ht
    subst ht
    exact ⟨d, e2, e3, e4⟩

omit [Mul W] [LinearOrder W] in
/-- `fallback` for such a derivation. -/
theorem fallback_anyWeights {rules : List (PMCFGRule N T W)} {init : N} (hg : ParserGrammar rules init) {rid : Nat} {P : Parts} {u : List T} {w : W}
    (h : @CompDerives N T W (constMonoid W).toMonoid firstFactor (indexed rules) init 0 rid P u w) {c : CowNode} {fuel : Nat} {t : GornTree (PMCFGRule N T W)}
    (hc : CowNode.new (compWord rid 0 P) = some c) (ht : c.fallback rules fuel = some t) : FallbackOf rules init u t := by
  letI := constMonoid W
  obtain ⟨_, _, _, hl⟩ := hg.lcfrs
  obtain ⟨t', m, fuel₀, e1, e2, e3⟩ := C55_fallback (fun r hr => (hl r hr).1) h
  rw [hc, Option.some.injEq] at e1
  subst e1
  have := fallback_mono (Nat.le_max_left fuel fuel₀) ht
  rw [e2 _ (Nat.le_max_right ..), Option.some.injEq] at this
  subst this
  exact e3

/-- The candidates of the parser. -/
theorem generate_anyWeights (hR : CsRep.new factorize order g width = some R) (hlen : ∀ w n, (factorize w n).length = n) {word : List T}
    (hn : word.length ≤ 255) {o : CsOptions W} {fuel m : Nat} {vs : List (Option (List (Bracket BracketContent)))} (h : R.generate o word fuel m = some vs)
    {v : List (Bracket BracketContent)} (hv : some v ∈ vs) :
    R.rules = g.rules ∧ ∃ rid P u w, v = compWord rid 0 P ∧ @CompDerives N T W (constMonoid W).toMonoid firstFactor (indexed g.rules) g.init 0 rid P u w ∧
      u.length = word.length := by
  unfold CsRep.new at hR
  split at hR
  swap
  · cases hR
  split at hR
  swap
  · cases hR
  split at hR
  swap
  · cases hR
  rename_i A masks hA hmk
  change CsAutomaton.fromGrammar factorize (indexed g.rules) g.init = some A at hA
  rw [Option.map_eq_some_iff] at hR
  obtain ⟨outs, houts, rfl⟩ := hR
  unfold CsRep.generate at h
  split at h
  · cases h
  split at h
  · cases h
  rename_i mask hmask _ chart hchart
  obtain ⟨tr, w, h1, h2⟩ := C44_sound hA hn h hv
  obtain ⟨_, u, h3, h4⟩ := chartDerives_word h1
  have h5 := h4 [] [] rfl
  rw [List.nil_append, List.append_nil] at h5
  have hu : u.length = word.length := by omega
  rw [← hu] at h5
  obtain ⟨rid, P, w', c1, c2⟩ := derives_anyWeights hA hlen h5
  rw [h2, Option.some.injEq] at c2
  exact ⟨rfl, rid, P, u, w', c2, c1, hu⟩

/-- The trees that `parses` returns come from candidates. -/
theorem parses_mem {o : CsOptions W} {word : List T} {fuel m : Nat} {out : List (GornTree (PMCFGRule N T W))} (h : R.parses o word fuel m = some out)
    {t : GornTree (PMCFGRule N T W)} (ht : t ∈ out) : ∃ vs v, R.generate o word fuel m = some vs ∧ some v ∈ vs ∧ toderiv R.rules v = some (some t) := by
  unfold CsRep.parses at h
  rw [Option.bind_eq_some_iff] at h
  obtain ⟨vs, hvs, h⟩ := h
  obtain ⟨v, hv, hvt⟩ := mem_filterMapP h ht
  exact ⟨vs, v, hvs, mem_untilNone (mem_limit hv), hvt⟩

/-- The fallback comes from a candidate. -/
theorem fallback_mem {o : CsOptions W} {word : List T} {fuel : Nat} {t : GornTree (PMCFGRule N T W)} (h : R.fallback o word fuel = some (some t)) :
    ∃ vs v c, R.generate o word fuel 1 = some vs ∧ some v ∈ vs ∧ CowNode.new v = some c ∧ c.fallback R.rules fuel = some t := by
  unfold CsRep.fallback at h
  rw [Option.bind_eq_some_iff] at h
  obtain ⟨vs, hvs, h⟩ := h
  split at h
  · cases h
  rename_i v vs' hvv
  rw [Option.bind_eq_some_iff] at h
  obtain ⟨c, hc, h⟩ := h
  rw [Option.map_eq_some_iff] at h
  obtain ⟨t', ht', h⟩ := h
  cases h
  exact ⟨vs, v, c, hvs, mem_untilNone (by rw [hvv]; exact List.mem_cons_self ..), hc, ht'⟩

omit [DecidableEq N] [DecidableEq T] [Zero W] [One W] [Mul W] [LinearOrder W] in
theorem firstDeriv_mem {rules : List (PMCFGRule N T W)} : ∀ {words : List (List (Bracket BracketContent))} {n n' : Nat} {t : GornTree (PMCFGRule N T W)},
    firstDeriv rules words n = some (some t, n') → ∃ v ∈ words, toderiv rules v = some (some t)
  | [], n, n', t, h => by simp [firstDeriv] at h
  | v :: words, n, n', t, h => by
    unfold firstDeriv at h
    split at h
    · cases h
    · rename_i t' ht'
      simp only [Option.some.injEq, Prod.mk.injEq] at h
      exact ⟨v, List.mem_cons_self .., h.1 ▸ ht'⟩
    · obtain ⟨v', h1, h2⟩ := firstDeriv_mem h
      exact ⟨v', List.mem_cons_of_mem _ h1, h2⟩

/-- The result of `debug` comes from a candidate. -/
theorem debug_mem {o : CsOptions W} {word : List T} {fuel m : Nat} {res : DebugResult N T W} (h : R.debug o word fuel m = some res) :
    (∀ t n, res = .parse t n → ∃ vs v, R.generate o word fuel m = some vs ∧ some v ∈ vs ∧ toderiv R.rules v = some (some t)) ∧
    ∀ t n, res = .fallback t n → ∃ vs v c, R.generate o word fuel m = some vs ∧ some v ∈ vs ∧ CowNode.new v = some c ∧ c.fallback R.rules fuel = some t := by
  unfold CsRep.debug at h
  rw [Option.bind_eq_some_iff] at h
  obtain ⟨vs, hvs, h⟩ := h
  split at h
  · cases h
  · rename_i t n ht
    cases h
    obtain ⟨v, h1, h2⟩ := firstDeriv_mem ht
    refine ⟨fun t' n' e => ?_, (fun t' n' e => nomatch e)⟩
    cases e
    exact ⟨vs, v, hvs, mem_untilNone (mem_limit h1), h2⟩
  · split at h
    · cases h
      exact ⟨(fun t' n' e => nomatch e), (fun t' n' e => nomatch e)⟩
    · rename_i v vs' hvv
      rw [Option.bind_eq_some_iff] at h
      obtain ⟨c, hc, h⟩ := h
      rw [Option.map_eq_some_iff] at h
      obtain ⟨t', ht', h⟩ := h
      cases h
      refine ⟨(fun t' n' e => nomatch e), fun t'' n' e => ?_⟩
      cases e
      exact ⟨vs, v, c, hvs, mem_untilNone (mem_limit (by rw [hvv]; exact List.mem_cons_self ..)), hc, ht'⟩

/-- **C101** For weights without laws, all grammars in normal form and all options: each tree that is returned is a derivation of some sentence with the same number of
words. -/
theorem C101_length (hR : CsRep.new factorize order g width = some R) (hlen : ∀ w n, (factorize w n).length = n) (hg : ParserGrammar g.rules g.init)
    {word : List T} (hn : word.length ≤ 255) {o : CsOptions W} {fuel m : Nat} :
    (∀ out, R.parses o word fuel m = some out → ∀ t ∈ out, ∃ d u, t.Sorted ∧ (∀ p, t.get p = d.at? p) ∧ Derives g.rules g.init d [u] ∧ u.length = word.length) ∧
    (∀ t, R.fallback o word fuel = some (some t) → ∃ u, FallbackOf g.rules g.init u t ∧ u.length = word.length) ∧
    (∀ t n, R.debug o word fuel m = some (.parse t n) →
      ∃ d u, t.Sorted ∧ (∀ p, t.get p = d.at? p) ∧ Derives g.rules g.init d [u] ∧ u.length = word.length) ∧
    ∀ t n, R.debug o word fuel m = some (.fallback t n) → ∃ u, FallbackOf g.rules g.init u t ∧ u.length = word.length := by
  refine ⟨fun out hout t ht => ?_, fun t ht => ?_, fun t n ht => ?_, fun t n ht => ?_⟩
  · obtain ⟨vs, v, h1, h2, h3⟩ := parses_mem hout ht
    obtain ⟨e, rid, P, u, w, rfl, h4, hu⟩ := generate_anyWeights hR hlen hn h1 h2
    rw [e] at h3
    obtain ⟨d, k1, k2, k3⟩ := toderiv_anyWeights hg h4 h3
    exact ⟨d, u, k1, k2, k3, hu⟩
  · obtain ⟨vs, v, c, h1, h2, h3, h3'⟩ := fallback_mem ht
    obtain ⟨e, rid, P, u, w, rfl, h4, hu⟩ := generate_anyWeights hR hlen hn h1 h2
    rw [e] at h3'
    exact ⟨u, fallback_anyWeights hg h4 h3 h3', hu⟩
  · obtain ⟨vs, v, h1, h2, h3⟩ := (debug_mem ht).1 t n rfl
    obtain ⟨e, rid, P, u, w, rfl, h4, hu⟩ := generate_anyWeights hR hlen hn h1 h2
    rw [e] at h3
    obtain ⟨d, k1, k2, k3⟩ := toderiv_anyWeights hg h4 h3
    exact ⟨d, u, k1, k2, k3, hu⟩
  · obtain ⟨vs, v, c, h1, h2, h3, h3'⟩ := (debug_mem ht).2 t n rfl
    obtain ⟨e, rid, P, u, w, rfl, h4, hu⟩ := generate_anyWeights hR hlen hn h1 h2
    rw [e] at h3'
    exact ⟨u, fallback_anyWeights hg h4 h3 h3', hu⟩

end

section
variable {N T W : Type _} [DecidableEq N] [DecidableEq T] [Zero W] [One W] [CommMagma W] [LinearOrder W] {factorize : W → Nat → List W}
  {order : Nat → List Nat → List Nat} {g : Lcfrs N T W} {width : Nat} {R : CsRep N T W}

/-- The candidates of the parser for grammars with preterminals. -/
theorem generate_sentence (hR : CsRep.new factorize order g width = some R) (ho : HashOrder order) (hlen : ∀ w n, (factorize w n).length = n)
    (hg : ParserGrammar g.rules g.init) (hpre : Preterminals g.rules) {word : List T} (hn : word.length ≤ 255) {o : CsOptions W} {fuel m : Nat}
    {vs : List (Option (List (Bracket BracketContent)))} (h : R.generate o word fuel m = some vs) {v : List (Bracket BracketContent)} (hv : some v ∈ vs) :
    R.rules = g.rules ∧ ∃ rid P w, v = compWord rid 0 P ∧ @CompDerives N T W (constMonoid W).toMonoid firstFactor (indexed g.rules) g.init 0 rid P word w := by
  unfold CsRep.new at hR
  split at hR
  swap
  · cases hR
  split at hR
  swap
  · cases hR
  split at hR
  swap
  · cases hR
  rename_i A masks hA hmk
  change CsAutomaton.fromGrammar factorize (indexed g.rules) g.init = some A at hA
  rw [Option.map_eq_some_iff] at hR
  obtain ⟨outs, houts, rfl⟩ := hR
  have hi := initial_lt hA hg hlen
  obtain ⟨st, ps, h1, hnd, h3, h4, hbr, h6, _, h7⟩ := C42_tables hA
  obtain ⟨mask, hm1, hm2, hm3, hm4⟩ := mask_spec hlen h1 h3 ho hg hmk word
  unfold CsRep.generate at h
  simp only [hm1] at h
  split at h
  · cases h
  rename_i chart hchart
  obtain ⟨tr, w, h1, h2⟩ := C44_sound hA hn h hv
  obtain ⟨rid, P, w', c1, c2⟩ := derives_anyWeights hA hlen (chart_sound hA hg hpre hm3 hn hchart hi h1)
  rw [h2, Option.some.injEq] at c2
  exact ⟨rfl, rid, P, w', c2, c1⟩

/-- **C101** for grammars in which each nonterminal with a terminal rule has only rules for this terminal: for weights with a commutative multiplication and all options,
each tree that is returned is a derivation of the sentence. -/
theorem C101_sentence_partial (hR : CsRep.new factorize order g width = some R) (ho : HashOrder order) (hlen : ∀ w n, (factorize w n).length = n)
    (hg : ParserGrammar g.rules g.init) (hpre : Preterminals g.rules) {word : List T} (hn : word.length ≤ 255) {o : CsOptions W} {fuel m : Nat} :
    (∀ out, R.parses o word fuel m = some out → ∀ t ∈ out, ∃ d, t.Sorted ∧ (∀ p, t.get p = d.at? p) ∧ Derives g.rules g.init d [word]) ∧
    (∀ t, R.fallback o word fuel = some (some t) → FallbackOf g.rules g.init word t) ∧
    (∀ t n, R.debug o word fuel m = some (.parse t n) → ∃ d, t.Sorted ∧ (∀ p, t.get p = d.at? p) ∧ Derives g.rules g.init d [word]) ∧
    ∀ t n, R.debug o word fuel m = some (.fallback t n) → FallbackOf g.rules g.init word t := by
  refine ⟨fun out hout t ht => ?_, fun t ht => ?_, fun t n ht => ?_, fun t n ht => ?_⟩
  · obtain ⟨vs, v, h1, h2, h3⟩ := parses_mem hout ht
    obtain ⟨e, rid, P, w, rfl, h4⟩ := generate_sentence hR ho hlen hg hpre hn h1 h2
    rw [e] at h3
    exact toderiv_anyWeights hg h4 h3
  · obtain ⟨vs, v, c, h1, h2, h3, h3'⟩ := fallback_mem ht
    obtain ⟨e, rid, P, w, rfl, h4⟩ := generate_sentence hR ho hlen hg hpre hn h1 h2
    rw [e] at h3'
    exact fallback_anyWeights hg h4 h3 h3'
  · obtain ⟨vs, v, h1, h2, h3⟩ := (debug_mem ht).1 t n rfl
    obtain ⟨e, rid, P, w, rfl, h4⟩ := generate_sentence hR ho hlen hg hpre hn h1 h2
    rw [e] at h3
    exact toderiv_anyWeights hg h4 h3
  · obtain ⟨vs, v, c, h1, h2, h3, h3'⟩ := (debug_mem ht).2 t n rfl
    obtain ⟨e, rid, P, w, rfl, h4⟩ := generate_sentence hR ho hlen hg hpre hn h1 h2
    rw [e] at h3'
    exact fallback_anyWeights hg h4 h3 h3'

end

/-- The full claim **C101**: for weights with a commutative multiplication, all grammars in normal form, sentences of at most 255 words, and all options, each tree
that the parser returns is a derivation of the sentence. -/
def C101_claim : Prop :=
  ∀ (N T W : Type) [DecidableEq N] [DecidableEq T] [Zero W] [One W] [CommMagma W] [LinearOrder W] (factorize : W → Nat → List W)
    (order : Nat → List Nat → List Nat) (g : Lcfrs N T W) (width : Nat) (R : CsRep N T W) (word : List T) (o : CsOptions W) (fuel m : Nat)
    (out : List (GornTree (PMCFGRule N T W))),
    CsRep.new factorize order g width = some R → HashOrder order → (∀ w n, (factorize w n).length = n) → ParserGrammar g.rules g.init → word.length ≤ 255 →
    R.parses o word fuel m = some out → ∀ t ∈ out, ∃ d, t.Sorted ∧ (∀ p, t.get p = d.at? p) ∧ Derives g.rules g.init d [word]

open C54Witness in
/-- **C101** is violated by nonterminals with rules for several terminals. -/
theorem C101_violated : ¬ C101_claim := by
  intro h
  obtain ⟨R, res, t, hR, hres, ht, r', hr', hroot⟩ := wrong (c := [[.t 8]]) lexicon_result (by simp)
  obtain ⟨d, _, he, hd⟩ := h Nat Nat Nat _ _ lexicon 5 R [7] _ _ _ _ hR hashOrder (fun w n => (C45Example.factorizes w n).1) lexicon_grammar (by simp) hres t ht
  obtain ⟨r, h1, h2, ds, args, rfl, _, h3⟩ := derives_inv hd
  have he := he []
  rw [hr'] at he
  cases he
  rw [hroot] at h3
  simp [compose, substAll, subst] at h3

/-- Weights of `LogDomain<f64>`: rounded sums of logarithms. -/
instance logWeightZero {r : Rounding} : Zero (LogWeight r) := ⟨LogWeight.ofZero⟩

instance logWeightCommMagma {r : Rounding} : CommMagma (LogWeight r) where
  mul_comm a b := by
    show LogWeight.mul a b = LogWeight.mul b a
    match a, b with
    | some x, some y =>
      simp only [LogWeight.mul]
      congr 1
      rw [add_comm]
    | some _, none => rfl
    | none, some _ => rfl
    | none, none => rfl

/-- **C101** for the weights of the tool, however they are rounded. -/
theorem C101_logarithms {N T : Type _} [DecidableEq N] [DecidableEq T] {r : Rounding} {factorize : LogWeight r → Nat → List (LogWeight r)}
    {order : Nat → List Nat → List Nat} {g : Lcfrs N T (LogWeight r)} {width : Nat} {R : CsRep N T (LogWeight r)}
    (hR : CsRep.new factorize order g width = some R) (ho : HashOrder order) (hlen : ∀ w n, (factorize w n).length = n) (hg : ParserGrammar g.rules g.init)
    (hpre : Preterminals g.rules) {word : List T} (hn : word.length ≤ 255) {o : CsOptions (LogWeight r)} {fuel m : Nat}
    {out : List (GornTree (PMCFGRule N T (LogWeight r)))} (h : R.parses o word fuel m = some out) {t : GornTree (PMCFGRule N T (LogWeight r))} (ht : t ∈ out) :
    ∃ d, t.Sorted ∧ (∀ p, t.get p = d.at? p) ∧ Derives g.rules g.init d [word] :=
  (C101_sentence_partial hR ho hlen hg hpre hn (o := o) (fuel := fuel) (m := m)).1 out h t ht

namespace C101Example

/-- Weights whose products are rounded: a weight `n > 0` has the cost `20 - n`, and costs above 4 are rounded to even numbers. -/
structure Rough where
  val : Nat
  deriving DecidableEq

namespace Rough

instance : LinearOrder Rough := LinearOrder.lift' Rough.val (fun a b h => by cases a; cases b; cases h; rfl)
instance : Zero Rough := ⟨⟨0⟩⟩
instance : One Rough := ⟨⟨20⟩⟩

def roundCost (c : Nat) : Nat := if c ≤ 4 then c else 2 * ((c + 1) / 2)

instance : CommMagma Rough where
  mul a b := ⟨if a.val = 0 ∨ b.val = 0 then 0 else 20 - roundCost ((20 - a.val) + (20 - b.val))⟩
  mul_comm a b := by
    show Rough.mk _ = Rough.mk _
    simp only [or_comm, Nat.add_comm]

end Rough

/-- Multiplication is not associative. -/
example : ∃ a b c : Rough, a * b * c ≠ a * (b * c) := ⟨⟨16⟩, ⟨19⟩, ⟨19⟩, by decide⟩

/-- The first factor is the weight, the others are one. -/
def factorize (w : Rough) : Nat → List Rough
  | 0 => []
  | n + 1 => w :: List.replicate n 1

theorem factorize_length (w : Rough) (n : Nat) : (factorize w n).length = n := by cases n <;> simp [factorize]

/-- `S → [x₀,₀ x₁,₀] (A, B)`, `S → [x₁,₀ x₀,₀] (B, A)`, `A → [7] ()`, `B → [8] ()`. -/
def g : Lcfrs Nat Nat Rough :=
  ⟨[⟨0, [1, 2], [[.var 0 0, .var 1 0]], ⟨19⟩⟩, ⟨0, [2, 1], [[.var 1 0, .var 0 0]], ⟨17⟩⟩, ⟨1, [], [[.t 7]], ⟨16⟩⟩, ⟨2, [], [[.t 8]], ⟨19⟩⟩], 0⟩

def fanout : Nat → Option Nat
  | 0 => some 1
  | 1 => some 1
  | 2 => some 1
  | _ => none

theorem grammar : ParserGrammar g.rules g.init where
  lcfrs := by
    refine ⟨fanout, ?_, rfl, ?_⟩
    · intro A f
      match A with
      | 0 => simp [fanout, g, eq_comm]
      | 1 => simp [fanout, g, eq_comm]
      | 2 => simp [fanout, g, eq_comm]
      | A + 3 => simp [fanout, g]
    · intro r hr
      simp only [g, List.mem_cons, List.not_mem_nil, or_false] at hr
      rcases hr with rfl | rfl | rfl | rfl
      · refine ⟨by decide, fun i j => ?_⟩
        match i with
        | 0 => simp [varsOf, fanout]
        | 1 => simp [varsOf, fanout]
        | i + 2 => simp [varsOf]
      · refine ⟨by decide, fun i j => ?_⟩
        match i with
        | 0 => simp [varsOf, fanout]
        | 1 => simp [varsOf, fanout]
        | i + 2 => simp [varsOf]
      · exact ⟨by decide, fun i j => by simp [varsOf]⟩
      · exact ⟨by decide, fun i j => by simp [varsOf]⟩
  normal := by
    intro r hr
    simp only [g, List.mem_cons, List.not_mem_nil, or_false] at hr
    rcases hr with rfl | rfl | rfl | rfl <;> simp
  closed := by unfold g; decide

theorem preterminals : Preterminals g.rules := by
  simp [Preterminals, g]

end C101Example

open C101Example in
/-- Both derivations are found with rounded weights. -/
example : ∃ R out t₁ t₂, CsRep.new factorize (fun _ l => l.dedup) g 5 = some R ∧ R.parses .default [7, 8] 30 10 = some out ∧ out = [t₁, t₂] ∧
    ∃ d₁ d₂, (∀ p, GornTree.get t₁ p = d₁.at? p) ∧ (∀ p, GornTree.get t₂ p = d₂.at? p) ∧ Derives g.rules g.init d₁ [[7, 8]] ∧ Derives g.rules g.init d₂ [[7, 8]] := by
  have h : ((CsRep.new factorize (fun _ l => l.dedup) g 5).bind fun R => (R.parses .default [7, 8] 30 10).map List.length) = some 2 := by decide +kernel
  rw [Option.bind_eq_some_iff] at h
  obtain ⟨R, hR, h⟩ := h
  rw [Option.map_eq_some_iff] at h
  obtain ⟨out, hout, h⟩ := h
  match out, h with
  | [t₁, t₂], _ =>
    have := (C101_sentence_partial hR C54Witness.hashOrder factorize_length grammar preterminals (word := [7, 8]) (by simp) (o := .default) (fuel := 30) (m := 10)).1 _ hout
    obtain ⟨d₁, _, h1, h2⟩ := this t₁ (by simp)
    obtain ⟨d₂, _, h3, h4⟩ := this t₂ (by simp)
    exact ⟨R, _, t₁, t₂, hR, hout, rfl, d₁, d₂, h1, h3, h2, h4⟩

end Rustomata.Props
