import Verif.Proofs.CsWords
import Verif.Model.CsParse
import Verif.Props.CsKBest

/-!
# Property C43: the candidates of the Chomsky-Schützenberger parser
-/

namespace Rustomata.Props
open Spec

section
variable {N T W : Type _} [DecidableEq N] [DecidableEq T] [LinearOrderedCommMonoidWithZero W] {factorize : W → Nat → List W}
  {rules : List (Nat × PMCFGRule N T W)} {init : N} {A : CsAutomaton T W}

/-- A derivation of a word from the initial state is given by the parts of a component. -/
theorem derives_compDerives (h : CsAutomaton.fromGrammar factorize rules init = some A) (hid : (rules.map Prod.fst).Nodup) {filter : List Bool} {word : List T}
    {ok : Nat → Nat → Nat → Prop} {t : BinTree} {w : W} (hd : (buGrammar A filter).Derives word ok 0 word.length A.initial t w) :
    ∃ rid P, CompDerives factorize rules init 0 rid P word w ∧ treeWord A.brackets t = some (compWord rid 0 P) ∧
      Dyck (compWord rid 0 P) ∧ spelled rules (compWord rid 0 P) = word.map some := by
  obtain ⟨st, ps, h1, h2, h3⟩ := CsAutomaton.fromGrammar_rep h
  have hlt := derives_state_lt h hd
  rw [h2.grammar] at hd
  have hst : st[A.initial]? = some (.non init 0) := by
    rcases h3 with h3 | ⟨h3, _⟩
    · exact h3
    · rw [show A.states = st.length from h2.len.1] at hlt
      omega
  obtain ⟨rid, P, h4, h5⟩ := (derives_stateWord h1 hid hd (le_refl _)).2 _ hst
  rw [seg_full] at h4
  rw [← h2.brackets] at h5
  refine ⟨rid, P, h4, h5, dyck_compWord _ _ _, spelled_compWord hid (fun r hr cid c f hc hf => ?_) h4⟩
  rcases grammarProds_simple rules h1 r hr cid c f hc hf with h | ⟨h, vs, hvs⟩
  · exact .inl h
  · exact .inr ⟨h, forall₂_vars hvs⟩

/-- **C43** For all charts and filters: each candidate is a Dyck word, it is the bracket word of a derivation of the context-free approximation of the grammar from
the initial nonterminal, and the sentence that it spells has as many words as the given one. -/
theorem C43_dyck (h : CsAutomaton.fromGrammar factorize rules init = some A) (hid : (rules.map Prod.fst).Nodup) {chart : DenseChart W} {filter : List Bool}
    {n m fuel : Nat} (hn : n ≤ 255) {out : List (Option (List (Bracket BracketContent)))} (hr : KIter.run A chart filter fuel n m KIter.new = some out)
    {v : List (Bracket BracketContent)} (hv : some v ∈ out) :
    Dyck v ∧ ∃ rid P u w, CompDerives factorize rules init 0 rid P u w ∧ v = compWord rid 0 P ∧ u.length = n ∧ spelled rules v = u.map some := by
  obtain ⟨t, w, h1, h2⟩ := C44_sound h hn hr hv
  obtain ⟨h3, u, h4, h5⟩ := chartDerives_exists h1
  obtain rfl : n = u.length := by omega
  obtain ⟨rid, P, h6, h7, h8, h9⟩ := derives_compDerives h hid (h5 u fun k _ _ => by simp)
  rw [h2, Option.some.injEq] at h7
  subst h7
  exact ⟨h8, rid, P, u, w, h6, rfl, rfl, h9⟩

/-- **C43** For the charts that `fill_chart` computes: if a state that is in the chart for a word of the sentence has terminal rules only for this word, and if the
sentence has more than one word or the initial state is in the chart, then each candidate spells the sentence. -/
theorem C43_sentence_partial (h : CsAutomaton.fromGrammar factorize rules init = some A) (hid : (rules.map Prod.fst).Nodup) {chart : DenseChart W}
    {filter : List Bool} {word : List T} {m fuel : Nat} (hn : word.length ≤ 255)
    (hT : ∀ i q rid a v, i < word.length → (∃ w, chart.getWeight i (i + 1) q = some (some w)) → (buGrammar A filter).nullary rid q a v → word[i]? = some a)
    (hroot : 1 < word.length ∨ ∃ w, chart.getWeight 0 word.length A.initial = some (some w))
    {out : List (Option (List (Bracket BracketContent)))} (hr : KIter.run A chart filter fuel word.length m KIter.new = some out)
    {v : List (Bracket BracketContent)} (hv : some v ∈ out) :
    Dyck v ∧ spelled rules v = word.map some ∧ ∃ rid P w, CompDerives factorize rules init 0 rid P word w ∧ v = compWord rid 0 P := by
  obtain ⟨t, w, h1, h2⟩ := C44_sound h hn hr hv
  have hd : (buGrammar A filter).Derives word (fun _ _ _ => True) 0 word.length A.initial t w := by
    rcases hroot with hl | hc
    · generalize hi : (0 : Nat) = i at h1
      generalize hj : word.length = j at h1
      cases h1 with
      | nullary _ => omega
      | unary g1 g2 g3 => exact .unary g1 trivial (chartDerives_derives hT g3 g2 (by omega))
      | binary g1 g2 g3 g4 g5 g6 g7 => exact .binary g3 trivial (chartDerives_derives hT g6 g4 (by omega)) (chartDerives_derives hT g7 g5 (by omega))
    · exact chartDerives_derives hT h1 hc (le_refl _)
  obtain ⟨rid, P, h6, h7, h8, h9⟩ := derives_compDerives h hid hd
  rw [h2, Option.some.injEq] at h7
  subst h7
  exact ⟨h8, h9, rid, P, w, h6, rfl⟩

end

/-- **C43** for all grammars in normal form. -/
def C43_claim : Prop :=
  ∀ (W : Type) [LinearOrderedCommMonoidWithZero W] (factorize : W → Nat → List W) (order : Nat → List Nat → List Nat) (g : Lcfrs Nat Nat W) (width : Nat)
    (R : CsRep Nat Nat W) (o : CsOptions W) (word : List Nat) (fuel m : Nat) (out : List (Option (List (Bracket BracketContent)))),
    CsRep.new factorize order g width = some R → R.generate o word fuel m = some out →
    ∀ v, some v ∈ out → Dyck v ∧ spelled (g.rules.zipIdx.map fun x => (x.2, x.1)) v = word.map some

namespace C43Witness

/-- `S → a`, `S → b`. -/
def grammar : Lcfrs Nat Nat Nat := ⟨[⟨0, [], [[.t 7]], 1⟩, ⟨0, [], [[.t 8]], 1⟩], 0⟩

def rep : Option (CsRep Nat Nat Nat) := CsRep.new (fun w n => List.replicate n w) (fun _ l => l.dedup) grammar 0

def result : Option (List (Option (List (Bracket BracketContent)))) := rep.bind fun R => R.generate CsOptions.default [7] 2 3

def wrong : List (Bracket BracketContent) := [.open_ (.component 1 0), .open_ .terminal, .close .terminal, .close (.component 1 0)]

theorem result_eq : (result.map fun out => decide (some wrong ∈ out)) = some true := by decide +kernel

end C43Witness

open C43Witness in
/-- **C43** is violated: the enumeration does not compare the terminals of rules to the sentence. For the grammar `S → a`, `S → b` and the sentence `a`, the
derivation of `b` is a candidate, too. -/
theorem C43_sentence_violated : ¬ C43_claim := by
  intro h
  have hr := result_eq
  unfold result at hr
  cases hR : rep with
  | none => rw [hR] at hr; cases hr
  | some R =>
    rw [hR, Option.bind_some] at hr
    cases hg : R.generate CsOptions.default [7] 2 3 with
    | none => rw [hg] at hr; cases hr
    | some out =>
      rw [hg] at hr
      simp only [Option.map_some, Option.some.injEq, decide_eq_true_eq] at hr
      have := (h Nat _ _ _ _ _ _ _ _ _ _ hR hg _ hr).2
      revert this
      decide

/-- The two candidates for the sentence `a b` and the grammar `S → X Y`, `X → a`, `Y → Z`, `Z → b`, `S → U`, `U → X Z` spell the sentence. -/
example : ∃ A c out, C44Example.aut = some A ∧ C44Example.chart A = some c ∧ KIter.run A c (List.replicate 6 true) 5 2 4 KIter.new = some out ∧
    (untilNone out).length = 2 ∧ ∀ v, some v ∈ out → Dyck v ∧ spelled C44Example.rules v = [some 7, some 8] := by
  obtain ⟨A, hA⟩ : ∃ A, C44Example.aut = some A := ⟨_, rfl⟩
  obtain ⟨c, hc⟩ : ∃ c, C44Example.chart A = some c := by
    cases hA
    exact ⟨_, rfl⟩
  have hl : (C44Example.aut.bind fun A => (C44Example.chart A).bind fun c => (KIter.run A c (List.replicate 6 true) 5 2 4 KIter.new).map fun l => (untilNone l).length) =
      some 2 := by decide +kernel
  rw [hA, Option.bind_some, hc, Option.bind_some, Option.map_eq_some_iff] at hl
  obtain ⟨out, ho, hl⟩ := hl
  refine ⟨A, c, out, hA, hc, ho, hl, fun v hv => ?_⟩
  have := C43_sentence_partial (word := [7, 8]) hA (by decide) (by decide)
    (fun i q rid a v hi hq hr => C44_terminals (word := [7, 8]) hA (by decide) hc (C44Example.terminalDet hA) hi hq hr) (.inl (by decide)) ho hv
  exact ⟨this.1, this.2.1⟩

end Rustomata.Props
