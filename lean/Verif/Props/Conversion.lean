import Verif.Proofs.CfgPmcfg
import Verif.Proofs.Separate
import Verif.Props.Pmcfg

/-!
# Properties of grammar conversions

Only property theorems and the examples that show their hypotheses to be satisfiable.
-/

namespace Rustomata.Props
open Rustomata Rustomata.Spec
variable {N T W : Type _}

/-! ### C25 -/

/-- The full claim **C25**: if the conversion does not panic, then the CFG has a leftmost derivation of a word with a
weight iff the PMCFG has a derivation of the word with this weight. -/
def C25_claim : Prop :=
  ∀ (N T W : Type) (_ : CommMonoid W) (g : PMCFG N T W) (g' : CFG N T W), CFG.ofPmcfg g = some g' →
    ∀ w u, PGenerates g.initial g.rules w u ↔ ∃ S ∈ g'.initial, ∃ rs, Leftmost g' [.label S] rs w ∧ ruleWeight rs = u

/-- **C25 is violated** by copying rules: `S → [x₀,₀ x₀,₀] (A)`, `A → [0] ()`, `A → [1] ()` does not generate `0 1`,
but the CFG does. -/
theorem C25_cfg_copying_violated : ¬ C25_claim := by
  intro h
  let g : PMCFG Nat Nat Nat := ⟨[0], [⟨0, [1], [[.var 0 0, .var 0 0]], 1⟩, ⟨1, [], [[.t 0]], 1⟩, ⟨1, [], [[.t 1]], 1⟩]⟩
  let g' : CFG Nat Nat Nat := ⟨[0], [⟨0, [.label 1, .label 1], 1⟩, ⟨1, [.value 0], 1⟩, ⟨1, [.value 1], 1⟩]⟩
  obtain ⟨S, hS, d, hd, _⟩ := (h Nat Nat Nat inferInstance g g' rfl [0, 1] 1).2
    ⟨0, by simp [g'], [⟨0, [.label 1, .label 1], 1⟩, ⟨1, [.value 0], 1⟩, ⟨1, [.value 1], 1⟩],
      .expand (r := ⟨0, [.label 1, .label 1], 1⟩) (by decide) (.expand (r := ⟨1, [.value 0], 1⟩) (by decide)
        (.read (.expand (r := ⟨1, [.value 1], 1⟩) (by decide) (.read .nil)))), rfl⟩
  simp [g] at hS
  subst hS
  generalize hv : [[0, 1]] = v at hd
  generalize hA : 0 = A at hd
  cases hd with
  | @node r ds args v hr hch hc =>
    simp only [g, List.mem_cons, List.not_mem_nil, or_false] at hr
    rcases hr with rfl | rfl | rfl
    · cases args with
      | nil => simp [compose, substAll, subst] at hc
      | cons x args =>
        simp only [compose, substAll, subst, List.mapM_cons, List.mapM_nil, List.getElem?_cons_zero, Option.bind_some] at hc
        cases hx : x[0]? with
        | none => simp [hx] at hc
        | some y =>
          simp [hx] at hc
          rw [← hv] at hc
          rcases y with _ | ⟨a, _ | ⟨b, y⟩⟩ <;> simp at hc
          omega
    · cases hA
    · cases hA

/-- **C25 is violated** by deleting rules: `S → [0] (A)` without rules for `A` does not generate `0`, but the CFG does. -/
theorem C25_cfg_deleting_violated :
    let g : PMCFG Nat Nat Nat := ⟨[0], [⟨0, [1], [[.t 0]], 1⟩]⟩
    ∃ g', CFG.ofPmcfg g = some g' ∧ (∃ S ∈ g'.initial, ∃ rs, Leftmost g' [.label S] rs [0] ∧ ruleWeight rs = 1) ∧
      ¬ PGenerates g.initial g.rules [0] 1 := by
  refine ⟨⟨[0], [⟨0, [.value 0], 1⟩]⟩, rfl, ⟨0, by simp, [⟨0, [.value 0], 1⟩], .expand (r := ⟨0, [.value 0], 1⟩) (by simp) (.read .nil), rfl⟩, ?_⟩
  rintro ⟨S, _, d, hd, _⟩
  cases hd with
  | node hr hch _ =>
    simp at hr
    subst hr
    cases hch with
    | cons h _ =>
      generalize hA : 1 = A at h
      cases h with
      | node hr _ _ =>
        have := congrArg PMCFGRule.head (List.mem_singleton.1 hr)
        simp at this
        omega

/-- **C25, partial**: the claim holds if each rule uses each nonterminal of its right-hand side exactly once. -/
theorem C25_cfg_language_partial [CommMonoid W] (g : PMCFG N T W) (g' : CFG N T W) (hg : CFG.ofPmcfg g = some g')
    (hs : ∀ r ∈ g.rules, (varsOf r.composition).Perm ((List.range r.tail.length).map fun i => (i, 0))) (w : List T) (u : W) :
    PGenerates g.initial g.rules w u ↔ ∃ S ∈ g'.initial, ∃ rs, Leftmost g' [.label S] rs w ∧ ruleWeight rs = u := by
  have hi := (mem_ofPmcfg hg).1
  constructor
  · rintro ⟨S, hS, d, hd, rfl⟩
    obtain ⟨w', rs, h1, h2, h3⟩ := derives_leftmost hg hs hd
    cases h1
    exact ⟨S, by rw [hi]; exact hS, rs, h2, h3⟩
  · rintro ⟨S, hS, rs, h, rfl⟩
    obtain ⟨d, hd, hw⟩ := leftmost_derives hg hs rs.length le_rfl h
    exact ⟨S, by rw [← hi]; exact hS, d, hd, hw⟩

/-- **C25**: the conversion panics iff some rule does not have exactly one component, uses a component other than the first,
or uses a nonterminal that it does not have. -/
theorem C25_cfg_panics (g : PMCFG N T W) :
    CFG.ofPmcfg g = none ↔ ∃ r ∈ g.rules, r.composition.length ≠ 1 ∨ ∃ i j, (i, j) ∈ varsOf r.composition ∧ (j ≠ 0 ∨ r.tail.length ≤ i) := by
  unfold CFG.ofPmcfg
  rw [Option.map_eq_none_iff, mapM_none_iff]
  refine exists_congr fun r => and_congr_right fun _ => ?_
  unfold cfgRule
  have hl : ∀ c : List (VarT T), cfgLetters r.tail c = none ↔ ∃ i j, (i, j) ∈ varsOf [c] ∧ (j ≠ 0 ∨ r.tail.length ≤ i) := by
    intro c
    induction c with
    | nil => simp [cfgLetters, varsOf]
    | cons x c ih =>
      rw [varsOf_cons]
      cases x with
      | t a => simpa [cfgLetters] using ih
      | var i j =>
        cases j with
        | succ j => simp [cfgLetters]; exact ⟨i, j + 1, by simp⟩
        | zero =>
          simp only [cfgLetters]
          cases hi : r.tail[i]? with
          | none => simp only [true_iff]; exact ⟨i, 0, by simp, Or.inr (by simpa using hi)⟩
          | some A =>
            have hlt := (List.getElem?_eq_some_iff.1 hi).1
            rw [Option.map_eq_none_iff, ih]
            constructor
            · rintro ⟨i', j', h1, h2⟩; exact ⟨i', j', by simp [h1], h2⟩
            · rintro ⟨i', j', h1, h2⟩
              rcases List.mem_append.1 h1 with h1 | h1
              · simp at h1; omega
              · exact ⟨i', j', h1, h2⟩
  rcases hc : r.composition with _ | ⟨c, _ | ⟨c', cs⟩⟩
  · simp
  · simp only [Option.map_eq_none_iff, List.length_cons, List.length_nil]
    rw [hl]; simp
  · simp

/-- A grammar as in the hypothesis, with the order of the nonterminals exchanged, that generates a word. -/
example :
    let g : PMCFG Nat Nat Nat := ⟨[0], [⟨0, [1, 2], [[.var 1 0, .t 5, .var 0 0]], 2⟩, ⟨1, [], [[.t 6]], 3⟩, ⟨2, [], [[.t 7]], 5⟩]⟩
    (∃ g', CFG.ofPmcfg g = some g') ∧
    (∀ r ∈ g.rules, (varsOf r.composition).Perm ((List.range r.tail.length).map fun i => (i, 0))) ∧
    PGenerates g.initial g.rules [7, 5, 6] 30 := by
  refine ⟨⟨_, rfl⟩, by decide, 0, by simp, _, .node (r := ⟨0, [1, 2], [[.var 1 0, .t 5, .var 0 0]], 2⟩) (args := [[[6]], [[7]]]) (by simp)
    (.cons (.node (r := ⟨1, [], [[.t 6]], 3⟩) (by simp) .nil rfl) (.cons (.node (r := ⟨2, [], [[.t 7]], 5⟩) (by simp) .nil rfl) .nil)) rfl, rfl⟩

/-! ### C38 -/

section C38
variable {HT : Type _} [DecidableEq HT]

/-- The full claim **C38** about the normal form. -/
def C38_normal_form_claim : Prop :=
  ∀ (HT W : Type) (_ : DecidableEq HT) (ext : HT → HT → HT) (m m' : GornTree (PMCFGRule HT HT W)),
    separateTerminalRules ext m = some m' → ∀ p ∈ m', TerminalSeparated p.2.composition

/-- **C38 is violated**: a rule whose first symbol is its only terminal, followed by a variable, is not changed. -/
theorem C38_normal_form_violated : ¬ C38_normal_form_claim := by
  intro h
  have := h Nat Unit inferInstance (· + ·) [([], ⟨1, [1], [[.t 7, .var 0 0]], ()⟩), ([0], ⟨1, [], [[]], ()⟩)]
    [([], ⟨1, [1], [[.t 7, .var 0 0]], ()⟩), ([0], ⟨1, [], [[]], ()⟩)] (by decide) _ (List.mem_cons_self)
  rcases this with ⟨a, ha⟩ | ha
  · simp at ha
  · obtain ⟨i, j, h⟩ := ha (.t 7) (by simp)
    cases h

/-- **C38, partial**: each rule of the new tree has the normal form, except for the rules of the original tree that have
exactly one terminal which is the first symbol and followed by variables only. -/
theorem C38_normal_form_partial (ext : HT → HT → HT) (m m' : GornTree (PMCFGRule HT HT W))
    (h : separateTerminalRules ext m = some m') (p : List Nat × PMCFGRule HT HT W) (hp : p ∈ m') :
    TerminalSeparated p.2.composition ∨
    (p ∈ m ∧ ∃ a rest, rest ≠ [] ∧ p.2.composition.flatten = .t a :: rest ∧ ∀ x ∈ rest, ∃ i j, x = .var i j) := by
  rcases sepRules_mem h hp with h | h | ⟨h1, a, rest, h2, h3⟩
  · simp at h
  · exact Or.inl h
  · by_cases hr : rest = []
    · subst hr; exact Or.inl (Or.inl ⟨a, h2⟩)
    · refine Or.inr ⟨h1, a, rest, hr, h2, fun x hx => ?_⟩
      have := h3 x hx
      cases x with
      | var i j => exact ⟨i, j, rfl⟩
      | t a => cases this

/-- **C38** The evaluation of the new tree is that of the original tree, if no node has a child beyond its right-hand side. -/
theorem C38_evaluation (ext : HT → HT → HT) (m m' : GornTree (PMCFGRule HT HT W)) (hs : m.Sorted) (hw : WellNumbered m.get)
    (h : separateTerminalRules ext m = some m') (c : Composition HT) (hc : evaluate (toTerm m).1 = some c) :
    evaluate (toTerm m').1 = some c := by
  obtain ⟨v, rfl, hv⟩ := (evaluate_iff _ _).1 hc
  refine (evaluate_iff _ _).2 ⟨v, rfl, ?_⟩
  have e1 : (toTerm m).1.get = fun a => (m.get a).map PMCFGRule.composition := funext fun a => (toTerm_get hs a).1
  have e2 : (toTerm m').1.get = fun a => (m'.get a).map PMCFGRule.composition :=
    funext fun a => (toTerm_get (separate_sorted h) a).1
  rw [e1] at hv
  rw [e2]
  exact separate_eval hs hw h hv

/-- **C38** In particular for derivations: the evaluation of the new tree is the tuple that is derived. -/
theorem C38_evaluation_derivation (ext : HT → HT → HT) {rules : List (PMCFGRule HT HT W)} {A : HT}
    {d : DTree (PMCFGRule HT HT W)} {v : List (List HT)} (hd : Derives rules A d v)
    (m m' : GornTree (PMCFGRule HT HT W)) (hs : m.Sorted) (hm : ∀ a, m.get a = d.at? a)
    (h : separateTerminalRules ext m = some m') :
    evaluate (toTerm m').1 = some (v.map (·.map VarT.t)) := by
  refine C38_evaluation ext m m' hs ?_ h _ (C37_evaluate_derivation hd m hs hm)
  intro a r n hr hn
  rw [hm] at hr ⊢
  exact derives_wellNumbered hd a r n hr hn

/-- **C38** The call returns if extending a terminal by itself again and again always yields new names. -/
theorem C38_terminates (ext : HT → HT → HT) (m : GornTree (PMCFGRule HT HT W))
    (hext : ∀ p ∈ m, ∀ t, VarT.t t ∈ p.2.composition.flatten → ∀ i j, (fun x => ext x t)^[i] t = (fun x => ext x t)^[j] t → i = j) :
    (separateTerminalRules ext m).isSome := separate_isSome hext

/-- With strings that are extended by concatenation, all names are new unless the terminal is empty. -/
theorem C38_string_names (t : List Nat) (ht : t ≠ []) (i j : Nat)
    (h : (fun x => x ++ t)^[i] t = (fun x => x ++ t)^[j] t) : i = j := by
  have hl : ∀ k, ((fun x => x ++ t)^[k] t).length = (k + 1) * t.length := by
    intro k
    induction k with
    | zero => simp
    | succ k ih => rw [Function.iterate_succ_apply', List.length_append, ih, Nat.succ_mul (k + 1)]
  have := congrArg List.length h
  rw [hl, hl] at this
  have hpos : 0 < t.length := List.length_pos_iff.2 ht
  have := Nat.eq_of_mul_eq_mul_right hpos this
  omega

/-- For the empty terminal and an empty head the call does not return. -/
example : separateTerminalRules (fun x t : List Nat => x ++ t) [([], ⟨[], [], [[.t []], [.t []]], ()⟩)] = none := by decide

/-- A tree as in the hypotheses, from the documentation (pmcfg/mod.rs:396-429). -/
example :
    let m : GornTree (PMCFGRule Nat Nat Unit) := [([], ⟨0, [1], [[.var 0 0, .var 0 1]], ()⟩),
      ([0], ⟨1, [1], [[.t 7, .var 0 0, .t 8], [.t 9, .var 0 1]], ()⟩), ([0, 0], ⟨1, [], [[], []], ()⟩)]
    separateTerminalRules (· + ·) m = some [([], ⟨0, [1], [[.var 0 0, .var 0 1]], ()⟩),
      ([0], ⟨1, [1, 7, 8, 9], [[.var 1 0, .var 0 0, .var 2 0], [.var 3 0, .var 0 1]], ()⟩), ([0, 0], ⟨1, [], [[], []], ()⟩),
      ([0, 1], ⟨7, [], [[.t 7]], ()⟩), ([0, 2], ⟨8, [], [[.t 8]], ()⟩), ([0, 3], ⟨9, [], [[.t 9]], ()⟩)] ∧
    evaluate (toTerm m).1 = some [[.t 7, .t 8, .t 9]] := by
  decide

end C38

end Rustomata.Props
