import Verif.Proofs.ImportText
import Verif.Proofs.CsAutomaton
import Verif.Proofs.CfgPmcfg
import Mathlib.Algebra.Order.Ring.Defs
import Mathlib.Algebra.Order.BigOperators.Group.List
import Mathlib.Data.Rat.Defs
import Mathlib.Algebra.Field.Rat

/-!
# C46, C47, C57, C58, C59: import of grammars

C46: in a grammar imported from discodop counts, the weights of all rules with the same left-hand side sum to one.

C47: the composition obtained from rparse or discodop yield descriptions uses each variable exactly once, numbers the components of each child
from left to right starting with 0, and preserves the described order of children.

C57: the files of disco-dop and rparse are imported as the grammars that they describe.

C58: files that are not in the format are reported.

C59: the default lexicon has an entry for exactly the nonterminals without rules.
-/

namespace Rustomata
open Spec Nom

section Helpers
variable {N T W : Type _} [DecidableEq N]

theorem sum_map_div [DivisionSemiring W] (l : List W) (d : W) : (l.map (· / d)).sum = l.sum / d := by
  induction l with
  | nil => simp
  | cons a l ih => simp [ih, add_div]

theorem headSum_pairs [DivisionSemiring W] {rules : List (PMCFGRule N T W)} {l : List (N × W)} {f : N → W}
    (h : rules.map (fun r => (r.head, r.weight)) = l.map fun x => (x.1, x.2 / f x.1)) (A : N) :
    headSum rules A = ((l.filter (·.1 = A)).map (·.2)).sum / f A := by
  have h1 : headSum rules A = (((rules.map fun r => (r.head, r.weight)).filter (·.1 = A)).map (·.2)).sum := by
    unfold headSum
    rw [List.filter_map, List.map_map]
    rfl
  rw [h1, h, ← sum_map_div, List.filter_map, List.map_map, List.map_map]
  congr 1
  refine List.map_congr_left fun x hx => ?_
  have hx := (List.mem_filter.1 hx).2
  simp only [Function.comp_apply, decide_eq_true_eq] at hx ⊢
  rw [hx]

theorem countsOf_sum [DivisionSemiring W] (g : DiscoDopGrammar N T W) (A : N) : (((countsOf g).filter (·.1 = A)).map (·.2)).sum = headCount g A := by
  unfold countsOf headCount
  rw [List.filter_append, List.map_append, List.sum_append, List.filter_map, List.map_map, List.filter_map, List.map_map]
  rfl

end Helpers

namespace Props
variable {N T W : Type _}

/-! ### C46 -/

section
variable [DecidableEq N] {cn : Codec N}

/-- C46: the weights of the rules with the same left-hand side sum to one. The total of the counts must not be zero. -/
theorem C46_sum [DivisionSemiring W] {g : DiscoDopGrammar N T W} {G : Lcfrs N T W} (h : Lcfrs.fromDiscodop cn g = some G) {A : N}
    (hA : headCount g A ≠ 0) : headSum G.rules A = 1 := by
  have := headSum_pairs (f := fun A => (((countsOf g).filter (·.1 = A)).map (·.2)).sum) (fromDiscodop_weights h) A
  rw [this, countsOf_sum, div_self hA]

/-- C46: each weight is the count divided by the total of the counts for the left-hand side. -/
theorem C46_weights [DivisionSemiring W] {g : DiscoDopGrammar N T W} {G : Lcfrs N T W} (h : Lcfrs.fromDiscodop cn g = some G) :
    G.rules.map (fun r => (r.head, r.weight)) =
      g.constituents.map (fun x => (x.1.lhs, x.2.2 / headCount g x.1.lhs)) ++ g.lexer.toList.flatten.map fun x => (x.2.1, x.2.2 / headCount g x.2.1) := by
  have := fromDiscodop_weights h
  rw [this]
  simp only [countsOf_sum]
  rw [countsOf, List.map_append, List.map_map, List.map_map]
  rfl

/-- C46: positive counts have positive totals, so each nonterminal with a rule is normalised. -/
theorem C46_positive [DivisionSemiring W] [PartialOrder W] [IsOrderedCancelAddMonoid W] {g : DiscoDopGrammar N T W} {G : Lcfrs N T W}
    (h : Lcfrs.fromDiscodop cn g = some G) (hc : ∀ x ∈ g.constituents, 0 < x.2.2) (hl : ∀ l ∈ g.lexer, ∀ x ∈ l, 0 < x.2.2) :
    ∀ r ∈ G.rules, headSum G.rules r.head = 1 := by
  intro r hr
  refine C46_sum h (ne_of_gt ?_)
  have hw : ∀ x ∈ countsOf g, 0 < x.2 := by
    intro x hx
    unfold countsOf at hx
    rcases List.mem_append.1 hx with hx | hx
    · obtain ⟨y, hy, rfl⟩ := List.mem_map.1 hx
      exact hc y hy
    · obtain ⟨y, hy, rfl⟩ := List.mem_map.1 hx
      cases e : g.lexer with
      | none => rw [e] at hy; simp at hy
      | some l =>
        rw [e] at hy
        simp only [Option.toList_some, List.flatten_cons, List.flatten_nil, List.append_nil] at hy
        exact hl l e y hy
  rw [← countsOf_sum]
  have hm : (r.head, r.weight) ∈ G.rules.map fun r => (r.head, r.weight) := List.mem_map.2 ⟨r, hr, rfl⟩
  rw [fromDiscodop_weights h] at hm
  obtain ⟨x, hx, he⟩ := List.mem_map.1 hm
  have he : x.1 = r.head := congrArg Prod.fst he
  refine List.sum_pos _ ?_ ?_
  · intro w hw'
    obtain ⟨y, hy, rfl⟩ := List.mem_map.1 hw'
    exact hw y (List.mem_filter.1 hy).1
  · intro e
    have : x.2 ∈ ((countsOf g).filter (·.1 = r.head)).map (·.2) := List.mem_map.2 ⟨x, List.mem_filter.2 ⟨hx, by simpa using he⟩, rfl⟩
    rw [e] at this
    cases this

end

/-- The property without a condition on the counts. -/
def C46_claim : Prop :=
  ∀ (cn : Codec (List Nat)) (g : DiscoDopGrammar (List Nat) (List Nat) ℚ) (G : Lcfrs (List Nat) (List Nat) ℚ), Lcfrs.fromDiscodop cn g = some G →
    ∀ r ∈ G.rules, headSum G.rules r.head = 1

namespace ImportExample

/-- The identity codec (`String`). -/
def str : Codec (List Nat) := ⟨id, some⟩

/-- Numbers. -/
def num : Codec ℚ := ⟨fun _ => [], fun s => if s ≠ [] ∧ s.all (fun b => 48 ≤ b && b ≤ 57) then some (digitsValue s : ℚ) else none⟩

/-- The symbol with one letter. -/
def sym (c : Char) : List Nat := ascii [c]

/-- `S A B 010,1 3`, `S A 0 1`, and `a A 2`, `b B 1/2`. -/
def grammar : DiscoDopGrammar (List Nat) (List Nat) ℚ :=
  ⟨[(.binary (sym 'S') (sym 'A') (sym 'B'), [(3, 2), (1, 1)], 3), (.chain (sym 'S') (sym 'A'), [(1, 0)], 1)],
    some [(sym 'a', sym 'A', 2), (sym 'b', sym 'B', 1 / 2)]⟩

/-- `S A 0 0`. -/
def zero : DiscoDopGrammar (List Nat) (List Nat) ℚ := ⟨[(.chain (sym 'S') (sym 'A'), [(1, 0)], 0)], none⟩

end ImportExample

example : (Lcfrs.fromDiscodop ImportExample.str ImportExample.grammar).map (fun G => G.rules.map fun r => r.weight) = some [3 / 4, 1 / 4, 1, 1] := by decide +kernel

/-- The weights of a nonterminal whose counts are zero do not sum to one. -/
theorem C46_violated : ¬ C46_claim := by
  intro h
  have h1 : (Lcfrs.fromDiscodop ImportExample.str ImportExample.zero).map Lcfrs.rules =
      some [⟨ImportExample.sym 'S', [ImportExample.sym 'A'], [[.var 0 0]], 0⟩] := by decide +kernel
  obtain ⟨G, hG, he⟩ := Option.map_eq_some_iff.1 h1
  have := h _ _ _ hG ⟨ImportExample.sym 'S', [ImportExample.sym 'A'], [[.var 0 0]], 0⟩ (by rw [he]; exact List.mem_singleton.2 rfl)
  rw [he] at this
  revert this
  decide +kernel

/-! ### C47 -/

section
variable {bits : List (List Bool)} {c : Composition T}

/-- C47: a yield description of rparse. -/
theorem C47_rparse (bits : List (List Bool)) : IsYield bits (rparseComposition (T := T) bits 0 0) := by
  obtain ⟨h1, h2, h3⟩ := rparseComposition_spec (T := T) bits 0 0
  rw [← List.range_eq_range'] at h2 h3
  exact ⟨h1, h2, h3⟩

/-- C47: a yield description of disco-dop whose components have at most 64 variables. -/
theorem C47_discodop {y : DiscoYield} (h : List.Forall₂ (fun p b => IsMask b p ∧ b.length ≤ 64) y bits) :
    ∃ c : Composition T, discoComposition y 0 0 = some c ∧ IsYield bits c :=
  ⟨_, discoComposition_eq h 0 0, C47_rparse bits⟩

/-- C47: the text of a yield description of disco-dop is read as its bit masks. -/
theorem C47_discodop_text (h : GoodBits bits) :
    ∃ y, parseYield (discoYieldText bits) = .done [] y ∧ List.Forall₂ (fun p b => IsMask b p ∧ b.length ≤ 64) y bits := by
  refine ⟨_, parseYield_read h, ?_⟩
  rw [List.forall₂_map_left_iff]
  exact List.forall₂_same.2 fun b hb => ⟨⟨rfl, fun i => bitVal_testBit b i⟩, (h.2 b hb).2⟩

/-- C47: the text of a yield description of rparse is read. -/
theorem C47_rparse_text (bits : List (List Bool)) (rest : List Nat) : parseRparseYield (rparseYieldText bits ++ rest) = .done rest bits :=
  rparseYield_read bits rest

/-- C47: there are no terminals, and each variable occurs exactly once: those of the first child are numbered up to the number of `false`,
those of the second child up to the number of `true`. -/
theorem C47_linear (h : IsYield bits c) :
    (∀ comp ∈ c, ∀ t, .t t ∉ comp) ∧ (varsOf c).Nodup ∧
      ∀ i j, (i, j) ∈ varsOf c ↔ (i = 0 ∧ j < bits.flatten.count false) ∨ (i = 1 ∧ j < bits.flatten.count true) := by
  obtain ⟨h1, h2, h3⟩ := h
  have hchild : ∀ comp ∈ c, ∀ x ∈ comp, ∃ b, IsChild x b := by
    intro comp hc x hx
    obtain ⟨bs, _, hb⟩ := forall₂_mem_left h1 hc
    obtain ⟨b, _, hb⟩ := forall₂_mem_left hb hx
    exact ⟨b, hb⟩
  have hvar : ∀ p ∈ varsOf c, p.1 = 0 ∨ p.1 = 1 := by
    intro p hp
    unfold varsOf at hp
    obtain ⟨x, hx, hp⟩ := List.mem_filterMap.1 hp
    obtain ⟨comp, hc, hx⟩ := List.mem_flatten.1 hx
    obtain ⟨b, hb⟩ := hchild comp hc x hx
    cases hb with
    | fst j => cases hp; exact Or.inl rfl
    | snd j => cases hp; exact Or.inr rfl
  have hmem : ∀ k, ∀ l : List Nat, ((varsOf c).filter (·.1 = k)).map (·.2) = l → ∀ j, (k, j) ∈ varsOf c ↔ j ∈ l := by
    rintro k l rfl j
    constructor
    · intro h
      exact List.mem_map.2 ⟨(k, j), List.mem_filter.2 ⟨h, by simp⟩, rfl⟩
    · intro h
      obtain ⟨⟨k', j'⟩, hp, rfl⟩ := List.mem_map.1 h
      obtain ⟨hp', hk⟩ := List.mem_filter.1 hp
      simp only [decide_eq_true_eq] at hk
      subst hk
      exact hp'
  refine ⟨?_, ?_, ?_⟩
  · intro comp hc t ht
    obtain ⟨b, hb⟩ := hchild comp hc _ ht
    cases hb
  · rw [List.nodup_iff_count_le_one]
    rintro ⟨k, j⟩
    have hcount : ∀ k, ((varsOf c).filter (·.1 = k)).map (·.2) = List.range (bits.flatten.count false) ∨
        ((varsOf c).filter (·.1 = k)).map (·.2) = List.range (bits.flatten.count true) → (varsOf c).count (k, j) ≤ 1 := by
      intro k hk
      have h4 : (((varsOf c).filter (·.1 = k)).map (·.2)).Nodup := by
        rcases hk with hk | hk <;> rw [hk] <;> exact List.nodup_range
      have h5 := List.Nodup.of_map _ h4
      have h6 := List.nodup_iff_count_le_one.1 h5 (k, j)
      rwa [List.count_filter (by simp)] at h6
    by_cases hp : (k, j) ∈ varsOf c
    · rcases hvar _ hp with rfl | rfl
      · exact hcount 0 (Or.inl h2)
      · exact hcount 1 (Or.inr h3)
    · rw [List.count_eq_zero_of_not_mem hp]; omega
  · intro i j
    constructor
    · intro h
      rcases hvar _ h with h' | h'
      · have h' : i = 0 := h'
        subst h'
        exact Or.inl ⟨rfl, by simpa using (hmem 0 _ h2 j).1 h⟩
      · have h' : i = 1 := h'
        subst h'
        exact Or.inr ⟨rfl, by simpa using (hmem 1 _ h3 j).1 h⟩
    · rintro (⟨rfl, h⟩ | ⟨rfl, h⟩)
      · exact (hmem 0 _ h2 j).2 (by simpa using h)
      · exact (hmem 1 _ h3 j).2 (by simpa using h)

/-- C47: the import panics on components with more than 64 variables. -/
theorem C47_discodop_long {y : DiscoYield} (h : ∃ p ∈ y, 64 < p.1) (i j : Nat) : discoComposition (T := T) y i j = none := by
  induction y generalizing i j with
  | nil => simp at h
  | cons p y ih =>
    obtain ⟨l, c⟩ := p
    by_cases hl : 64 < l
    · simp only [discoComposition]
      rw [discoComponent_panic c _ ⟨64, by simpa using hl, le_refl _⟩]
    · have h' : ∃ p ∈ y, 64 < p.1 := by
        obtain ⟨p, hp, hp'⟩ := h
        rcases List.mem_cons.1 hp with rfl | hp
        · exact absurd hp' hl
        · exact ⟨p, hp, hp'⟩
      simp only [discoComposition]
      split
      · rfl
      · rw [ih h']; rfl

end

/-- The property for all yield descriptions of disco-dop. -/
def C47_claim : Prop :=
  ∀ bits : List (List Bool), bits ≠ [] → (∀ b ∈ bits, b ≠ []) →
    ∃ y, parseYield (discoYieldText bits) = .done [] y ∧ ∃ c : Composition Nat, discoComposition y 0 0 = some c ∧ IsYield bits c

/-- A component with 256 variables of the first child is read as the empty component. -/
theorem C47_violated : ¬ C47_claim := by
  intro h
  obtain ⟨y, h1, c, h2, h3, _⟩ := h [List.replicate 256 false] (by decide) (by decide)
  have h1' : parseYield (discoYieldText [List.replicate 256 false]) = .done [] [(0, 0)] := by decide +kernel
  rw [h1'] at h1
  cases h1
  have h2' : discoComposition (T := Nat) [(0, 0)] 0 0 = some [[]] := rfl
  rw [h2'] at h2
  cases h2
  cases h3 with
  | cons h _ => cases h

/-- A component with the second child at position 64 panics. -/
theorem C47_panics : parseYield (discoYieldText [List.replicate 64 false ++ [true]]) = .panic := by decide +kernel

example : parseYield (ascii ['0', '1', '0', ',', '1']) = .done [] [(3, 2), (1, 1)] := by decide
example : discoComposition (T := Nat) [(3, 2), (1, 1)] 0 0 = some [[.var 0 0, .var 1 0, .var 0 1], [.var 1 1]] := by decide
example : IsYield (T := Nat) [[false, true, false], [true]] [[.var 0 0, .var 1 0, .var 0 1], [.var 1 1]] := C47_rparse _
/-- The second child may come first. -/
example : rparseComposition (T := Nat) [[true, false], [true]] 0 0 = [[.var 1 0, .var 0 0], [.var 1 1]] := by decide

/-! ### C57 -/

section
variable [DecidableEq N] {cn : Codec N} {ct : Codec T} {cw : Codec W}

theorem denominators_some [DivisionSemiring W] (g : DiscoDopGrammar N T W) {A : N} (h : A ∈ (countsOf g).map Prod.fst) :
    (denominators g).get A = some (headCount g A) := by
  unfold denominators
  rw [denominators_get]
  change A ∈ _ at h
  rw [show g.constituents.map (fun x => (x.1.lhs, x.2.2)) ++ (g.lexer.toList.flatten.map fun x => (x.2.1, x.2.2)) = countsOf g from rfl, if_pos (Or.inl h),
    countsOf_sum]
  simp [AMap.get]

/-- C57: the rules of a grammar with counts. Each constituent is imported as a rule with the described right-hand side and yield, each entry of the
lexicon as a rule for its word; the weights are relative to the left-hand side. -/
theorem C57_grammar [DivisionSemiring W] {g : DiscoDopGrammar N T W} {bits : List (List (List Bool))}
    (hy : List.Forall₂ (fun x b => List.Forall₂ (fun p b => IsMask b p ∧ b.length ≤ 64) x.2.1 b) g.constituents bits) {init : N}
    (hi : cn.read (ascii ['R', 'O', 'O', 'T']) = some init) :
    ∃ R, Lcfrs.fromDiscodop cn g = some ⟨R ++ g.lexer.toList.flatten.map fun x => ⟨x.2.1, [], [[.t x.1]], x.2.2 / headCount g x.2.1⟩, init⟩ ∧
      List.Forall₂ (fun (x : (DiscoDeriv N × DiscoYield × W) × List (List Bool)) r => r.head = x.1.1.lhs ∧ r.tail = discoRhs x.1.1 ∧ IsYield x.2 r.composition ∧
        r.weight = x.1.2.2 / headCount g x.1.1.lhs) (g.constituents.zip bits) R := by
  have hd1 : ∀ x ∈ g.constituents, (denominators g).get x.1.lhs = some (headCount g x.1.lhs) := fun x hx =>
    denominators_some g (List.mem_map.2 ⟨(x.1.lhs, x.2.2), List.mem_append_left _ (List.mem_map.2 ⟨x, hx, rfl⟩), rfl⟩)
  have hd2 : ∀ x ∈ g.lexer.toList.flatten, (denominators g).get x.2.1 = some (headCount g x.2.1) := fun x hx =>
    denominators_some g (List.mem_map.2 ⟨(x.2.1, x.2.2), List.mem_append_right _ (List.mem_map.2 ⟨x, hx, rfl⟩), rfl⟩)
  have h2 : g.lexer.toList.flatten.mapM (discoLexical (denominators g)) =
      some (g.lexer.toList.flatten.map fun x => ⟨x.2.1, [], [[.t x.1]], x.2.2 / headCount g x.2.1⟩) := by
    rw [mapM_some_iff, List.forall₂_map_right_iff]
    refine List.forall₂_same.2 fun x hx => ?_
    unfold discoLexical
    rw [hd2 x hx]
    rfl
  obtain ⟨R, h1, hR⟩ : ∃ R : List (PMCFGRule N T W), g.constituents.mapM (discoConstituent (denominators g)) = some R ∧
      List.Forall₂ (fun (x : (DiscoDeriv N × DiscoYield × W) × List (List Bool)) r => r.head = x.1.1.lhs ∧ r.tail = discoRhs x.1.1 ∧ IsYield x.2 r.composition ∧
        r.weight = x.1.2.2 / headCount g x.1.1.lhs) (g.constituents.zip bits) R := by
    simp only [mapM_some_iff]
    generalize g.constituents = l at hd1 hy
    clear h2 hd2 hi
    induction hy with
    | nil => exact ⟨[], .nil, .nil⟩
    | @cons x b l bits hx _ ih =>
      obtain ⟨R, e1, e2⟩ := ih fun x hx => hd1 x (List.mem_cons_of_mem _ hx)
      obtain ⟨c, hc1, hc2⟩ := C47_discodop (T := T) hx
      refine ⟨⟨x.1.lhs, discoRhs x.1, c, x.2.2 / headCount g x.1.lhs⟩ :: R, .cons ?_ e1, .cons ⟨rfl, rfl, hc2, rfl⟩ e2⟩
      unfold discoConstituent
      simp only [hd1 x (by simp), hc1]
      cases x.1 <;> rfl
  refine ⟨R, ?_, hR⟩
  unfold Lcfrs.fromDiscodop
  simp only [h1, h2, hi]

/-- C57: the files of rules and of the lexicon of disco-dop are imported as the described grammar. -/
theorem C57_discodop [DivisionSemiring W] {lines lexLines : List (List Nat)} {l : List (DiscoDeriv N × List (List Bool) × W)} {ll : List (T × List (N × W))}
    (h : List.Forall₂ (fun s y => ConstituentText cn cw y.1 y.2.1 y.2.2 s) lines l) (hl : List.Forall₂ (fun s y => LexiconText cn ct cw y.1 y.2 s) lexLines ll)
    {s t : List Nat} (hs : FileText lines s) (ht : FileText lexLines t) {init : N} (hi : cn.read (ascii ['R', 'O', 'O', 'T']) = some init) :
    ∃ g lex G R₁ R₂, DiscoDopGrammar.fromStr cn cw s = some (some g) ∧ DiscoLexer.fromStr cn ct cw t = some (some lex) ∧
      Lcfrs.fromDiscodop cn (g.withLexer lex) = some G ∧ G.init = init ∧ G.rules = R₁ ++ R₂ ∧
      List.Forall₂ (fun x r => r.head = x.1.lhs ∧ r.tail = discoRhs x.1 ∧ IsYield x.2.1 r.composition ∧ r.weight = x.2.2 / fileCount l ll x.1.lhs) l R₁ ∧
      List.Forall₂ (fun x r => r.head = x.2.1 ∧ r.tail = [] ∧ r.composition = [[.t x.1]] ∧ r.weight = x.2.2 / fileCount l ll x.2.1)
        (ll.flatMap fun y => y.2.map fun z => (y.1, z.1, z.2)) R₂ := by
  have hg := constituents_read h hs
  have hlex := lexicon_read hl ht
  generalize hge : (⟨l.map fun y => (y.1, y.2.1.map (fun b => (b.length, bitVal b)), y.2.2), none⟩ : DiscoDopGrammar N Unit W) = g at hg
  generalize hlx : (ll.flatMap fun y => y.2.map fun z => (y.1, z.1, z.2)) = lex at hlex
  have hcount : ∀ A, headCount (g.withLexer lex) A = fileCount l ll A := by
    intro A
    unfold headCount fileCount DiscoDopGrammar.withLexer
    rw [← hge, ← hlx]
    simp only [Option.toList_some, List.flatten_cons, List.flatten_nil, List.append_nil]
    rw [List.filter_map, List.map_map]
    rfl
  have hgood : ∀ y ∈ l, GoodBits y.2.1 := by
    intro y hy
    obtain ⟨t, _, ht⟩ := forall₂_mem_right h hy
    obtain ⟨d, b, w⟩ := y
    cases ht with
    | chain _ _ _ _ _ _ h => exact h
    | binary _ _ _ _ _ _ _ _ h => exact h
  obtain ⟨R, hR, hR'⟩ := C57_grammar (cn := cn) (g := g.withLexer lex) (bits := l.map (·.2.1)) (by
    unfold DiscoDopGrammar.withLexer
    rw [← hge]
    rw [List.forall₂_map_left_iff, List.forall₂_map_right_iff]
    refine List.forall₂_same.2 fun y hy => ?_
    rw [List.forall₂_map_left_iff]
    exact List.forall₂_same.2 fun b hb => ⟨⟨rfl, fun i => bitVal_testBit b i⟩, ((hgood y hy).2 b hb).2⟩) hi
  refine ⟨g, lex, _, R, _, hg, hlex, hR, rfl, rfl, ?_, ?_⟩
  · have hz : (g.withLexer lex).constituents.zip (l.map (·.2.1)) = l.map fun y => ((y.1, y.2.1.map (fun b => (b.length, bitVal b)), y.2.2), y.2.1) := by
      unfold DiscoDopGrammar.withLexer
      rw [← hge, List.zip_map']
    rw [hz, List.forall₂_map_left_iff] at hR'
    simpa only [hcount] using hR'
  · unfold DiscoDopGrammar.withLexer
    simp only [Option.toList_some, List.flatten_cons, List.flatten_nil, List.append_nil]
    rw [List.forall₂_map_right_iff]
    refine List.forall₂_same.2 fun y _ => ⟨rfl, rfl, rfl, ?_⟩
    have := hcount y.2.1
    unfold DiscoDopGrammar.withLexer at this
    rw [this]

omit [DecidableEq N] in
/-- C57: the file of rparse is imported as the described grammar. -/
theorem C57_rparse {lines : List (List Nat)} {l : RparseClauses N W} (h : List.Forall₂ (fun s y => ClauseText cn cw y s) lines l) (hne : l ≠ [])
    {s : List Nat} (hs : FileText lines s) {init : N} (hi : cn.read (ascii ['V', 'R', 'O', 'O', 'T', '1']) = some init) :
    ∃ c G, RparseClauses.fromStr cn cw s = some (some c) ∧ Lcfrs.fromRparse cn c = some G ∧ G.init = init ∧
      List.Forall₂ (fun x r => r.head = x.2.1 ∧ r.tail = rparseRhs x.2.2.1 ∧ IsYield x.2.2.2 r.composition ∧ r.weight = x.1) l G.rules := by
  refine ⟨l, ⟨l.map fun x => ⟨x.2.1, (match x.2.2.1 with | .chain a => [a] | .binary a b => [a, b]), rparseComposition x.2.2.2 0 0, x.1⟩, init⟩,
    clauses_read h hne hs, ?_, rfl, ?_⟩
  · unfold Lcfrs.fromRparse
    rw [hi]
    rfl
  · rw [List.forall₂_map_right_iff]
    refine List.forall₂_same.2 fun x _ => ⟨rfl, ?_, C47_rparse _, rfl⟩
    cases x.2.2.1 <;> rfl

end

namespace ImportExample

/-- `S A B 010,1 3` and `S\tA  0 6/4`. -/
def rules : List Nat := ascii ['S', ' ', 'A', ' ', 'B', ' ', '0', '1', '0', ',', '1', ' ', '3', '\n', 'S', '\t', 'A', ' ', ' ', '0', ' ', '6', '/', '4', '\n']

/-- `a A 2 B 1` and `b B 1`. -/
def lexicon : List Nat := ascii ['a', ' ', 'A', ' ', '2', ' ', 'B', ' ', '1', '\n', 'b', '\t', 'B', ' ', '1']

/-- `1 0.5:S --> A B [[[true, false], [true]]]` with a number instead of the weight, and `2 7:S --> A [[[false]]]`. -/
def clauses : List Nat := ascii ['1', ' ', '5', ':', 'S', ' ', '-', '-', '>', ' ', 'A', ' ', 'B', ' ', '[', '[', '[', 't', 'r', 'u', 'e', ',', ' ', 'f', 'a', 'l', 's', 'e',
  ']', ',', ' ', '[', 't', 'r', 'u', 'e', ']', ']', ']', '\n', '2', ' ', '7', ':', 'S', ' ', '-', '-', '>', ' ', 'A', ' ', '[', '[', '[', 'f', 'a', 'l', 's', 'e', ']', ']', ']', '\n']

end ImportExample

set_option synthInstance.maxSize 512 in
open ImportExample in
example : (DiscoDopGrammar.fromStr str num rules).map (Option.map DiscoDopGrammar.constituents) =
    some (some [(.binary (sym 'S') (sym 'A') (sym 'B'), [(3, 2), (1, 1)], 3), (.chain (sym 'S') (sym 'A'), [(1, 0)], 3 / 2)]) := by decide +kernel
open ImportExample in
example : DiscoLexer.fromStr str str num lexicon = some (some [(sym 'a', sym 'A', 2), (sym 'a', sym 'B', 1), (sym 'b', sym 'B', 1)]) := by decide +kernel
set_option synthInstance.maxSize 512 in
open ImportExample in
example : RparseClauses.fromStr str num clauses =
    some (some [(5, sym 'S', .binary (sym 'A') (sym 'B'), [[true, false], [true]]), (7, sym 'S', .chain (sym 'A'), [[false]])]) := by decide +kernel
open ImportExample in
/-- The description of a line. -/
example : ConstituentText str num (.chain (sym 'S') (sym 'A')) [[false]] (6 / 4)
    (ascii ['S'] ++ (ascii ['\t'] ++ (ascii ['A'] ++ (ascii [' ', ' '] ++ (discoYieldText [[false]] ++ (ascii [' '] ++ (ascii ['6'] ++ 47 :: ascii ['4']))))))) := by
  refine .chain ⟨⟨by decide, by decide⟩, rfl⟩ ⟨⟨by decide, by decide⟩, rfl⟩ (.fraction ⟨by decide, by decide⟩ ⟨by decide, by decide⟩ ?_ ?_) ⟨by decide, by decide⟩
    ⟨by decide, by decide⟩ ⟨by decide, by decide⟩ ⟨by decide, by decide⟩
  · decide +kernel
  · decide +kernel

/-! ### C59 -/

section
variable [DecidableEq N]

/-- C59: the default lexicon has exactly the nonterminals that occur on right-hand sides but on no left-hand side; each is a terminal with weight one and
occurs once. -/
theorem C59_default_lexer [One W] (g : DiscoDopGrammar N Unit W) :
    ∃ lex, g.withDefaultLexer.lexer = some lex ∧ lex.Nodup ∧
      ∀ x, x ∈ lex ↔ ∃ A, x = (A, A, 1) ∧ (∃ c ∈ g.constituents, A ∈ discoRhs c.1) ∧ ∀ c ∈ g.constituents, c.1.lhs ≠ A := by
  have hstep : ∀ (m : AMap N Bool) (d : DiscoDeriv N), (m.map Prod.fst).Nodup → ((onlyOnRhsStep m d).map Prod.fst).Nodup ∧
      ∀ A, (onlyOnRhsStep m d).get A = if d.lhs = A then some false else if A ∈ discoRhs d ∧ (m.get A).isNone then some true else m.get A := by
    intro m d hm
    have key : ∀ (m : AMap N Bool) (B : N), (m.map Prod.fst).Nodup → ((if (m.get B).isSome then m else m.set B true).map Prod.fst).Nodup ∧
        ∀ A, AMap.get (if (m.get B).isSome then m else m.set B true) A = if A = B ∧ (m.get A).isNone then some true else m.get A := by
      intro m B hm
      by_cases h : (m.get B).isSome
      · rw [if_pos h]
        refine ⟨hm, fun A => ?_⟩
        by_cases e : A = B
        · subst e
          obtain ⟨b, hb⟩ := Option.isSome_iff_exists.1 h
          simp [hb]
        · simp [e]
      · rw [if_neg h]
        refine ⟨AMap.keys_set hm B true, fun A => ?_⟩
        rw [AMap.get_set]
        by_cases e : B = A
        · subst e
          simp only [Option.not_isSome_iff_eq_none] at h
          simp [h]
        · have e' : ¬ A = B := fun h => e h.symm
          simp [e, e']
    cases d with
    | chain lhs rhs =>
      obtain ⟨k1, k2⟩ := key (m.set lhs false) rhs (AMap.keys_set hm lhs false)
      refine ⟨k1, fun A => ?_⟩
      show AMap.get (if ((m.set lhs false).get rhs).isSome then m.set lhs false else (m.set lhs false).set rhs true) A = _
      rw [k2, AMap.get_set]
      simp only [DiscoDeriv.lhs, discoRhs, List.mem_singleton]
      by_cases e : lhs = A
      · simp [e]
      · simp [e]
    | binary lhs rhs1 rhs2 =>
      obtain ⟨k1, k2⟩ := key (m.set lhs false) rhs1 (AMap.keys_set hm lhs false)
      obtain ⟨k3, k4⟩ := key _ rhs2 k1
      refine ⟨k3, fun A => ?_⟩
      refine (k4 A).trans ?_
      rw [k2, AMap.get_set]
      simp only [DiscoDeriv.lhs, discoRhs, List.mem_cons, List.not_mem_nil, or_false]
      by_cases e : lhs = A
      · simp [e]
      · cases hA : m.get A with
        | some b => simp [e]
        | none =>
          simp only [if_neg e]
          by_cases e1 : A = rhs1
          · simp [e1]
          · by_cases e2 : A = rhs2 <;> simp [e1, e2]
  have hfold : ∀ (l : DiscoConstituents N W) (m : AMap N Bool), (m.map Prod.fst).Nodup →
      ((l.foldl (fun m x => onlyOnRhsStep m x.1) m).map Prod.fst).Nodup ∧ ∀ A, (l.foldl (fun m x => onlyOnRhsStep m x.1) m).get A = some true ↔
        (∀ c ∈ l, c.1.lhs ≠ A) ∧ (m.get A = some true ∨ (m.get A = none ∧ ∃ c ∈ l, A ∈ discoRhs c.1)) := by
    intro l
    induction l with
    | nil => intro m hm; exact ⟨hm, fun A => by simp⟩
    | cons x l ih =>
      intro m hm
      obtain ⟨s1, s2⟩ := hstep m x.1 hm
      obtain ⟨i1, i2⟩ := ih _ s1
      refine ⟨i1, fun A => ?_⟩
      rw [List.foldl_cons, i2, s2]
      by_cases e : x.1.lhs = A
      · simp [e]
      · rw [if_neg e]
        simp only [List.mem_cons, forall_eq_or_imp, exists_eq_or_imp, ne_eq, e, not_false_eq_true, true_and]
        refine and_congr_right fun _ => ?_
        cases hA : m.get A with
        | some b => simp
        | none => by_cases hr : A ∈ discoRhs x.1 <;> simp [hr]
  obtain ⟨f1, f2⟩ := hfold g.constituents [] List.nodup_nil
  refine ⟨_, rfl, ?_, ?_⟩
  · refine List.Nodup.of_map (f := Prod.fst) ?_
    rw [List.map_map]
    exact f1.sublist (List.Sublist.map _ List.filter_sublist)
  · intro x
    constructor
    · intro hx
      obtain ⟨⟨A, b⟩, hp, rfl⟩ := List.mem_map.1 hx
      obtain ⟨hp, hb⟩ := List.mem_filter.1 hp
      have hb : b = true := hb
      subst hb
      have := (f2 A).1 ((AMap.mem_iff_get f1 A true).1 hp)
      simp only [AMap.get, reduceCtorEq, false_or, true_and] at this
      exact ⟨A, rfl, this.2, this.1⟩
    · rintro ⟨A, rfl, h1, h2⟩
      refine List.mem_map.2 ⟨(A, true), List.mem_filter.2 ⟨(AMap.mem_iff_get f1 A true).2 ((f2 A).2 ⟨h2, Or.inr ⟨rfl, h1⟩⟩), rfl⟩, rfl⟩

/-- C59: with the default lexicon, a nonterminal without rules has one rule, which has weight one. -/
theorem C59_weight [DivisionSemiring W] {cn : Codec N} {g : DiscoDopGrammar N Unit W} {G : Lcfrs N N W} (h : Lcfrs.fromDiscodop cn g.withDefaultLexer = some G)
    {A : N} (h1 : ∃ c ∈ g.constituents, A ∈ discoRhs c.1) (h2 : ∀ c ∈ g.constituents, c.1.lhs ≠ A) :
    G.rules.filter (·.head = A) = [⟨A, [], [[.t A]], 1⟩] := by
  obtain ⟨lex, hlex, hnd, hmem⟩ := C59_default_lexer g
  have hA : (A, A, (1 : W)) ∈ lex := (hmem _).2 ⟨A, rfl, h1, h2⟩
  have hfil : lex.filter (·.2.1 = A) = [(A, A, 1)] := by
    have hall : ∀ x ∈ lex.filter (·.2.1 = A), x = (A, A, 1) := by
      intro x hx
      obtain ⟨hx, he⟩ := List.mem_filter.1 hx
      obtain ⟨B, rfl, _⟩ := (hmem x).1 hx
      simp only [decide_eq_true_eq] at he
      rw [he]
    have hin : (A, A, (1 : W)) ∈ lex.filter (·.2.1 = A) := List.mem_filter.2 ⟨hA, by simp⟩
    have hnd' := hnd.filter (fun x => decide (x.2.1 = A))
    generalize lex.filter (·.2.1 = A) = l at hall hin hnd'
    match l, hall, hin, hnd' with
    | [x], hall, _, _ => rw [hall x (by simp)]
    | x :: y :: l, hall, _, hnd' =>
      exfalso
      have e1 := hall x (by simp)
      have e2 := hall y (by simp)
      subst e1
      rw [List.nodup_cons] at hnd'
      exact hnd'.1 (by rw [e2]; simp)
  have hcount : headCount g.withDefaultLexer A = 1 := by
    unfold headCount
    rw [hlex]
    simp only [Option.toList_some, List.flatten_cons, List.flatten_nil, List.append_nil]
    rw [hfil]
    have : g.withDefaultLexer.constituents.filter (·.1.lhs = A) = [] := by
      rw [List.filter_eq_nil_iff]
      intro c hc
      simpa using h2 c hc
    rw [this]
    simp
  unfold Lcfrs.fromDiscodop at h
  split at h
  · cases h
  · rename_i rs hrs
    split at h
    · cases h
    · rename_i ls hls
      split at h
      · cases h
      · cases h
        rw [hlex] at hls
        simp only [Option.toList_some, List.flatten_cons, List.flatten_nil, List.append_nil] at hls
        rw [mapM_some_iff] at hrs hls
        show (rs ++ ls).filter _ = _
        rw [List.filter_append]
        have e1 : rs.filter (·.head = A) = [] := by
          rw [List.filter_eq_nil_iff]
          intro r hr
          obtain ⟨c, hc, hd⟩ := forall₂_mem_right hrs hr
          unfold discoConstituent at hd
          split at hd
          · cases hd
          · split at hd
            · cases hd
            · cases hd
              have := h2 c hc
              cases hc1 : c.1 <;> rw [hc1] at this <;> simpa [hc1, DiscoDeriv.lhs] using this
        have e2 : List.Forall₂ (fun x r => discoLexical (denominators g.withDefaultLexer) x = some r) (lex.filter (·.2.1 = A)) (ls.filter (·.head = A)) := by
          clear hfil hA hmem hnd hlex
          induction hls with
          | nil => exact .nil
          | @cons x r lex ls hx _ ih =>
            have hh : r.head = x.2.1 := by
              unfold discoLexical at hx
              obtain ⟨d, _, rfl⟩ := Option.map_eq_some_iff.1 hx
              rfl
            by_cases e : x.2.1 = A
            · rw [List.filter_cons_of_pos (by simpa using e), List.filter_cons_of_pos (by simpa [hh] using e)]
              exact .cons hx ih
            · rw [List.filter_cons_of_neg (by simpa using e), List.filter_cons_of_neg (by simpa [hh] using e)]
              exact ih
        rw [hfil] at e2
        rw [e1, List.nil_append]
        generalize ls.filter (·.head = A) = l at e2
        cases e2 with
        | cons hx hn =>
          cases hn
          unfold discoLexical at hx
          rw [denominators_some _ (List.mem_map.2 ⟨(A, 1), List.mem_append_right _ (List.mem_map.2 ⟨(A, A, 1), by rw [hlex]; simpa using hA, rfl⟩), rfl⟩), hcount] at hx
          cases hx
          simp

open ImportExample in
example : (DiscoDopGrammar.withDefaultLexer (⟨grammar.constituents, none⟩ : DiscoDopGrammar (List Nat) Unit ℚ)).lexer =
    some [(sym 'A', sym 'A', 1), (sym 'B', sym 'B', 1)] := by decide +kernel

end

end Props

end Rustomata
