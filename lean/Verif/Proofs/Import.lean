import Verif.Spec.Import
import Verif.Proofs.Pmcfg
import Mathlib.Algebra.Field.Defs
import Mathlib.Algebra.Field.Basic
import Mathlib.Algebra.BigOperators.Group.List.Basic
import Mathlib.Data.Nat.Bitwise

/-!
# Facts about the import of grammars
-/

namespace Rustomata
open Spec

section Yield
variable {T : Type _}

theorem rparseComponent_spec (bits : List Bool) (i j : Nat) :
    (rparseComponent (T := T) bits i j).2 = (i + bits.count false, j + bits.count true) ∧
    List.Forall₂ IsChild (rparseComponent (T := T) bits i j).1 bits ∧
    ((varsOf [(rparseComponent (T := T) bits i j).1]).filter (·.1 = 0)).map (·.2) = List.range' i (bits.count false) ∧
    ((varsOf [(rparseComponent (T := T) bits i j).1]).filter (·.1 = 1)).map (·.2) = List.range' j (bits.count true) := by
  induction bits generalizing i j with
  | nil => exact ⟨rfl, .nil, rfl, rfl⟩
  | cons b bits ih =>
    cases b with
    | false =>
      obtain ⟨h1, h2, h3, h4⟩ := ih (i + 1) j
      simp only [rparseComponent]
      refine ⟨?_, .cons (.fst i) h2, ?_, ?_⟩
      · rw [h1]; simp; omega
      · unfold varsOf at h3 ⊢
        simp_all [List.range'_succ]
      · unfold varsOf at h4 ⊢
        simp_all
    | true =>
      obtain ⟨h1, h2, h3, h4⟩ := ih i (j + 1)
      simp only [rparseComponent]
      refine ⟨?_, .cons (.snd j) h2, ?_, ?_⟩
      · rw [h1]; simp; omega
      · unfold varsOf at h3 ⊢
        simp_all
      · unfold varsOf at h4 ⊢
        simp_all [List.range'_succ]

theorem rparseComposition_spec (bits : List (List Bool)) (i j : Nat) :
    List.Forall₂ (List.Forall₂ IsChild) (rparseComposition (T := T) bits i j) bits ∧
    ((varsOf (rparseComposition (T := T) bits i j)).filter (·.1 = 0)).map (·.2) = List.range' i (bits.flatten.count false) ∧
    ((varsOf (rparseComposition (T := T) bits i j)).filter (·.1 = 1)).map (·.2) = List.range' j (bits.flatten.count true) := by
  induction bits generalizing i j with
  | nil => exact ⟨.nil, rfl, rfl⟩
  | cons b bits ih =>
    obtain ⟨h1, h2, h3, h4⟩ := rparseComponent_spec (T := T) b i j
    simp only [rparseComposition]
    rw [h1]
    obtain ⟨h5, h6, h7⟩ := ih (i + b.count false) (j + b.count true)
    have happ : ∀ (c : List (VarT T)) (cs : Composition T), varsOf (c :: cs) = varsOf [c] ++ varsOf cs := by
      intro c cs; unfold varsOf; simp
    refine ⟨.cons h2 h5, ?_, ?_⟩
    · rw [happ, List.filter_append, List.map_append, h3, h6, List.flatten_cons, List.count_append]
      have := List.range'_append (s := i) (m := b.count false) (n := bits.flatten.count false) (step := 1)
      simpa using this
    · rw [happ, List.filter_append, List.map_append, h4, h7, List.flatten_cons, List.count_append]
      have := List.range'_append (s := j) (m := b.count true) (n := bits.flatten.count true) (step := 1)
      simpa using this

theorem discoComponent_eq (bits : List Bool) (c k : Nat) (hk : k + bits.length ≤ 64) (hc : ∀ i, i < bits.length → c.testBit (k + i) = (bits[i]?).getD false)
    (i j : Nat) : discoComponent (T := T) c (List.range' k bits.length) i j = some (rparseComponent bits i j) := by
  induction bits generalizing k i j with
  | nil => rfl
  | cons b bits ih =>
    simp only [List.length_cons] at hk hc
    rw [List.length_cons, List.range'_succ]
    simp only [discoComponent]
    rw [show pow64 k = some (2 ^ k) by unfold pow64; rw [if_pos (by omega)]]
    simp only
    have h0 := hc 0 (by omega)
    simp only [Nat.add_zero, List.getElem?_cons_zero, Option.getD_some] at h0
    have ih' := ih (k + 1) (by omega) (fun i hi => by have := hc (i + 1) (by omega); rw [show k + (i + 1) = k + 1 + i by omega] at this; simpa using this)
    have hb : (2 ^ k &&& c = 0) ↔ b = false := by
      rw [Nat.two_pow_and, h0]
      cases b <;> simp
    cases b with
    | false => rw [if_pos (hb.2 rfl), ih']; rfl
    | true => rw [if_neg (fun h => by have := hb.1 h; cases this), ih']; rfl

theorem discoComposition_eq {y : DiscoYield} {bits : List (List Bool)} (h : List.Forall₂ (fun p b => IsMask b p ∧ b.length ≤ 64) y bits) (i j : Nat) :
    discoComposition (T := T) y i j = some (rparseComposition bits i j) := by
  induction h generalizing i j with
  | nil => rfl
  | @cons p b y bits hp _ ih =>
    obtain ⟨⟨h1, h2⟩, h3⟩ := hp
    obtain ⟨l, c⟩ := p
    simp only at h1 h2
    subst h1
    have := discoComponent_eq (T := T) b c 0 (by omega) (fun i _ => by simpa using h2 i) i j
    rw [← List.range_eq_range'] at this
    simp only [discoComposition, this, ih]
    rfl

theorem discoComponent_panic (c : Nat) (l : List Nat) (h : ∃ i ∈ l, 64 ≤ i) (s1 s2 : Nat) : discoComponent (T := T) c l s1 s2 = none := by
  induction l generalizing s1 s2 with
  | nil => simp at h
  | cons i l ih =>
    simp only [discoComponent]
    by_cases hi : i < 64
    · rw [show pow64 i = some (2 ^ i) by unfold pow64; rw [if_pos hi]]
      have : ∃ i ∈ l, 64 ≤ i := by
        obtain ⟨j, hj, hj'⟩ := h
        rcases List.mem_cons.1 hj with rfl | hj
        · omega
        · exact ⟨j, hj, hj'⟩
      simp only [ih this]
      split <;> rfl
    · rw [show pow64 i = none by unfold pow64; rw [if_neg hi]]

end Yield

section Weights
variable {N T W : Type _} [DecidableEq N]

theorem denominators_get [AddMonoid W] (l : List (N × W)) (m : AMap N W) (A : N) :
    (l.foldl addCount m).get A = if A ∈ l.map Prod.fst ∨ (m.get A).isSome then some ((m.get A).getD 0 + ((l.filter (·.1 = A)).map (·.2)).sum) else none := by
  induction l generalizing m with
  | nil =>
    cases h : m.get A <;> simp [h]
  | cons x l ih =>
    obtain ⟨B, w⟩ := x
    rw [List.foldl_cons, ih]
    have hget : (addCount m (B, w)).get A = if B = A then some ((m.get A).getD 0 + w) else m.get A := by
      unfold addCount
      by_cases h : B = A
      · subst h
        simp only [if_true]
        cases hB : m.get B <;> simp [AMap.get_set]
      · rw [if_neg h]
        cases hB : m.get B <;> simp [AMap.get_set, h]
    rw [hget]
    by_cases h : B = A
    · subst h
      simp [add_assoc]
    · have h' : ¬ A = B := fun e => h e.symm
      have hm : A ∈ ((B, w) :: l).map Prod.fst ↔ A ∈ l.map Prod.fst := by rw [List.map_cons, List.mem_cons]; simp only [h', false_or]
      rw [if_neg h, List.filter_cons_of_neg (by simpa using h)]
      simp only [hm]

/-- The counts of a grammar with their left-hand sides. -/
def countsOf (g : DiscoDopGrammar N T W) : List (N × W) :=
  g.constituents.map (fun x => (x.1.lhs, x.2.2)) ++ g.lexer.toList.flatten.map fun x => (x.2.1, x.2.2)

theorem fromDiscodop_weights [DivisionSemiring W] {cn : Codec N} {g : DiscoDopGrammar N T W} {G : Lcfrs N T W} (h : Lcfrs.fromDiscodop cn g = some G) :
    G.rules.map (fun r => (r.head, r.weight)) = (countsOf g).map fun x => (x.1, x.2 / (((countsOf g).filter (·.1 = x.1)).map (·.2)).sum) := by
  have hden : ∀ A d, (denominators g).get A = some d → d = (fun A => (((countsOf g).filter (·.1 = A)).map (·.2)).sum) A := by
    intro A d hd
    unfold denominators at hd
    rw [denominators_get] at hd
    simp only [AMap.get, Option.isSome_none, Bool.false_eq_true, or_false, Option.getD_none, zero_add] at hd
    split at hd
    · cases hd; rfl
    · cases hd
  show _ = (countsOf g).map fun x => (x.1, x.2 / (fun A => (((countsOf g).filter (·.1 = A)).map (·.2)).sum) x.1)
  generalize (fun A => (((countsOf g).filter (·.1 = A)).map (·.2)).sum) = f at hden ⊢
  unfold Lcfrs.fromDiscodop at h
  split at h
  · cases h
  · rename_i rs hrs
    split at h
    · cases h
    · rename_i ls hls
      split at h
      · cases h
      · rename_i init hinit
        cases h
        rw [mapM_some_iff] at hrs hls
        show (rs ++ ls).map _ = _
        rw [countsOf, List.map_append, List.map_append, List.map_map, List.map_map]
        congr 1
        · generalize g.constituents = l at hrs
          induction hrs with
          | nil => rfl
          | @cons x r l rs hx _ ih =>
            rw [List.map_cons, List.map_cons, ih]
            congr 1
            unfold discoConstituent at hx
            split at hx
            · cases hx
            · rename_i d hd
              split at hx
              · cases hx
              · have := hden _ _ hd
                obtain ⟨dv, y, w⟩ := x
                cases hx
                cases dv <;> simp [this, DiscoDeriv.lhs]
        · generalize g.lexer.toList.flatten = l at hls
          induction hls with
          | nil => rfl
          | @cons x r l rs hx _ ih =>
            rw [List.map_cons, List.map_cons, ih]
            congr 1
            unfold discoLexical at hx
            obtain ⟨d, hd, rfl⟩ := Option.map_eq_some_iff.1 hx
            simp [hden _ _ hd]

end Weights

end Rustomata
