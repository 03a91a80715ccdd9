import Verif.Spec.CsRules
import Verif.Proofs.Util

/-!
# Proofs for the automaton of the Chomsky-Schützenberger parser

The tables contain exactly the productions of the binarised context-free approximation.
-/

namespace Rustomata
open Spec

section
variable {N T W : Type _} [DecidableEq N] [DecidableEq T]

theorem getElem?_append_nodup {X : Type _} {l r : List X} {x : X} (hnd : (l ++ r).Nodup) (hx : x ∈ l) (k : Nat) : (l ++ r)[k]? = some x ↔ l[k]? = some x := by
  constructor
  · intro h
    by_cases hk : k < l.length
    · rwa [List.getElem?_append_left hk] at h
    · rw [List.getElem?_append_right (by omega)] at h
      exact absurd hx fun hx => (List.nodup_append.1 hnd).2.2 x hx x (List.mem_of_getElem? h) rfl
  · intro h
    rw [List.getElem?_append_left (List.getElem?_eq_some_iff.1 h).1]
    exact h

theorem integerise_spec {X : Type _} [DecidableEq X] {i : Integeriser X} (hnd : i.values.Nodup) (x : X) :
    (i.integerise x).1.values.Nodup ∧ (i.integerise x).1.values[(i.integerise x).2]? = some x ∧ ∃ r, (i.integerise x).1.values = i.values ++ r := by
  unfold Integeriser.integerise
  cases h : i.findKey x with
  | some n =>
    unfold Integeriser.findKey at h
    rw [List.findIdx?_eq_some_iff_getElem] at h
    obtain ⟨h1, h2, _⟩ := h
    refine ⟨hnd, ?_, [], by simp⟩
    rw [List.getElem?_eq_getElem h1]
    simpa using h2
  | none =>
    unfold Integeriser.findKey at h
    rw [List.findIdx?_eq_none_iff] at h
    refine ⟨?_, by simp, [x], rfl⟩
    rw [List.nodup_append]
    refine ⟨hnd, by simp, ?_⟩
    intro y hy z hz
    rw [List.mem_singleton] at hz
    subst hz
    simpa using h y hy

/-- The local variables of `from_grammar` represent a list of productions. -/
structure CsBuild.Rep (b : CsBuild N T W) (ps : List (CsProd N T W × TdBrackets)) : Prop where
  nodup : b.ints.values.Nodup
  symbols : ∀ p ∈ ps, ∀ s ∈ p.1.symbols, s ∈ b.ints.values
  brackets : b.brackets = ps.map Prod.snd
  buBin : ∀ q₁ x, x ∈ b.buBin.abs q₁ ↔ ∃ Q L R, (ps[x.rid]?).map Prod.fst = some (.binary Q L R x.weight) ∧
    b.ints.values[x.lhs]? = some Q ∧ b.ints.values[q₁]? = some L ∧ b.ints.values[x.right]? = some R
  buUn : ∀ q₁ x, x ∈ b.buUn.abs q₁ ↔ ∃ Q S, (ps[x.rid]?).map Prod.fst = some (.unary Q S x.weight) ∧
    b.ints.values[x.lhs]? = some Q ∧ b.ints.values[q₁]? = some S
  buInit : ∀ a x, x ∈ (b.buInit.get a).getD [] ↔ ∃ Q, (ps[x.rid]?).map Prod.fst = some (.nullary Q a x.weight) ∧ b.ints.values[x.lhs]? = some Q
  keys : (b.buInit.map Prod.fst).Nodup
  tdBin : ∀ q x, x ∈ b.tdBin.abs q ↔ ∃ Q L R, (ps[x.rid]?).map Prod.fst = some (.binary Q L R x.weight) ∧
    b.ints.values[q]? = some Q ∧ b.ints.values[x.left]? = some L ∧ b.ints.values[x.right]? = some R
  tdUn : ∀ q x, x ∈ b.tdUn.abs q ↔ ∃ Q S, (ps[x.rid]?).map Prod.fst = some (.unary Q S x.weight) ∧
    b.ints.values[q]? = some Q ∧ b.ints.values[x.succ]? = some S
  tdInit : ∀ q x, x ∈ b.tdInit.abs q ↔ ∃ Q a, (ps[x.rid]?).map Prod.fst = some (.nullary Q a x.weight) ∧ b.ints.values[q]? = some Q

theorem CsBuild.rep_empty : (CsBuild.empty : CsBuild N T W).Rep [] := by
  constructor <;> simp [CsBuild.empty, Integeriser.new, VecMultiMap.abs, AMap.get]

theorem CsBuild.Rep.state {b : CsBuild N T W} {ps : List (CsProd N T W × TdBrackets)} (h : b.Rep ps) (s : CsState N) :
    (b.state s).1.Rep ps ∧ (b.state s).1.ints.values[(b.state s).2]? = some s ∧ ∃ r, (b.state s).1.ints.values = b.ints.values ++ r := by
  obtain ⟨h1, h2, r, h3⟩ := integerise_spec h.nodup s
  refine ⟨?_, h2, r, h3⟩
  have key : ∀ (k : Nat) Q, Q ∈ b.ints.values → ((b.state s).1.ints.values[k]? = some Q ↔ b.ints.values[k]? = some Q) := by
    intro k Q hQ
    have h3' : (b.state s).1.ints.values = b.ints.values ++ r := h3
    rw [h3']
    exact getElem?_append_nodup (h3 ▸ h1) hQ k
  have hmem : ∀ (k : Nat) p, (ps[k]?).map Prod.fst = some p → ∀ s ∈ p.symbols, s ∈ b.ints.values := by
    intro k p hp s' hs'
    rw [Option.map_eq_some_iff] at hp
    obtain ⟨p', hp', rfl⟩ := hp
    exact h.symbols p' (List.mem_of_getElem? hp') s' hs'
  refine ⟨h1, ?_, h.brackets, ?_, ?_, ?_, h.keys, ?_, ?_, ?_⟩
  · intro p hp s' hs'
    have h3' : (b.state s).1.ints.values = b.ints.values ++ r := h3
    rw [h3']
    exact List.mem_append_left _ (h.symbols p hp s' hs')
  · intro q₁ x
    refine (h.buBin q₁ x).trans (exists_congr fun Q => exists_congr fun L => exists_congr fun R => and_congr_right fun hp => ?_)
    rw [key _ Q (hmem _ _ hp Q (by simp [CsProd.symbols])), key _ L (hmem _ _ hp L (by simp [CsProd.symbols])),
      key _ R (hmem _ _ hp R (by simp [CsProd.symbols]))]
  · intro q₁ x
    refine (h.buUn q₁ x).trans (exists_congr fun Q => exists_congr fun L => and_congr_right fun hp => ?_)
    rw [key _ Q (hmem _ _ hp Q (by simp [CsProd.symbols])), key _ L (hmem _ _ hp L (by simp [CsProd.symbols]))]
  · intro q₁ x
    refine (h.buInit q₁ x).trans (exists_congr fun Q => and_congr_right fun hp => ?_)
    rw [key _ Q (hmem _ _ hp Q (by simp [CsProd.symbols]))]
  · intro q₁ x
    refine (h.tdBin q₁ x).trans (exists_congr fun Q => exists_congr fun L => exists_congr fun R => and_congr_right fun hp => ?_)
    rw [key _ Q (hmem _ _ hp Q (by simp [CsProd.symbols])), key _ L (hmem _ _ hp L (by simp [CsProd.symbols])),
      key _ R (hmem _ _ hp R (by simp [CsProd.symbols]))]
  · intro q₁ x
    refine (h.tdUn q₁ x).trans (exists_congr fun Q => exists_congr fun L => and_congr_right fun hp => ?_)
    rw [key _ Q (hmem _ _ hp Q (by simp [CsProd.symbols])), key _ L (hmem _ _ hp L (by simp [CsProd.symbols]))]
  · intro q₁ x
    refine (h.tdInit q₁ x).trans (exists_congr fun Q => exists_congr fun a => and_congr_right fun hp => ?_)
    rw [key _ Q (hmem _ _ hp Q (by simp [CsProd.symbols]))]

theorem getElem?_concat_iff {X : Type _} {l : List X} {x y : X} {k : Nat} : (l ++ [x])[k]? = some y ↔ l[k]? = some y ∨ (k = l.length ∧ x = y) := by
  by_cases hk : k < l.length
  · rw [List.getElem?_append_left hk]
    have : k ≠ l.length := by omega
    simp [this]
  · rw [List.getElem?_append_right (by omega), List.getElem?_eq_none (by omega : l.length ≤ k)]
    by_cases h : k = l.length
    · simp [h]
    · rw [List.getElem?_eq_none (by simp; omega)]
      simp [h]

theorem map_getElem?_concat {P Y : Type _} {ps : List (P × Y)} {p : P} {y : Y} {k : Nat} {p' : P} :
    ((ps ++ [(p, y)])[k]?).map Prod.fst = some p' ↔ (ps[k]?).map Prod.fst = some p' ∨ (k = ps.length ∧ p = p') := by
  constructor
  · intro h
    rw [Option.map_eq_some_iff] at h
    obtain ⟨z, h1, h2⟩ := h
    rw [getElem?_concat_iff] at h1
    rcases h1 with h1 | ⟨h1, rfl⟩
    · exact .inl (by rw [h1]; simp [h2])
    · exact .inr ⟨h1, h2⟩
  · rintro (h | ⟨rfl, rfl⟩)
    · rw [Option.map_eq_some_iff] at h
      obtain ⟨z, h1, h2⟩ := h
      rw [getElem?_concat_iff.2 (.inl h1)]
      simp [h2]
    · simp

theorem nodup_index {X : Type _} {l : List X} (h : l.Nodup) {x : X} {i j : Nat} (hi : l[i]? = some x) (hj : l[j]? = some x) : i = j := by
  obtain ⟨h1, h2⟩ := List.getElem?_eq_some_iff.1 hi
  obtain ⟨h3, h4⟩ := List.getElem?_eq_some_iff.1 hj
  exact (List.Nodup.getElem_inj_iff h).1 (h2.trans h4.symm)

theorem VecMultiMap.mem_pushTo {X : Type _} {m : VecMultiMap X} {i j : Nat} {x y : X} :
    y ∈ (m.pushTo i x).abs j ↔ y ∈ m.abs j ∨ (j = i ∧ y = x) := by
  unfold VecMultiMap.pushTo
  rw [VecMultiMap.abs_modify]
  by_cases h : j = i
  · subst h
    simp
  · rw [Function.update_of_ne h]
    simp [h]

theorem CsBuild.Rep.addBinary {b : CsBuild N T W} {ps : List (CsProd N T W × TdBrackets)} (h : b.Rep ps) {left right q : Nat} {L R Q : CsState N}
    (w : W) (br : TdBrackets) (hL : b.ints.values[left]? = some L) (hR : b.ints.values[right]? = some R) (hQ : b.ints.values[q]? = some Q) :
    (b.addBinary left right w q br).Rep (ps ++ [(.binary Q L R w, br)]) := by
  have hlen : b.brackets.length = ps.length := by rw [h.brackets, List.length_map]
  refine ⟨h.nodup, ?_, by simp [CsBuild.addBinary, h.brackets], ?_, ?_, ?_, h.keys, ?_, ?_, ?_⟩
  · intro p hp s hs
    rcases List.mem_append.1 hp with hp | hp
    · exact h.symbols p hp s hs
    · rw [List.mem_singleton] at hp
      subst hp
      simp only [CsProd.symbols, List.mem_cons, List.not_mem_nil, or_false] at hs
      rcases hs with rfl | rfl | rfl
      · exact List.mem_of_getElem? hQ
      · exact List.mem_of_getElem? hL
      · exact List.mem_of_getElem? hR
  · intro q₁ x
    simp only [CsBuild.addBinary, map_getElem?_concat]
    rw [VecMultiMap.mem_pushTo, h.buBin]
    constructor
    · rintro (⟨Q', L', R', h1, h2⟩ | ⟨rfl, rfl⟩)
      · exact ⟨Q', L', R', .inl h1, h2⟩
      · exact ⟨Q, L, R, .inr ⟨hlen, rfl⟩, hQ, hL, hR⟩
    · rintro ⟨Q', L', R', h1 | ⟨h1, h2⟩, h3, h4, h5⟩
      · exact .inl ⟨Q', L', R', h1, h3, h4, h5⟩
      · simp only [CsProd.binary.injEq] at h2
        obtain ⟨rfl, rfl, rfl, h2⟩ := h2
        refine .inr ⟨nodup_index h.nodup h4 hL, ?_⟩
        obtain ⟨r, x1, x2, x3⟩ := x
        simp only [BuBinary.mk.injEq]
        exact ⟨h1.trans hlen.symm, nodup_index h.nodup h5 hR, h2.symm, nodup_index h.nodup h3 hQ⟩
  · intro q₁ x
    simp only [CsBuild.addBinary, map_getElem?_concat]
    rw [h.buUn]
    simp
  · intro q₁ x
    simp only [CsBuild.addBinary, map_getElem?_concat]
    rw [h.buInit]
    simp
  · intro q₁ x
    simp only [CsBuild.addBinary, map_getElem?_concat]
    rw [VecMultiMap.mem_pushTo, h.tdBin]
    constructor
    · rintro (⟨Q', L', R', h1, h2⟩ | ⟨rfl, rfl⟩)
      · exact ⟨Q', L', R', .inl h1, h2⟩
      · exact ⟨Q, L, R, .inr ⟨hlen, rfl⟩, hQ, hL, hR⟩
    · rintro ⟨Q', L', R', h1 | ⟨h1, h2⟩, h3, h4, h5⟩
      · exact .inl ⟨Q', L', R', h1, h3, h4, h5⟩
      · simp only [CsProd.binary.injEq] at h2
        obtain ⟨rfl, rfl, rfl, h2⟩ := h2
        refine .inr ⟨nodup_index h.nodup h3 hQ, ?_⟩
        obtain ⟨r, x1, x2, x3⟩ := x
        simp only [TdBinary.mk.injEq]
        exact ⟨h1.trans hlen.symm, nodup_index h.nodup h4 hL, nodup_index h.nodup h5 hR, h2.symm⟩
  · intro q₁ x
    simp only [CsBuild.addBinary, map_getElem?_concat]
    rw [h.tdUn]
    simp
  · intro q₁ x
    simp only [CsBuild.addBinary, map_getElem?_concat]
    rw [h.tdInit]
    simp

theorem CsBuild.Rep.addUnary {b : CsBuild N T W} {ps : List (CsProd N T W × TdBrackets)} (h : b.Rep ps) {succ q : Nat} {S Q : CsState N}
    (w : W) (br : TdBrackets) (hS : b.ints.values[succ]? = some S) (hQ : b.ints.values[q]? = some Q) :
    (b.addUnary succ w q br).Rep (ps ++ [(.unary Q S w, br)]) := by
  have hlen : b.brackets.length = ps.length := by rw [h.brackets, List.length_map]
  refine ⟨h.nodup, ?_, by simp [CsBuild.addUnary, h.brackets], ?_, ?_, ?_, h.keys, ?_, ?_, ?_⟩
  · intro p hp s hs
    rcases List.mem_append.1 hp with hp | hp
    · exact h.symbols p hp s hs
    · rw [List.mem_singleton] at hp
      subst hp
      simp only [CsProd.symbols, List.mem_cons, List.not_mem_nil, or_false] at hs
      rcases hs with rfl | rfl
      · exact List.mem_of_getElem? hQ
      · exact List.mem_of_getElem? hS
  · intro q₁ x
    simp only [CsBuild.addUnary, map_getElem?_concat]
    rw [h.buBin]
    simp
  · intro q₁ x
    simp only [CsBuild.addUnary, map_getElem?_concat]
    rw [VecMultiMap.mem_pushTo, h.buUn]
    constructor
    · rintro (⟨Q', S', h1, h2⟩ | ⟨rfl, rfl⟩)
      · exact ⟨Q', S', .inl h1, h2⟩
      · exact ⟨Q, S, .inr ⟨hlen, rfl⟩, hQ, hS⟩
    · rintro ⟨Q', S', h1 | ⟨h1, h2⟩, h3, h4⟩
      · exact .inl ⟨Q', S', h1, h3, h4⟩
      · simp only [CsProd.unary.injEq] at h2
        obtain ⟨rfl, rfl, h2⟩ := h2
        refine .inr ⟨nodup_index h.nodup h4 hS, ?_⟩
        obtain ⟨r, x1, x2⟩ := x
        simp only [BuRule.mk.injEq]
        exact ⟨h1.trans hlen.symm, h2.symm, nodup_index h.nodup h3 hQ⟩
  · intro q₁ x
    simp only [CsBuild.addUnary, map_getElem?_concat]
    rw [h.buInit]
    simp
  · intro q₁ x
    simp only [CsBuild.addUnary, map_getElem?_concat]
    rw [h.tdBin]
    simp
  · intro q₁ x
    simp only [CsBuild.addUnary, map_getElem?_concat]
    rw [VecMultiMap.mem_pushTo, h.tdUn]
    constructor
    · rintro (⟨Q', S', h1, h2⟩ | ⟨rfl, rfl⟩)
      · exact ⟨Q', S', .inl h1, h2⟩
      · exact ⟨Q, S, .inr ⟨hlen, rfl⟩, hQ, hS⟩
    · rintro ⟨Q', S', h1 | ⟨h1, h2⟩, h3, h4⟩
      · exact .inl ⟨Q', S', h1, h3, h4⟩
      · simp only [CsProd.unary.injEq] at h2
        obtain ⟨rfl, rfl, h2⟩ := h2
        refine .inr ⟨nodup_index h.nodup h3 hQ, ?_⟩
        obtain ⟨r, x1, x2⟩ := x
        simp only [TdUnary.mk.injEq]
        exact ⟨h1.trans hlen.symm, nodup_index h.nodup h4 hS, h2.symm⟩
  · intro q₁ x
    simp only [CsBuild.addUnary, map_getElem?_concat]
    rw [h.tdInit]
    simp

omit [DecidableEq N] in
theorem AMap.keys_set {V : Type _} {m : AMap T V} (h : (m.map Prod.fst).Nodup) (a : T) (v : V) : ((m.set a v).map Prod.fst).Nodup := by
  have hmem : ∀ (m : AMap T V) (k : T), k ∈ (m.set a v).map Prod.fst → k = a ∨ k ∈ m.map Prod.fst := by
    intro m k hk
    induction m with
    | nil => simpa [AMap.set] using hk
    | cons p m ih =>
      obtain ⟨k', v'⟩ := p
      by_cases hka : k' = a
      · rw [AMap.set, if_pos hka] at hk
        exact .inr (by simpa using hk)
      · rw [AMap.set, if_neg hka, List.map_cons, List.mem_cons] at hk
        rcases hk with rfl | hk
        · exact .inr (by simp)
        · rcases ih hk with h | h
          · exact .inl h
          · exact .inr (List.mem_cons_of_mem _ h)
  induction m with
  | nil => simp [AMap.set]
  | cons p m ih =>
    obtain ⟨k', v'⟩ := p
    rw [List.map_cons, List.nodup_cons] at h
    by_cases hka : k' = a
    · rw [AMap.set, if_pos hka, List.map_cons, List.nodup_cons]
      exact h
    · rw [AMap.set, if_neg hka, List.map_cons, List.nodup_cons]
      refine ⟨fun hk => ?_, ih h.2⟩
      rcases hmem m k' hk with h' | h'
      · exact hka h'
      · exact h.1 h'

omit [DecidableEq N] in
theorem AMap.mem_iff_get {V : Type _} {m : AMap T V} (h : (m.map Prod.fst).Nodup) (a : T) (v : V) : (a, v) ∈ m ↔ m.get a = some v := by
  induction m with
  | nil => simp [AMap.get]
  | cons p m ih =>
    obtain ⟨k', v'⟩ := p
    rw [List.map_cons, List.nodup_cons] at h
    by_cases hka : k' = a
    · subst hka
      rw [AMap.get, if_pos rfl, List.mem_cons]
      constructor
      · rintro (h' | h')
        · rw [Prod.mk.injEq] at h'
          rw [h'.2]
        · exact absurd (List.mem_map_of_mem (f := Prod.fst) h') h.1
      · intro h'
        rw [Option.some.injEq] at h'
        exact .inl (by rw [h'])
    · rw [AMap.get, if_neg hka, List.mem_cons, ← ih h.2]
      constructor
      · rintro (h' | h')
        · rw [Prod.mk.injEq] at h'
          exact absurd h'.1.symm hka
        · exact h'
      · exact .inr

theorem CsBuild.Rep.addNullary {b : CsBuild N T W} {ps : List (CsProd N T W × TdBrackets)} (h : b.Rep ps) {q : Nat} {Q : CsState N}
    (a : T) (w : W) (br : TdBrackets) (hQ : b.ints.values[q]? = some Q) :
    (b.addNullary a w q br).Rep (ps ++ [(.nullary Q a w, br)]) := by
  have hlen : b.brackets.length = ps.length := by rw [h.brackets, List.length_map]
  refine ⟨h.nodup, ?_, by simp [CsBuild.addNullary, h.brackets], ?_, ?_, ?_, AMap.keys_set h.keys _ _, ?_, ?_, ?_⟩
  · intro p hp s hs
    rcases List.mem_append.1 hp with hp | hp
    · exact h.symbols p hp s hs
    · rw [List.mem_singleton] at hp
      subst hp
      simp only [CsProd.symbols, List.mem_cons, List.not_mem_nil, or_false] at hs
      subst hs
      exact List.mem_of_getElem? hQ
  · intro q₁ x
    simp only [CsBuild.addNullary, map_getElem?_concat]
    rw [h.buBin]
    simp
  · intro q₁ x
    simp only [CsBuild.addNullary, map_getElem?_concat]
    rw [h.buUn]
    simp
  · intro a' x
    simp only [CsBuild.addNullary, map_getElem?_concat]
    rw [AMap.get_set]
    have hold : x ∈ (b.buInit.get a').getD [] ↔ _ := h.buInit a' x
    have hnew : x ∈ (if a = a' then some ((b.buInit.get a).getD [] ++ [(⟨b.brackets.length, w, q⟩ : BuRule W)]) else b.buInit.get a').getD [] ↔
        x ∈ (b.buInit.get a').getD [] ∨ (a' = a ∧ x = ⟨b.brackets.length, w, q⟩) := by
      by_cases ha : a = a'
      · subst ha
        simp
      · simp [ha, Ne.symm ha]
    rw [hnew, hold]
    constructor
    · rintro (⟨Q', h1, h2⟩ | ⟨rfl, rfl⟩)
      · exact ⟨Q', .inl h1, h2⟩
      · exact ⟨Q, .inr ⟨hlen, rfl⟩, hQ⟩
    · rintro ⟨Q', h1 | ⟨h1, h2⟩, h3⟩
      · exact .inl ⟨Q', h1, h3⟩
      · simp only [CsProd.nullary.injEq] at h2
        obtain ⟨rfl, rfl, h2⟩ := h2
        refine .inr ⟨rfl, ?_⟩
        obtain ⟨r, x1, x2⟩ := x
        simp only [BuRule.mk.injEq]
        exact ⟨h1.trans hlen.symm, h2.symm, nodup_index h.nodup h3 hQ⟩
  · intro q₁ x
    simp only [CsBuild.addNullary, map_getElem?_concat]
    rw [h.tdBin]
    simp
  · intro q₁ x
    simp only [CsBuild.addNullary, map_getElem?_concat]
    rw [h.tdUn]
    simp
  · intro q₁ x
    simp only [CsBuild.addNullary, map_getElem?_concat]
    rw [VecMultiMap.mem_pushTo, h.tdInit]
    constructor
    · rintro (⟨Q', a', h1, h2⟩ | ⟨rfl, rfl⟩)
      · exact ⟨Q', a', .inl h1, h2⟩
      · exact ⟨Q, a, .inr ⟨hlen, rfl⟩, hQ⟩
    · rintro ⟨Q', a', h1 | ⟨h1, h2⟩, h3⟩
      · exact .inl ⟨Q', a', h1, h3⟩
      · simp only [CsProd.nullary.injEq] at h2
        obtain ⟨rfl, rfl, h2⟩ := h2
        refine .inr ⟨nodup_index h.nodup h3 hQ, ?_⟩
        obtain ⟨r, x1⟩ := x
        simp only [TdNullary.mk.injEq]
        exact ⟨h1.trans hlen.symm, h2.symm⟩

end

section
variable {N T W : Type _} [DecidableEq N] [DecidableEq T] [One W]

theorem rep_ext {b b' : CsBuild N T W} {k : Nat} {s : CsState N} (h : b.ints.values[k]? = some s) (hx : ∃ r, b'.ints.values = b.ints.values ++ r) :
    b'.ints.values[k]? = some s := by
  obtain ⟨r, hr⟩ := hx
  rw [hr, List.getElem?_append_left (List.getElem?_eq_some_iff.1 h).1]
  exact h

theorem CsBuild.Rep.rest {rid cid : Nat} {tail : List N} {q : Nat} {Q : CsState N} (c : List (VarT T)) :
    ∀ (off : Nat) (b b' : CsBuild N T W) (ps : List (CsProd N T W × TdBrackets)) (left : Nat) (L : CsState N), b.Rep ps → b.ints.values[q]? = some Q →
      b.ints.values[left]? = some L → CsBuild.rest rid cid tail q c off b left = some b' →
      ∃ vs, c.mapM (varSymbol rid tail) = some vs ∧
        b'.Rep (ps ++ leftBranch (.unique rid cid) Q (.component rid cid) off (L, .ignore) vs 1) := by
  induction c with
  | nil =>
    intro off b b' ps left L h hQ hL hb
    simp only [CsBuild.rest, Option.some.injEq] at hb
    subst hb
    exact ⟨[], rfl, by simpa [leftBranch] using h⟩
  | cons x c ih =>
    intro off b b' ps left L h hQ hL hb
    cases x with
    | t a => simp [CsBuild.rest] at hb
    | var i j =>
      simp only [CsBuild.rest] at hb
      split at hb
      · exact absurd hb (by simp)
      rename_i n hn
      obtain ⟨h1, h2, h3⟩ := h.state (.non n j)
      have hv : varSymbol rid tail (.var i j : VarT T) = some (.non n j, .variable rid i j) := by simp [varSymbol, hn]
      split at hb
      · rw [Option.some.injEq] at hb
        subst hb
        refine ⟨[(.non n j, .variable rid i j)], by simp [hv], ?_⟩
        exact h1.addBinary _ _ (rep_ext hL h3) h2 (rep_ext hQ h3)
      · rename_i y c
        obtain ⟨h4, h5, h6⟩ := h1.state (.unique rid cid off)
        have h7 := h4.addBinary (1 : W) ⟨.ignore, .ignore, .variable rid i j⟩ (rep_ext (rep_ext hL h3) h6) (rep_ext h2 h6) h5
        obtain ⟨vs, h8, h9⟩ := ih (off + 1) _ b' _ _ (.unique rid cid off) h7 (rep_ext (rep_ext hQ h3) h6) h5 hb
        refine ⟨(.non n j, .variable rid i j) :: vs, by rw [List.mapM_cons, hv, h8]; rfl, ?_⟩
        have hne : vs ≠ [] := by
          rintro rfl
          rw [List.mapM_cons] at h8
          cases hv' : varSymbol rid tail y with
          | none => rw [hv'] at h8; exact absurd h8 (by simp)
          | some z =>
            rw [hv'] at h8
            cases hv'' : c.mapM (varSymbol rid tail) with
            | none => rw [hv''] at h8; exact absurd h8 (by simp)
            | some z' => rw [hv''] at h8; exact absurd h8 (by simp)
        obtain ⟨z, zs, rfl⟩ := List.exists_cons_of_ne_nil hne
        rw [leftBranch]
        · simpa using h9
        · simp

theorem CsBuild.Rep.component {rid cid : Nat} {head : N} {tail : List N} {c : List (VarT T)} {w : W} {b b' : CsBuild N T W}
    {ps : List (CsProd N T W × TdBrackets)} (h : b.Rep ps) (hb : CsBuild.component rid cid head tail c w b = some b') :
    ∃ new, componentProds rid cid head tail c w = some new ∧ b'.Rep (ps ++ new) := by
  obtain ⟨h1, h2, h3⟩ := h.state (.non head cid)
  unfold CsBuild.component at hb
  simp only at hb
  split at hb
  · exact absurd hb (by simp)
  · rw [Option.some.injEq] at hb
    subst hb
    exact ⟨_, rfl, h1.addNullary _ _ _ h2⟩
  · rename_i i j
    split at hb
    · exact absurd hb (by simp)
    rename_i n hn
    rw [Option.some.injEq] at hb
    subst hb
    obtain ⟨h4, h5, h6⟩ := h1.state (.non n j)
    refine ⟨_, by simp [componentProds, varSymbol, hn]; rfl, ?_⟩
    exact h4.addUnary _ _ h5 (rep_ext h2 h6)
  · rename_i i₁ j₁ i₂ j₂ c
    split at hb
    swap
    · exact absurd hb (by simp)
    rename_i n₁ n₂ hn₁ hn₂
    obtain ⟨h4, h5, h6⟩ := h1.state (.non n₁ j₁)
    obtain ⟨h7, h8, h9⟩ := h4.state (.non n₂ j₂)
    have hv₁ : varSymbol rid tail (.var i₁ j₁ : VarT T) = some (.non n₁ j₁, .variable rid i₁ j₁) := by simp [varSymbol, hn₁]
    have hv₂ : varSymbol rid tail (.var i₂ j₂ : VarT T) = some (.non n₂ j₂, .variable rid i₂ j₂) := by simp [varSymbol, hn₂]
    split at hb
    · rw [Option.some.injEq] at hb
      subst hb
      refine ⟨_, by simp [componentProds, hv₁, hv₂, leftBranch]; rfl, ?_⟩
      exact h7.addBinary _ _ (rep_ext h5 h9) h8 (rep_ext (rep_ext h2 h6) h9)
    · rename_i y c
      obtain ⟨g1, g2, g3⟩ := h7.state (.unique rid cid 0)
      have g4 := g1.addBinary w ⟨.ignore, .variable rid i₁ j₁, .variable rid i₂ j₂⟩ (rep_ext (rep_ext h5 h9) g3) (rep_ext h8 g3) g2
      obtain ⟨vs, g5, g6⟩ := CsBuild.Rep.rest (y :: c) 1 _ b' _ _ (.unique rid cid 0) g4 (rep_ext (rep_ext (rep_ext h2 h6) h9) g3) g2 hb
      refine ⟨_, by rw [componentProds, hv₁, List.mapM_cons, hv₂, g5]; rfl, ?_⟩
      have hne : vs ≠ [] := by
        rintro rfl
        rw [List.mapM_cons] at g5
        cases hv' : varSymbol rid tail y with
        | none => rw [hv'] at g5; exact absurd g5 (by simp)
        | some z =>
          rw [hv'] at g5
          cases hv'' : c.mapM (varSymbol rid tail) with
          | none => rw [hv''] at g5; exact absurd g5 (by simp)
          | some z' => rw [hv''] at g5; exact absurd g5 (by simp)
      obtain ⟨z, zs, rfl⟩ := List.exists_cons_of_ne_nil hne
      simp only [leftBranch]
      simpa using g6
  · exact absurd hb (by simp)

theorem CsBuild.Rep.components {rid : Nat} {head : N} {tail : List N} (cs : List (List (VarT T) × W)) :
    ∀ (cid : Nat) (b b' : CsBuild N T W) (ps : List (CsProd N T W × TdBrackets)), b.Rep ps → CsBuild.components rid head tail cs cid b = some b' →
      ∃ new, componentsProds rid head tail cs cid = some new ∧ b'.Rep (ps ++ new) := by
  induction cs with
  | nil =>
    intro cid b b' ps h hb
    simp only [CsBuild.components, Option.some.injEq] at hb
    subst hb
    exact ⟨[], rfl, by simpa using h⟩
  | cons c cs ih =>
    intro cid b b' ps h hb
    obtain ⟨c, w⟩ := c
    simp only [CsBuild.components] at hb
    split at hb
    · exact absurd hb (by simp)
    rename_i b₁ hb₁
    obtain ⟨new₁, h1, h2⟩ := h.component hb₁
    obtain ⟨new₂, h3, h4⟩ := ih (cid + 1) b₁ b' _ h2 hb
    exact ⟨new₁ ++ new₂, by simp [componentsProds, h1, h3], by simpa using h4⟩

theorem CsBuild.Rep.rules {factorize : W → Nat → List W} (rs : List (Nat × PMCFGRule N T W)) :
    ∀ (b b' : CsBuild N T W) (ps : List (CsProd N T W × TdBrackets)), b.Rep ps → CsBuild.rules factorize rs b = some b' →
      ∃ new, grammarProds factorize rs = some new ∧ b'.Rep (ps ++ new) := by
  induction rs with
  | nil =>
    intro b b' ps h hb
    simp only [CsBuild.rules, Option.some.injEq] at hb
    subst hb
    exact ⟨[], rfl, by simpa using h⟩
  | cons r rs ih =>
    intro b b' ps h hb
    obtain ⟨rid, r⟩ := r
    simp only [CsBuild.rules] at hb
    split at hb
    · exact absurd hb (by simp)
    rename_i b₁ hb₁
    obtain ⟨new₁, h1, h2⟩ := CsBuild.Rep.components _ 0 b b₁ ps h hb₁
    obtain ⟨new₂, h3, h4⟩ := ih b₁ b' _ h2 hb
    exact ⟨new₁ ++ new₂, by simp [grammarProds, h1, h3], by simpa using h4⟩

/-- The tables of an automaton contain exactly the given productions; `st` assigns symbols to states. -/
structure CsAutomaton.Rep (A : CsAutomaton T W) (st : List (CsState N)) (ps : List (CsProd N T W × TdBrackets)) : Prop where
  nodup : st.Nodup
  symbols : ∀ p ∈ ps, ∀ s ∈ p.1.symbols, s ∈ st
  brackets : A.brackets = ps.map Prod.snd
  len : A.buBinaries.length = st.length ∧ A.buUnaries.length = st.length ∧ A.tdBinaries.length = st.length ∧ A.tdUnaries.length = st.length ∧
    A.tdNullaries.length = st.length
  buBin : ∀ (q₁ : Nat) x, (∃ l, A.buBinaries[q₁]? = some l ∧ x ∈ l) ↔ ∃ Q L R, (ps[x.rid]?).map Prod.fst = some (.binary Q L R x.weight) ∧
    st[x.lhs]? = some Q ∧ st[q₁]? = some L ∧ st[x.right]? = some R
  buUn : ∀ (q₁ : Nat) x, (∃ l, A.buUnaries[q₁]? = some l ∧ x ∈ l) ↔ ∃ Q S, (ps[x.rid]?).map Prod.fst = some (.unary Q S x.weight) ∧
    st[x.lhs]? = some Q ∧ st[q₁]? = some S
  buInit : ∀ a x, (∃ l, A.buInitials.get a = some l ∧ x ∈ l) ↔ ∃ Q, (ps[x.rid]?).map Prod.fst = some (.nullary Q a x.weight) ∧ st[x.lhs]? = some Q
  keys : (A.buInitials.map Prod.fst).Nodup
  tdBin : ∀ (q : Nat) x, (∃ l, A.tdBinaries[q]? = some l ∧ x ∈ l) ↔ ∃ Q L R, (ps[x.rid]?).map Prod.fst = some (.binary Q L R x.weight) ∧
    st[q]? = some Q ∧ st[x.left]? = some L ∧ st[x.right]? = some R
  tdUn : ∀ (q : Nat) x, (∃ l, A.tdUnaries[q]? = some l ∧ x ∈ l) ↔ ∃ Q S, (ps[x.rid]?).map Prod.fst = some (.unary Q S x.weight) ∧
    st[q]? = some Q ∧ st[x.succ]? = some S
  tdInit : ∀ (q : Nat) x, (∃ l, A.tdNullaries[q]? = some l ∧ x ∈ l) ↔ ∃ Q a, (ps[x.rid]?).map Prod.fst = some (.nullary Q a x.weight) ∧ st[q]? = some Q

theorem mem_intoVecWithSize {X : Type _} (m : VecMultiMap X) (n q : Nat) (x : X) :
    (∃ l, (m.intoVecWithSize n)[q]? = some l ∧ x ∈ l) ↔ q < n ∧ x ∈ m.abs q := by
  unfold VecMultiMap.intoVecWithSize VecMultiMap.resize VecMultiMap.abs
  by_cases hq : q < n
  · by_cases hm : q < m.length
    · rw [List.getElem?_append_left (by simp; omega), List.getElem?_take_of_lt hq, List.getElem?_eq_getElem hm]
      simp [hq]
    · rw [List.getElem?_append_right (by simp; omega), List.getElem?_eq_none (by omega : m.length ≤ q), List.length_take,
        List.getElem?_replicate]
      simp
  · rw [List.getElem?_eq_none (by simp; omega)]
    simp [hq]

theorem CsAutomaton.fromGrammar_rep {factorize : W → Nat → List W} {rules : List (Nat × PMCFGRule N T W)} {init : N} {A : CsAutomaton T W}
    (h : CsAutomaton.fromGrammar factorize rules init = some A) :
    ∃ st ps, grammarProds factorize rules = some ps ∧ A.Rep st ps ∧
      (st[A.initial]? = some (.non init 0) ∨ (A.initial = st.length ∧ .non init 0 ∉ st)) := by
  unfold CsAutomaton.fromGrammar at h
  rw [Option.map_eq_some_iff] at h
  obtain ⟨b, hb, rfl⟩ := h
  obtain ⟨ps, h1, h2⟩ := CsBuild.Rep.rules rules _ b [] CsBuild.rep_empty hb
  rw [List.nil_append] at h2
  have hlen : ∀ {X : Type _} (m : VecMultiMap X), (m.intoVecWithSize b.ints.values.length).length = b.ints.values.length := by
    intro X m
    exact VecMultiMap.resize_length _ _
  have hlt : ∀ {k : Nat} {s}, b.ints.values[k]? = some s → k < b.ints.values.length := fun h => (List.getElem?_eq_some_iff.1 h).1
  refine ⟨b.ints.values, ps, h1, ⟨h2.nodup, h2.symbols, h2.brackets, ⟨hlen _, hlen _, hlen _, hlen _, hlen _⟩, ?_, ?_, ?_, h2.keys, ?_, ?_, ?_⟩, ?_⟩
  · intro q₁ x
    simp only
    rw [mem_intoVecWithSize, h2.buBin]
    refine ⟨fun h => h.2, fun h => ⟨?_, h⟩⟩
    obtain ⟨_, _, _, _, _, h, _⟩ := h
    exact hlt h
  · intro q₁ x
    simp only
    rw [mem_intoVecWithSize, h2.buUn]
    refine ⟨fun h => h.2, fun h => ⟨?_, h⟩⟩
    obtain ⟨_, _, _, _, h⟩ := h
    exact hlt h
  · intro a x
    rw [← h2.buInit]
    simp only
    cases b.buInit.get a <;> simp
  · intro q x
    simp only
    rw [mem_intoVecWithSize, h2.tdBin]
    refine ⟨fun h => h.2, fun h => ⟨?_, h⟩⟩
    obtain ⟨_, _, _, _, h, _⟩ := h
    exact hlt h
  · intro q x
    simp only
    rw [mem_intoVecWithSize, h2.tdUn]
    refine ⟨fun h => h.2, fun h => ⟨?_, h⟩⟩
    obtain ⟨_, _, _, h, _⟩ := h
    exact hlt h
  · intro q x
    simp only
    rw [mem_intoVecWithSize, h2.tdInit]
    refine ⟨fun h => h.2, fun h => ⟨?_, h⟩⟩
    obtain ⟨_, _, _, h⟩ := h
    exact hlt h
  · simp only
    unfold Integeriser.integerise
    cases hk : b.ints.findKey (CsState.non init 0) with
    | some n =>
      unfold Integeriser.findKey at hk
      rw [List.findIdx?_eq_some_iff_getElem] at hk
      obtain ⟨g1, g2, _⟩ := hk
      refine .inl ?_
      simp only
      rw [List.getElem?_eq_getElem g1]
      simpa using g2
    | none =>
      unfold Integeriser.findKey at hk
      rw [List.findIdx?_eq_none_iff] at hk
      exact .inr ⟨rfl, fun hm => by simpa using hk _ hm⟩

end

end Rustomata
