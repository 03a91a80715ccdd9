import Verif.Proofs.CsKBestFill

/-!
# The productions of a rule in the context-free approximation
-/

namespace Rustomata
open Spec

section
variable {N T W : Type _} [One W]

theorem leftBranch_getElem? {inner : Nat → CsState N} {lhs : CsState N} {outer : BracketContent} :
    ∀ (c : List (CsState N × BracketContent)) (off : Nat) (q₀ : CsState N × BracketContent) (w : W) (k : Nat),
      (leftBranch (T := T) inner lhs outer off q₀ c w)[k]? = (c[k]?).map fun q =>
        (.binary (if k + 1 = c.length then lhs else inner (off + k)) (if k = 0 then q₀.1 else inner (off + k - 1)) q.1 (if k = 0 then w else 1),
          ⟨if k + 1 = c.length then outer else .ignore, if k = 0 then q₀.2 else .ignore, q.2⟩)
  | [], _, _, _, k => by simp [leftBranch]
  | [q₁], off, q₀, w, k => by
    cases k with
    | zero => simp [leftBranch]
    | succ k => simp [leftBranch]
  | q₁ :: q₂ :: c, off, q₀, w, k => by
    cases k with
    | zero => simp [leftBranch]
    | succ k =>
      rw [leftBranch, List.getElem?_cons_succ, List.getElem?_cons_succ, leftBranch_getElem? (q₂ :: c)]
      have e : off + (k + 1) - 1 = off + k := by omega
      have e' : off + 1 + k = off + (k + 1) := by omega
      simp only [Nat.add_eq_zero_iff, Nat.one_ne_zero, and_false, if_false, List.length_cons, Nat.add_right_cancel_iff, e, e']
      congr 1
      funext q
      cases k with
      | zero => simp
      | succ k =>
        have : off + 1 + (k + 1) - 1 = off + (k + 1) := by omega
        simp [this]
      · simp

/-- The productions of the component `cid` of a rule. -/
inductive RuleProd (rid cid : Nat) (head : N) (tail : List N) : List (VarT T) → W → CsProd N T W × TdBrackets → Prop
  | nullary {a w} : RuleProd rid cid head tail [.t a] w (.nullary (.non head cid) a w, ⟨.component rid cid, .terminal, .ignore⟩)
  | unary {i j n w} : tail[i]? = some n →
      RuleProd rid cid head tail [.var i j] w (.unary (.non head cid) (.non n j) w, ⟨.component rid cid, .variable rid i j, .ignore⟩)
  | binary {c vs : List _} {k q₀ q w} : List.Forall₂ (fun x v => varSymbol rid tail x = some v) c vs → vs[0]? = some q₀ → vs[k + 1]? = some q →
      RuleProd rid cid head tail c w
        (.binary (if k + 2 = vs.length then .non head cid else .unique rid cid k) (if k = 0 then q₀.1 else .unique rid cid (k - 1)) q.1 (if k = 0 then w else 1),
          ⟨if k + 2 = vs.length then .component rid cid else .ignore, if k = 0 then q₀.2 else .ignore, q.2⟩)

theorem componentProds_mem {rid cid : Nat} {head : N} {tail : List N} {c : List (VarT T)} {w : W} {ps : List (CsProd N T W × TdBrackets)}
    (h : componentProds rid cid head tail c w = some ps) {p : CsProd N T W × TdBrackets} : p ∈ ps ↔ RuleProd rid cid head tail c w p := by
  unfold componentProds at h
  split at h
  · simp at h
  · cases h
    rw [List.mem_singleton]
    constructor
    · rintro rfl
      exact .nullary
    · intro h
      cases h with
      | nullary => rfl
      | binary h1 h2 h3 =>
        cases h1 with
        | cons h1 _ => simp [varSymbol] at h1
  · rename_i i j
    rw [Option.map_eq_some_iff] at h
    obtain ⟨v, hv, rfl⟩ := h
    obtain ⟨i', j', n, he, hn, rfl⟩ := varSymbol_some hv
    cases he
    rw [List.mem_singleton]
    constructor
    · rintro rfl
      exact .unary hn
    · intro h
      cases h with
      | unary h => rw [hn, Option.some.injEq] at h; subst h; rfl
      | binary h1 h2 h3 =>
        have := h1.length_eq
        have := (List.getElem?_eq_some_iff.1 h3).1
        simp at *
        omega
  · rename_i x y c
    split at h
    · rename_i v vs hv hvs
      cases h
      rw [mapM_some_iff] at hvs
      have hall : List.Forall₂ (fun x v => varSymbol rid tail x = some v) (x :: y :: c) (v :: vs) := .cons hv hvs
      constructor
      · intro hp
        obtain ⟨k, hk⟩ := List.getElem?_of_mem hp
        rw [leftBranch_getElem?, Option.map_eq_some_iff] at hk
        obtain ⟨q, hq, rfl⟩ := hk
        have := RuleProd.binary (cid := cid) (head := head) (w := w) hall (k := k) (q₀ := v) (q := q) rfl (by simpa using hq)
        have e : (k + 2 = (v :: vs).length) ↔ (k + 1 = vs.length) := by simp
        simpa only [e, Nat.zero_add] using this
      · intro h
        have e2 : ∀ vs', List.Forall₂ (fun x v => varSymbol rid tail x = some v) (x :: y :: c) vs' → vs' = v :: vs := by
          intro vs' h1
          cases h1 with
          | cons h1 h1' =>
            rw [hv, Option.some.injEq] at h1
            subst h1
            rw [← mapM_some_iff] at h1' hvs
            rw [h1', Option.some.injEq] at hvs
            rw [hvs]
        cases h with
        | binary h1 h2 h3 =>
          rename_i vs' k q₀ q
          cases e2 _ h1
          simp only [List.getElem?_cons_zero, Option.some.injEq] at h2
          subst h2
          refine List.mem_of_getElem? (i := k) ?_
          rw [leftBranch_getElem?, Option.map_eq_some_iff]
          rw [List.getElem?_cons_succ] at h3
          refine ⟨q, h3, ?_⟩
          have e : (k + 2 = (v :: vs).length) ↔ (k + 1 = vs.length) := by simp
          simp only [e, Nat.zero_add]
    · simp at h

theorem componentsProds_mem {rid : Nat} {head : N} {tail : List N} :
    ∀ (cs : List (List (VarT T) × W)) (cid : Nat) {ps : List (CsProd N T W × TdBrackets)}, componentsProds rid head tail cs cid = some ps →
      ∀ {p}, p ∈ ps ↔ ∃ k c w, cs[k]? = some (c, w) ∧ RuleProd rid (cid + k) head tail c w p
  | [], _, ps, h, p => by
    cases h
    simp
  | (c, w) :: cs, cid, ps, h, p => by
    simp only [componentsProds] at h
    split at h
    · rename_i ps₁ ps₂ h1 h2
      cases h
      rw [List.mem_append, componentProds_mem h1, componentsProds_mem cs (cid + 1) h2]
      constructor
      · rintro (h | ⟨k, c', w', h3, h4⟩)
        · exact ⟨0, c, w, rfl, h⟩
        · exact ⟨k + 1, c', w', h3, by rw [show cid + (k + 1) = cid + 1 + k by omega]; exact h4⟩
      · rintro ⟨k, c', w', h3, h4⟩
        cases k with
        | zero => cases h3; exact .inl h4
        | succ k => exact .inr ⟨k, c', w', h3, by rw [show cid + 1 + k = cid + (k + 1) by omega]; exact h4⟩
    · simp at h

/-- The productions of a rule. -/
def ProdOf (factorize : W → Nat → List W) (r : Nat × PMCFGRule N T W) (p : CsProd N T W × TdBrackets) : Prop :=
  ∃ cid c w, r.2.composition[cid]? = some c ∧ (factorize r.2.weight r.2.composition.length)[cid]? = some w ∧ RuleProd r.1 cid r.2.head r.2.tail c w p

theorem grammarProds_mem {factorize : W → Nat → List W} :
    ∀ (rules : List (Nat × PMCFGRule N T W)) {ps : List (CsProd N T W × TdBrackets)}, grammarProds factorize rules = some ps →
      ∀ {p}, p ∈ ps ↔ ∃ r ∈ rules, ProdOf factorize r p
  | [], ps, h, p => by
    cases h
    simp
  | (rid, r) :: rs, ps, h, p => by
    simp only [grammarProds] at h
    split at h
    · rename_i ps₁ ps₂ h1 h2
      cases h
      rw [List.mem_append, componentsProds_mem _ 0 h1, grammarProds_mem rs h2, List.exists_mem_cons_iff]
      refine or_congr ⟨?_, ?_⟩ Iff.rfl
      · rintro ⟨k, c, w, h3, h4⟩
        rw [List.getElem?_zip_eq_some] at h3
        exact ⟨k, c, w, h3.1, h3.2, by simpa using h4⟩
      · rintro ⟨k, c, w, h3, h3', h4⟩
        exact ⟨k, c, w, by rw [List.getElem?_zip_eq_some]; exact ⟨h3, h3'⟩, by simpa using h4⟩
    · simp at h

theorem grammarProds_split {factorize : W → Nat → List W} :
    ∀ (rules rules' : List (Nat × PMCFGRule N T W)) {ps : List (CsProd N T W × TdBrackets)}, grammarProds factorize (rules ++ rules') = some ps →
      ∃ ps₁ ps₂, grammarProds factorize rules = some ps₁ ∧ grammarProds factorize rules' = some ps₂ ∧ ps = ps₁ ++ ps₂
  | [], rules', ps, h => ⟨[], ps, rfl, h, rfl⟩
  | r :: rs, rules', ps, h => by
    simp only [List.cons_append, grammarProds] at h
    split at h
    · rename_i ps₁ ps₂ h1 h2
      cases h
      obtain ⟨ps₃, ps₄, h3, h4, rfl⟩ := grammarProds_split rs rules' h2
      exact ⟨ps₁ ++ ps₃, ps₄, by simp [grammarProds, h1, h3], h4, by simp⟩
    · simp at h

/-- A production of the `k`-th rule has a position among the productions of this rule. -/
theorem grammarProds_at {factorize : W → Nat → List W} {pre post : List (Nat × PMCFGRule N T W)} {r : Nat × PMCFGRule N T W}
    {ps : List (CsProd N T W × TdBrackets)} (h : grammarProds factorize (pre ++ r :: post) = some ps) :
    ∃ ps₁ ps₂, grammarProds factorize pre = some ps₁ ∧ grammarProds factorize [r] = some ps₂ ∧
      ∀ p, ProdOf factorize r p → ∃ k, ps₁.length ≤ k ∧ k < ps₁.length + ps₂.length ∧ ps[k]? = some p := by
  obtain ⟨ps₁, ps', h1, h2, rfl⟩ := grammarProds_split pre (r :: post) h
  obtain ⟨ps₂, ps₃, h3, h4, rfl⟩ := grammarProds_split [r] post h2
  refine ⟨ps₁, ps₂, h1, h3, fun p hp => ?_⟩
  obtain ⟨k, hk⟩ := List.getElem?_of_mem ((grammarProds_mem [r] h3).2 ⟨r, by simp, hp⟩)
  have hlt := (List.getElem?_eq_some_iff.1 hk).1
  refine ⟨ps₁.length + k, by omega, by omega, ?_⟩
  rw [List.getElem?_append_right (by omega), List.getElem?_append_left (by omega)]
  simpa using hk

end

end Rustomata
