import Mathlib.Algebra.Group.PUnit
import Verif.Proofs.CsWords
import Verif.Proofs.CsEncode

/-!
# Derivations of the context-free approximation for weights without laws

The rules of a derivation do not depend on the weights. So, facts about the rules that were proved for commutative monoids also hold for weights whose
multiplication has no laws: the multiplication is exchanged for one that has the laws, and the weights are factorised differently.
-/

namespace Rustomata
open Spec

/-- A multiplication for an arbitrary type: all products of elements other than one are the same. -/
noncomputable def constMonoid (W : Type _) [One W] : CommMonoid W :=
  letI := Classical.propDecidable
  let c : W := if h : ∃ c : W, c ≠ 1 then h.choose else 1
  have hc : ∀ x : W, x ≠ 1 → c ≠ 1 := fun x hx => by
    have h : ∃ c : W, c ≠ 1 := ⟨x, hx⟩
    simp only [c, dif_pos h]
    exact h.choose_spec
  { one := 1
    mul := fun x y => if x = 1 then y else if y = 1 then x else c
    one_mul := fun x => by
      change (if (1 : W) = 1 then x else _) = x
      simp
    mul_one := fun x => by
      change (if x = 1 then (1 : W) else if (1 : W) = 1 then x else c) = x
      by_cases h : x = 1 <;> simp [h]
    mul_comm := fun x y => by
      change (if x = 1 then y else if y = 1 then x else c) = (if y = 1 then x else if x = 1 then y else c)
      by_cases h : x = 1 <;> by_cases h' : y = 1 <;> simp [h, h']
    mul_assoc := fun x y z => by
      change (if (if x = 1 then y else if y = 1 then x else c) = 1 then z else if z = 1 then (if x = 1 then y else if y = 1 then x else c) else c) =
        (if x = 1 then (if y = 1 then z else if z = 1 then y else c) else if (if y = 1 then z else if z = 1 then y else c) = 1 then x else c)
      by_cases h : x = 1
      · simp [h]
      · have := hc x h
        by_cases h' : y = 1 <;> by_cases h'' : z = 1 <;> simp [h, h', h'', this] }

theorem constMonoid_one (W : Type _) [h : One W] : (constMonoid W).toOne = h := rfl

/-- The factorisation with the whole weight as the first factor. -/
def firstFactor {W : Type _} [One W] (w : W) : Nat → List W
  | 0 => []
  | n + 1 => w :: List.replicate n 1

theorem firstFactor_length {W : Type _} [One W] (w : W) (n : Nat) : (firstFactor w n).length = n := by cases n <;> simp [firstFactor]

theorem firstFactor_factorizes {W : Type _} [Monoid W] : Factorizes (firstFactor : W → Nat → List W) := by
  refine fun w n => ⟨firstFactor_length w n, fun h => ?_⟩
  cases n with
  | zero => exact absurd rfl h
  | succ n => simp [firstFactor]

section
variable {N T W : Type _}

/-- A production without its weight. -/
def CsProd.forget : CsProd N T W → CsProd N T Unit
  | .nullary lhs a _ => .nullary lhs a ()
  | .unary lhs s _ => .unary lhs s ()
  | .binary lhs s₁ s₂ _ => .binary lhs s₁ s₂ ()

def forgetProd (p : CsProd N T W × TdBrackets) : CsProd N T Unit × TdBrackets := (CsProd.forget p.1, p.2)

theorem leftBranch_forget [One W] {inner : Nat → CsState N} {lhs : CsState N} {outer : BracketContent} : ∀ (c : List (CsState N × BracketContent)) (off : Nat)
    (q₀ : CsState N × BracketContent) (w : W),
    (leftBranch (T := T) inner lhs outer off q₀ c w).map forgetProd = leftBranch inner lhs outer off q₀ c ()
  | [], _, _, _ => rfl
  | [_], _, _, _ => rfl
  | q₁ :: q₂ :: c, off, q₀, w => by
    have := leftBranch_forget (inner := inner) (lhs := lhs) (outer := outer) (q₂ :: c) (off + 1) (inner off, .ignore) (1 : W)
    simp only [leftBranch, List.map_cons, this]
    rfl

theorem componentProds_forget [One W] {rid cid : Nat} {head : N} {tail : List N} {c : List (VarT T)} {w : W} :
    (componentProds rid cid head tail c w).map (List.map forgetProd) = componentProds rid cid head tail c () := by
  unfold componentProds
  split
  · rfl
  · rfl
  · rw [Option.map_map]
    rfl
  · cases varSymbol rid tail _ with
    | none => rfl
    | some v =>
      cases List.mapM (varSymbol rid tail) _ with
      | none => rfl
      | some vs => simp [leftBranch_forget]

theorem componentsProds_forget [One W] {rid : Nat} {head : N} {tail : List N} : ∀ (cs : List (List (VarT T) × W)) (cid : Nat),
    (componentsProds rid head tail cs cid).map (List.map forgetProd) = componentsProds rid head tail (cs.map fun x => (x.1, ())) cid
  | [], _ => rfl
  | (c, w) :: cs, cid => by
    simp only [componentsProds, List.map_cons]
    rw [← componentProds_forget (w := w), ← componentsProds_forget cs (cid + 1)]
    cases componentProds rid cid head tail c w with
    | none => rfl
    | some ps =>
      cases componentsProds rid head tail cs (cid + 1) with
      | none => rfl
      | some ps' => simp

theorem zip_forget {X : Type _} : ∀ (l : List X) (fs : List W), fs.length = l.length → (l.zip fs).map (fun x => (x.1, ())) = l.map fun x => (x, ())
  | [], _, _ => rfl
  | x :: l, [], h => by simp at h
  | x :: l, f :: fs, h => by
    simp only [List.zip_cons_cons, List.map_cons]
    rw [zip_forget l fs (by simpa using h)]

/-- The productions without their weights do not depend on the factorisation. -/
theorem grammarProds_forget [One W] {factorize : W → Nat → List W} (hlen : ∀ w n, (factorize w n).length = n) : ∀ (rules : List (Nat × PMCFGRule N T W)),
    (grammarProds factorize rules).map (List.map forgetProd) = (grammarProds firstFactor rules).map (List.map forgetProd)
  | [] => rfl
  | (rid, r) :: rs => by
    simp only [grammarProds]
    have h1 := componentsProds_forget (rid := rid) (head := r.head) (tail := r.tail) (r.composition.zip (factorize r.weight r.composition.length)) 0
    have h2 := componentsProds_forget (rid := rid) (head := r.head) (tail := r.tail) (r.composition.zip (firstFactor r.weight r.composition.length)) 0
    rw [zip_forget _ _ (hlen _ _)] at h1
    rw [zip_forget _ _ (firstFactor_length _ _), ← h1] at h2
    have h3 := grammarProds_forget hlen rs
    revert h2 h3
    generalize componentsProds rid r.head r.tail (r.composition.zip (factorize r.weight r.composition.length)) 0 = a
    generalize componentsProds rid r.head r.tail (r.composition.zip (firstFactor r.weight r.composition.length)) 0 = b
    generalize grammarProds factorize rs = c
    generalize grammarProds firstFactor rs = d
    intro h2 h3
    rcases a with _ | a <;> rcases b with _ | b <;> rcases c with _ | c <;> rcases d with _ | d <;> simp_all

/-- Grammars with the same productions up to the weights have the same derivations. -/
theorem derives_forget {W' : Type _} [Mul W] [Mul W'] {st : List (CsState N)} {ps : List (CsProd N T W × TdBrackets)} {ps' : List (CsProd N T W' × TdBrackets)}
    (hp : ps.map forgetProd = ps'.map forgetProd) {filter : List Bool} {word : List T} {ok : Nat → Nat → Nat → Prop} {i j q : Nat} {t : BinTree} {w : W}
    (h : (numGrammar st ps filter).Derives word ok i j q t w) : ∃ w', (numGrammar st ps' filter).Derives word ok i j q t w' := by
  have key : ∀ (k : Nat) (p : CsProd N T W), (ps[k]?).map Prod.fst = some p → ∃ p' : CsProd N T W', (ps'[k]?).map Prod.fst = some p' ∧ CsProd.forget p' = CsProd.forget p := by
    intro k p hk
    have := congrArg (fun l => (l[k]?).map Prod.fst) hp
    simp only [List.getElem?_map, Option.map_map] at this
    rw [Option.map_eq_some_iff] at hk
    obtain ⟨x, hx, rfl⟩ := hk
    rw [hx] at this
    cases hx' : ps'[k]? with
    | none => simp [hx'] at this
    | some x' =>
      rw [hx'] at this
      refine ⟨x'.1, rfl, ?_⟩
      simpa [forgetProd] using this.symm
  induction h with
  | nullary ha hr ho =>
    obtain ⟨h1, Q, h2, h3⟩ := hr
    obtain ⟨p', h4, h5⟩ := key _ _ h2
    cases p' <;> simp only [CsProd.forget] at h5 <;> cases h5
    exact ⟨_, .nullary ha ⟨h1, _, h4, h3⟩ ho⟩
  | unary hr ho _ ih =>
    obtain ⟨w', ih⟩ := ih
    obtain ⟨h1, Q, S, h2, h3⟩ := hr
    obtain ⟨p', h4, h5⟩ := key _ _ h2
    cases p' <;> simp only [CsProd.forget] at h5 <;> cases h5
    exact ⟨_, .unary ⟨h1, _, _, h4, h3⟩ ho ih⟩
  | binary hr ho _ _ ih₁ ih₂ =>
    obtain ⟨w₁, ih₁⟩ := ih₁
    obtain ⟨w₂, ih₂⟩ := ih₂
    obtain ⟨h1, Q, L, R, h2, h3⟩ := hr
    obtain ⟨p', h4, h5⟩ := key _ _ h2
    cases p' <;> simp only [CsProd.forget] at h5 <;> cases h5
    exact ⟨_, .binary ⟨h1, _, _, _, h4, h3⟩ ho ih₁ ih₂⟩

end

end Rustomata
