import Mathlib.Algebra.Group.Prod
import Verif.Spec.DerivationCost
import Verif.Proofs.CsKBestNear
import Verif.Proofs.CsMainAny

/-!
# The cost of a candidate is the cost of its derivation

The cost of a derivation in the tables of the generator is the sum of the costs of the factors of the rules. Sums of costs are associative also if the products of
the weights are not, so that the facts about exact weights can be used: the weights are paired with their costs.
-/

namespace Rustomata
open Spec

section
variable {R R' : Type _}

mutual
/-- A derivation with other labels. -/
def renameTree (f : R → R') : DTree R → DTree R'
  | .node r cs => .node (f r) (renamesTree f cs)
def renamesTree (f : R → R') : List (DTree R) → List (DTree R')
  | [] => []
  | d :: ds => renameTree f d :: renamesTree f ds
end

theorem relabels_eq (f : R → R') : ∀ ds, renamesTree f ds = ds.map (renameTree f)
  | [] => rfl
  | d :: ds => by rw [renamesTree, relabels_eq f ds, List.map_cons]

theorem at?_relabel (f : R → R') : ∀ (p : List Nat) (d : DTree R), (renameTree f d).at? p = (d.at? p).map f
  | [], .node _ _ => rfl
  | i :: p, .node r cs => by
    simp only [renameTree, DTree.at?, relabels_eq, List.getElem?_map]
    cases cs[i]? with
    | none => rfl
    | some d => exact at?_relabel f p d

theorem numbers_relabel (f : R → R') {rules : List R} {e : DTree Nat} {d : DTree R} (h : Numbers rules e d) : Numbers (rules.map f) e (renameTree f d) := by
  intro p
  have := h p
  rw [at?_relabel]
  cases h1 : e.at? p <;> cases h2 : d.at? p <;> rw [h1, h2] at this <;> simp_all

theorem indexed_map (f : R → R') (rules : List R) : indexed (rules.map f) = (indexed rules).map fun x => (x.1, f x.2) := by
  simp [indexed, List.zipIdx_map, Function.comp_def]

end

section
variable {N T W W' : Type _}

/-- A rule with another weight. -/
def reweigh (f : PMCFGRule N T W → W') (r : PMCFGRule N T W) : PMCFGRule N T W' := ⟨r.head, r.tail, r.composition, f r⟩

variable {f : PMCFGRule N T W → W'} {rules : List (PMCFGRule N T W)}

mutual
theorem derives_reweigh {A : N} {d : DTree (PMCFGRule N T W)} {v : List (List T)} (h : Derives rules A d v) :
    Derives (rules.map (reweigh f)) A (renameTree (reweigh f) d) v := by
  cases h with
  | node hr hs hc => exact .node (r := reweigh f _) (List.mem_map_of_mem hr) (derivesAll_reweigh hs) hc
theorem derivesAll_reweigh {As : List N} {ds : List (DTree (PMCFGRule N T W))} {vs : List (List (List T))} (h : DerivesAll rules As ds vs) :
    DerivesAll (rules.map (reweigh f)) As (renamesTree (reweigh f) ds) vs := by
  cases h with
  | nil => exact .nil
  | cons h hs => exact .cons (derives_reweigh h) (derivesAll_reweigh hs)
end

theorem encodes_reweigh {es : List (DTree Nat)} {c : List (VarT T)} {P : Parts} (h : Encodes rules es c P) : Encodes (rules.map (reweigh f)) es c P := by
  induction h with
  | nil => exact .nil
  | term _ ih => exact .term ih
  | part h1 h2 h3 _ _ ih₁ ih₂ => exact .part (r := reweigh f _) h1 (by rw [List.getElem?_map, h2]; rfl) h3 ih₁ ih₂

theorem isLcfrs_reweigh {init : N} (h : IsLcfrs rules init) : IsLcfrs (rules.map (reweigh f)) init := by
  obtain ⟨fan, h1, h2, h3⟩ := h
  refine ⟨fan, fun A k => ?_, h2, ?_⟩
  · rw [h1]
    simp [reweigh]
  · intro r hr
    obtain ⟨r, hr', rfl⟩ := List.mem_map.1 hr
    exact h3 r hr'

mutual
theorem weight_reweigh {f : PMCFGRule N T W → W' × Multiplicative NNReal} [Monoid W'] : ∀ d : DTree (PMCFGRule N T W),
    (renameTree (reweigh f) d).weight.2 = Multiplicative.ofAdd (d.cost fun r => (f r).2.toAdd)
  | .node r cs => by
    simp only [renameTree, DTree.weight, DTree.cost, Prod.snd_mul, weights_reweigh cs, ofAdd_add]
    rfl
theorem weights_reweigh {f : PMCFGRule N T W → W' × Multiplicative NNReal} [Monoid W'] : ∀ ds : List (DTree (PMCFGRule N T W)),
    (weights (renamesTree (reweigh f) ds)).2 = Multiplicative.ofAdd (costs (fun r => (f r).2.toAdd) ds)
  | [] => rfl
  | d :: ds => by simp only [renamesTree, weights, costs, Prod.snd_mul, weight_reweigh d, weights_reweigh ds, ofAdd_add]
end

/-- A production with another weight. -/
def _root_.Rustomata.Spec.CsProd.mapWeight (f : W → W') : CsProd N T W → CsProd N T W'
  | .nullary lhs a w => .nullary lhs a (f w)
  | .unary lhs s w => .unary lhs s (f w)
  | .binary lhs s₁ s₂ w => .binary lhs s₁ s₂ (f w)

def mapProd (f : W → W') (p : CsProd N T W × TdBrackets) : CsProd N T W' × TdBrackets := (p.1.mapWeight f, p.2)

variable {f : W → W'}

theorem leftBranch_map [One W] [One W'] (h1 : f 1 = 1) {inner : Nat → CsState N} {lhs : CsState N} {outer : BracketContent} :
    ∀ (c : List (CsState N × BracketContent)) (off : Nat) (q₀ : CsState N × BracketContent) (w : W),
    (leftBranch (T := T) inner lhs outer off q₀ c w).map (mapProd f) = leftBranch inner lhs outer off q₀ c (f w)
  | [], _, _, _ => rfl
  | [_], _, _, _ => rfl
  | q₁ :: q₂ :: c, off, q₀, w => by
    have := leftBranch_map h1 (inner := inner) (lhs := lhs) (outer := outer) (q₂ :: c) (off + 1) (inner off, .ignore) (1 : W)
    simp only [leftBranch, List.map_cons, this, h1]
    rfl

theorem componentProds_map [One W] [One W'] (h1 : f 1 = 1) {rid cid : Nat} {head : N} {tail : List N} {c : List (VarT T)} {w : W} :
    (componentProds rid cid head tail c w).map (List.map (mapProd f)) = componentProds rid cid head tail c (f w) := by
  unfold componentProds
  split
  · rfl
  · rfl
  · rw [Option.map_map]
    rfl
  · cases varSymbol rid tail _ with
    | none => rfl
    | some v =>
      cases List.mapM (varSymbol rid tail) _ with
      | none => rfl
      | some vs => simp [leftBranch_map h1]

theorem componentsProds_map [One W] [One W'] (h1 : f 1 = 1) {rid : Nat} {head : N} {tail : List N} : ∀ (cs : List (List (VarT T) × W)) (cid : Nat),
    (componentsProds rid head tail cs cid).map (List.map (mapProd f)) = componentsProds rid head tail (cs.map fun x => (x.1, f x.2)) cid
  | [], _ => rfl
  | (c, w) :: cs, cid => by
    simp only [componentsProds, List.map_cons]
    rw [← componentProds_map h1 (w := w), ← componentsProds_map h1 cs (cid + 1)]
    cases componentProds rid cid head tail c w with
    | none => rfl
    | some ps =>
      cases componentsProds rid head tail cs (cid + 1) with
      | none => rfl
      | some ps' => simp

theorem zip_map_snd {X : Type _} (f : W → W') : ∀ (l : List X) (fs : List W), (l.zip fs).map (fun x => (x.1, f x.2)) = l.zip (fs.map f)
  | [], _ => rfl
  | x :: l, [] => rfl
  | x :: l, w :: fs => by simp [zip_map_snd f l fs]

/-- Productions of two grammars that differ in the weights of the rules. -/
theorem grammarProds_map {V : Type _} [One W] [One W'] [One V] {f : W → V} {f' : W' → V} (h1 : f 1 = 1) (h1' : f' 1 = 1) {k : PMCFGRule N T W → W'}
    {factorize : W → Nat → List W} {factorize' : W' → Nat → List W'} : ∀ (rules : List (Nat × PMCFGRule N T W)),
    (∀ x ∈ rules, (factorize x.2.weight x.2.composition.length).map f = (factorize' (k x.2) x.2.composition.length).map f') →
    (grammarProds factorize rules).map (List.map (mapProd f)) =
      (grammarProds factorize' (rules.map fun x => (x.1, reweigh k x.2))).map (List.map (mapProd f'))
  | [], _ => rfl
  | (rid, r) :: rs, h => by
    have h2 := componentsProds_map h1 (rid := rid) (head := r.head) (tail := r.tail) (r.composition.zip (factorize r.weight r.composition.length)) 0
    have h3 := componentsProds_map h1' (rid := rid) (head := r.head) (tail := r.tail) (r.composition.zip (factorize' (k r) r.composition.length)) 0
    rw [zip_map_snd, h _ (List.mem_cons_self)] at h2
    rw [zip_map_snd, ← h2] at h3
    have h4 := grammarProds_map h1 h1' rs fun x hx => h x (List.mem_cons_of_mem _ hx)
    simp only [grammarProds, List.map_cons, reweigh]
    revert h3 h4
    generalize componentsProds rid r.head r.tail (r.composition.zip (factorize r.weight r.composition.length)) 0 = a
    generalize componentsProds rid r.head r.tail (r.composition.zip (factorize' (k r) r.composition.length)) 0 = b
    simp only [reweigh]
    generalize grammarProds factorize rs = c
    generalize grammarProds factorize' _ = d
    intro h3 h4
    rcases a with _ | a <;> rcases b with _ | b <;> rcases c with _ | c <;> rcases d with _ | d <;> simp_all

/-- Derivations of two grammars that differ in the weights; the costs are the second components of the weights. -/
theorem derives_cost [Mul W] [Monoid W'] {st : List (CsState N)} {ps : List (CsProd N T W × TdBrackets)}
    {ps' : List (CsProd N T (W' × Multiplicative NNReal) × TdBrackets)} {f : W → Multiplicative NNReal} (hp : ps.map (mapProd f) = ps'.map (mapProd Prod.snd))
    {c : Nat → NNReal} (hc : ∀ k p, (ps[k]?).map Prod.fst = some p → Multiplicative.ofAdd (c k) = f p.weight)
    {filter : List Bool} {word : List T} {ok : Nat → Nat → Nat → Prop} {i j q : Nat} {t : BinTree} {w : W}
    (h : (numGrammar st ps filter).Derives word ok i j q t w) :
    ∃ w', (numGrammar st ps' filter).Derives word ok i j q t w' ∧ w'.2 = Multiplicative.ofAdd (t.cost c) := by
  have key : ∀ (k : Nat) (p : CsProd N T W), (ps[k]?).map Prod.fst = some p →
      ∃ p', (ps'[k]?).map Prod.fst = some p' ∧ p'.mapWeight Prod.snd = p.mapWeight f := by
    intro k p hk
    have := congrArg (fun l => (l[k]?).map Prod.fst) hp
    simp only [List.getElem?_map, Option.map_map] at this
    rw [Option.map_eq_some_iff] at hk
    obtain ⟨x, hx, rfl⟩ := hk
    rw [hx] at this
    cases hx' : ps'[k]? with
    | none => simp [hx'] at this
    | some x' =>
      rw [hx'] at this
      refine ⟨x'.1, rfl, ?_⟩
      simpa [mapProd] using this.symm
  induction h with
  | nullary ha hr ho =>
    obtain ⟨h1, Q, h2, h3⟩ := hr
    obtain ⟨p', h4, h5⟩ := key _ _ h2
    have h6 := hc _ _ h2
    cases p' <;> simp only [CsProd.mapWeight, reduceCtorEq, CsProd.nullary.injEq] at h5
    obtain ⟨rfl, rfl, h5⟩ := h5
    exact ⟨_, .nullary ha ⟨h1, _, h4, h3⟩ ho, by rw [h5, BinTree.cost, h6]; rfl⟩
  | unary hr ho _ ih =>
    obtain ⟨w', ih, ih'⟩ := ih
    obtain ⟨h1, Q, S, h2, h3⟩ := hr
    obtain ⟨p', h4, h5⟩ := key _ _ h2
    have h6 := hc _ _ h2
    cases p' <;> simp only [CsProd.mapWeight, reduceCtorEq, CsProd.unary.injEq] at h5
    obtain ⟨rfl, rfl, h5⟩ := h5
    exact ⟨_, .unary ⟨h1, _, _, h4, h3⟩ ho ih, by rw [Prod.snd_mul, h5, ih', BinTree.cost, ofAdd_add, h6]; rfl⟩
  | binary hr ho _ _ ih₁ ih₂ =>
    obtain ⟨w₁, ih₁, ih₁'⟩ := ih₁
    obtain ⟨w₂, ih₂, ih₂'⟩ := ih₂
    obtain ⟨h1, Q, L, R, h2, h3⟩ := hr
    obtain ⟨p', h4, h5⟩ := key _ _ h2
    have h6 := hc _ _ h2
    cases p' <;> simp only [CsProd.mapWeight, reduceCtorEq, CsProd.binary.injEq] at h5
    obtain ⟨rfl, rfl, rfl, h5⟩ := h5
    exact ⟨_, .binary ⟨h1, _, _, _, h4, h3⟩ ho ih₁ ih₂, by
      rw [Prod.snd_mul, Prod.snd_mul, h5, ih₁', ih₂', BinTree.cost, ofAdd_add, ofAdd_add, h6, mul_assoc]; rfl⟩

end

section
variable {N T W : Type _} [DecidableEq N] [DecidableEq T] [One W]

/-- The cost of a rule: the costs of the factors of its weight. -/
noncomputable def factorCost (ℓ : W → NNReal) (factorize : W → Nat → List W) (r : PMCFGRule N T W) : NNReal :=
  ((factorize r.weight r.composition.length).map ℓ).sum

open Classical in
/-- The factorisation of a weight that is paired with its cost. -/
noncomputable def pairFactors (ℓ : W → NNReal) (factorize : W → Nat → List W) (x : W × Multiplicative NNReal) (n : Nat) : List (W × Multiplicative NNReal) :=
  if x.2 = Multiplicative.ofAdd (((factorize x.1 n).map ℓ).sum) then (firstFactor x.1 n).zip ((factorize x.1 n).map fun w => Multiplicative.ofAdd (ℓ w))
  else (firstFactor x.1 n).zip (firstFactor x.2 n)

theorem prod_zip_eq {A B : Type _} [Monoid A] [Monoid B] : ∀ (as : List A) (bs : List B), as.length = bs.length → (as.zip bs).prod = (as.prod, bs.prod)
  | [], [], _ => rfl
  | a :: as, b :: bs, h => by
    rw [List.zip_cons_cons, List.prod_cons, prod_zip_eq as bs (by simpa using h)]
    simp
  | [], b :: bs, h => by simp at h
  | a :: as, [], h => by simp at h

omit [DecidableEq N] [DecidableEq T] in
theorem pairFactors_factorizes (ℓ : W → NNReal) {factorize : W → Nat → List W} (hlen : ∀ w n, (factorize w n).length = n) :
    @Factorizes _ (@Prod.instMonoid W (Multiplicative NNReal) (constMonoid W).toMonoid _) (pairFactors ℓ factorize) := by
  letI := constMonoid W
  intro x n
  unfold pairFactors
  have hf : n ≠ 0 → (firstFactor x.1 n).prod = x.1 := (firstFactor_factorizes x.1 n).2
  split
  · rename_i h
    refine ⟨by simp [hlen, firstFactor_length], fun hn => ?_⟩
    rw [prod_zip_eq _ _ (by simp [hlen, firstFactor_length])]
    refine Prod.ext (hf hn) ?_
    rw [h]
    simp only
    generalize factorize x.1 n = l
    induction l with
    | nil => rfl
    | cons w l ih => simp only [List.map_cons, List.prod_cons, List.sum_cons, ih, ofAdd_add]
  · refine ⟨by simp [firstFactor_length], fun hn => ?_⟩
    rw [prod_zip_eq _ _ (by simp [firstFactor_length])]
    exact Prod.ext (hf hn) ((firstFactor_factorizes x.2 n).2 hn)

/-- The cost of a candidate is the cost of its derivation. -/
theorem tree_cost {factorize : W → Nat → List W} {ℓ : W → NNReal} (hℓ : ℓ 1 = 0) (hlen : ∀ w n, (factorize w n).length = n) [Mul W] {rules : List (PMCFGRule N T W)}
    {init : N} (hg : ParserGrammar rules init) {A : CsAutomaton T W} (hA : CsAutomaton.fromGrammar factorize (indexed rules) init = some A)
    {c : Nat → NNReal} (hc : ∀ st ps, grammarProds factorize (indexed rules) = some ps → A.Rep st ps → ∀ k p, (ps[k]?).map Prod.fst = some p → c k = ℓ p.weight)
    {filter : List Bool} {word : List T} {ok : Nat → Nat → Nat → Prop} {t : BinTree} {w : W} (hd : (buGrammar A filter).Derives word ok 0 word.length A.initial t w)
    {rid : Nat} {P : Parts} (ht : treeWord A.brackets t = some (compWord rid 0 P)) {d : DTree (PMCFGRule N T W)} {es : List (DTree Nat)} {u : List T}
    (hder : Derives rules init d [u]) (hnum : Numbers rules (.node rid es) d) {r : PMCFGRule N T W} {comp : List (VarT T)} (hr : rules[rid]? = some r)
    (hcomp : r.composition[0]? = some comp) (henc : Encodes rules es comp P) :
    t.cost c = d.cost (factorCost ℓ factorize) := by
  obtain ⟨st, ps, h1, h2, h3⟩ := CsAutomaton.fromGrammar_rep hA
  have hlt := Props.derives_state_lt hA hd
  rw [h2.grammar] at hd
  have hst : st[A.initial]? = some (.non init 0) := by
    rcases h3 with h3 | ⟨h3, _⟩
    · exact h3
    · rw [show A.states = st.length from h2.len.1] at hlt
      omega
  have hc := hc st ps h1 h2
  clear hA
  let cost : PMCFGRule N T W → W × Multiplicative NNReal := fun r => (r.weight, Multiplicative.ofAdd (factorCost ℓ factorize r))
  rw [h2.brackets] at ht
  clear h2 h3 hlt
  letI := constMonoid W
  have hm : (grammarProds factorize (indexed rules)).map (List.map (mapProd fun w => Multiplicative.ofAdd (ℓ w))) =
      (grammarProds (pairFactors ℓ factorize) ((indexed rules).map fun x => (x.1, reweigh cost x.2))).map (List.map (mapProd Prod.snd)) := by
    refine grammarProds_map (by rw [hℓ]; rfl) rfl _ fun x _ => ?_
    have e : cost x.2 = (x.2.weight, Multiplicative.ofAdd (((factorize x.2.weight x.2.composition.length).map ℓ).sum)) := rfl
    rw [e, pairFactors, if_pos rfl, List.map_snd_zip (by simp [hlen, firstFactor_length])]
  rw [← indexed_map (reweigh cost), h1, Option.map_some] at hm
  obtain ⟨ps', h4, h5⟩ := Option.map_eq_some_iff.1 hm.symm
  obtain ⟨w', hd', hw'⟩ := derives_cost (W' := W) h5.symm (c := c) (fun k p hk => by rw [hc k p hk]) hd
  obtain ⟨rid', P', h6, h7⟩ := (derives_stateWord (factorize := pairFactors ℓ factorize) h4 (indexed_ids _) hd' (le_refl _)).2 _ hst
  have hsnd : ps'.map Prod.snd = ps.map Prod.snd := by
    have := congrArg (List.map Prod.snd) h5
    simp only [List.map_map] at this
    exact this
  rw [hsnd, ht, Option.some.injEq] at h7
  obtain ⟨rfl, rfl⟩ := compWord_inj h7
  have hl' := isLcfrs_reweigh (f := cost) hg.lcfrs
  have hne' : ∀ r ∈ rules.map (reweigh cost), r.composition ≠ [] := by
    intro r hr
    obtain ⟨r, hr', rfl⟩ := List.mem_map.1 hr
    exact (hg.normal r hr').1
  have hcl' : ∀ r ∈ rules.map (reweigh cost), ∀ A ∈ r.tail, ∃ r' ∈ rules.map (reweigh cost), r'.head = A := by
    intro r hr A hA
    obtain ⟨r, hr₁, rfl⟩ := List.mem_map.1 hr
    obtain ⟨r', hr', e⟩ := hg.closed r hr₁ A hA
    exact ⟨_, List.mem_map_of_mem hr', e⟩
  have hr' : (rules.map (reweigh cost))[rid]? = some (reweigh cost r) := by rw [List.getElem?_map, hr]; rfl
  rcases Props.C45_word_partial hl' hne' hcl' (pairFactors_factorizes ℓ hlen) h6 with ⟨_, e2⟩ | ⟨_, m, d', es', r'', comp', e1, e2, e3, e4, e5, e6, e7, e8, e9⟩
  · refine absurd ?_ e2
    intro p x x' hx hx'
    have key : ∀ x, (p, x) ∈ ([], rid) :: P.visits [] → (DTree.node rid es).at? p = some x := by
      intro x hx
      rcases List.mem_cons.1 hx with h | h
      · cases h
        rfl
      · exact (encodes_visits henc rid p x h).1
    have := key x hx
    rw [key x' hx', Option.some.injEq] at this
    exact this.symm
  · rw [hr', Option.some.injEq] at e7
    subst e7
    rw [show (reweigh cost r).composition = r.composition from rfl, hcomp, Option.some.injEq] at e8
    subst e8
    obtain ⟨_, h8⟩ := encodes_numbers hl' hne' (derives_reweigh hder) e4 (numbers_relabel (reweigh cost) hnum) e6 hr' hcomp (encodes_reweigh henc) e9
    rw [← h8] at e5
    have := congrArg Prod.snd e5
    rw [weight_reweigh, hw'] at this
    exact (Multiplicative.ofAdd.injective this).symm

end

end Rustomata
